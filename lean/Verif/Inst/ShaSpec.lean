import Mathlib.Data.List.Forall2
import Verif.Inst.Sha

/-
Specification: when two circuits are the same up to the order of their functions and instances, and whole hierarchies.
-/
namespace Voss.Inst
open Hier Sha

/-- A comparison that defines a total order. -/
structure Good {α} (cmp : α → α → Ordering) : Prop where
  eq : ∀ a b, cmp a b = .eq ↔ a = b
  swap : ∀ a b, cmp b a = (cmp a b).swap
  trans : ∀ a b c, cmp a b = .lt → cmp b c = .lt → cmp a c = .lt

/-- The contract of `qsort` (C11 7.22.5.2): for a comparison that defines a total order the result is sorted. -/
def QSorts {α} (cmp : α → α → Ordering) (sort : List α → List α) : Prop :=
  Good cmp → ∀ l, (sort l).Perm l ∧ (sort l).Pairwise fun a b => cmp a b ≠ .gt

/-- Text on one line, of characters of one byte. -/
def OneLine (s : Text) : Prop := ∀ c ∈ s, c ≠ '\n' ∧ c.toNat < 256

/-- A name without spaces, newlines or `]:`. -/
def Word (s : Text) : Prop := (∀ c ∈ s, c ≠ ' ') ∧ OneLine s ∧ ¬ [']', ':'] <:+: s

/-- The strings in a function are on one line. -/
def T.Clean : T → Prop
  | .nil => True
  | .cons a b => a.Clean ∧ b.Clean
  | .int _ => True
  | .str s => OneLine s

/-- The names of an instance inside. -/
structure Key.Clean (k : Key) : Prop where
  name : Word k.name
  sha : Word k.sha
  ins : ∀ as ∈ k.ins, ∀ a ∈ as, Word a
  outs : ∀ as ∈ k.outs, ∀ a ∈ as, Word a

/-- No name in the instance confuses the text; a leaf has a function. -/
structure CleanInst (p : Inst T) : Prop where
  name : OneLine p.name
  inps : ∀ q ∈ p.inps, OneLine q.formal
  outs : ∀ q ∈ p.outs, OneLine q.formal
  ints : ∀ n ∈ p.ints, OneLine n
  content : match p.content with
    | .leaf fns => fns ≠ [] ∧ ∀ t ∈ fns, t.Clean
    | .hier cs => ∀ c ∈ cs, ∀ k, key c = some k → k.Clean

/-- Contents that are the same up to order; of instances inside the names, signatures and actuals count. -/
def SameInside : Content T → Content T → Prop
  | .leaf fns, .leaf fns' => fns.Perm fns'
  | .hier cs, .hier cs' => (cs.map key).Perm (cs'.map key)
  | _, _ => False

/-- Instances that are the same up to order. -/
structure SameUpToOrder (p q : Inst T) : Prop where
  name : p.name = q.name
  inps : p.inps.map Pin.formal = q.inps.map Pin.formal
  outs : p.outs.map Pin.formal = q.outs.map Pin.formal
  ints : p.ints = q.ints
  content : SameInside p.content q.content

/-! ### Hierarchies -/

/-- An instance without its contents. -/
structure Head where
  name : Name
  attrs : List (Name × Name)
  inps : List Pin
  outs : List Pin
  ints : List Name

/-- A whole hierarchy. -/
inductive Tree where
  | leaf (h : Head) (fns : List T)
  | hier (h : Head) (kids : List Tree)

def Tree.head : Tree → Head
  | .leaf h _ => h
  | .hier h _ => h

/-- The instance as its parent sees it. -/
def Tree.kid (t : Tree) : Kid := ⟨t.head.name, t.head.attrs, t.head.inps, t.head.outs, t.head.ints⟩

/-- The instance as its signature sees it. -/
def Tree.inst : Tree → Inst T
  | .leaf h fns => ⟨h.name, h.inps, h.outs, h.ints, .leaf fns⟩
  | .hier h kids => ⟨h.name, h.inps, h.outs, h.ints, .hier (kids.map Tree.kid)⟩

/-- `x` is an instance in a hierarchy, or the whole. -/
inductive Within (x : Tree) : Tree → Prop where
  | self : Within x x
  | kid {h kids c} : c ∈ kids → Within x c → Within x (.hier h kids)

/-- Names, formals and internals are the same. -/
structure SameHead (h h' : Head) : Prop where
  name : h.name = h'.name
  inps : h.inps.map Pin.formal = h'.inps.map Pin.formal
  outs : h.outs.map Pin.formal = h'.outs.map Pin.formal
  ints : h.ints = h'.ints

mutual
/-- Hierarchies that are the same but for the order of functions and instances, for attributes, and for the actuals of the
whole. -/
inductive SameTree : Tree → Tree → Prop where
  | leaf {h h' fns fns'} : SameHead h h' → fns.Perm fns' → SameTree (.leaf h fns) (.leaf h' fns')
  | hier {h h' kids m kids'} : SameHead h h' → kids.Perm m → SameKids m kids' → SameTree (.hier h kids) (.hier h' kids')
/-- Instances inside, in order, are the same and are connected in the same way. -/
inductive SameKids : List Tree → List Tree → Prop where
  | nil : SameKids [] []
  | cons {a b as bs} : SameTree a b → a.head.inps = b.head.inps → a.head.outs = b.head.outs → SameKids as bs →
      SameKids (a :: as) (b :: bs)
end

end Voss.Inst
