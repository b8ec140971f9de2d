import Mathlib.Data.List.Forall2
import Verif.Inst.Fp

/-
Specification: circuits with the same structure.
-/
namespace Voss.Inst
open Hier

/-- Operators whose arguments may be exchanged. -/
def Op.sym : Op → Prop
  | .eq | .add | .and | .mul | .or => True
  | _ => False

mutual
/-- Expressions that are the same but for names (of variables, constants, predicates and slices), the order of the arguments
of symmetric operators, and the kind of a variable or a slice. -/
inductive Same : W → W → Prop
  | x (sz) : Same (.x sz) (.x sz)
  | const (sz v) : Same (.const sz v) (.const sz v)
  | named (n n' sz v) : Same (.named n sz v) (.named n' sz v)
  | var (sz n n') : Same (.var sz n) (.var sz n')
  | evar (sz n n') : Same (.evar sz n) (.evar sz n')
  | kind (sz n n') : Same (.var sz n) (.evar sz n')
  | kind' (sz n n') : Same (.evar sz n) (.var sz n')
  | not {a b} : Same a b → Same (.not a) (.not b)
  | op (o) {a b a' b'} : Same a a' → Same b b' → Same (.op o a b) (.op o a' b')
  | swap (o : Op) {a b a' b'} : o.sym → Same a a' → Same b b' → Same (.op o a b) (.op o b' a')
  | pred (n n') {a b} : Same a b → Same (.pred n a) (.pred n' b)
  | sx (sz) {a b} : Same a b → Same (.sx sz a) (.sx sz b)
  | zx (sz) {a b} : Same a b → Same (.zx sz a) (.zx sz b)
  | ite {c t e c' t' e'} : Same c c' → Same t t' → Same e e' → Same (.ite c t e) (.ite c' t' e')
  | slice (is) {a b} : Same a b → Same (.slice is a) (.slice is b)
  | nslice (n n' is) {a b} : Same a b → Same (.nslice n is a) (.nslice n' is b)
  | unnamed (n is) {a b} : Same a b → Same (.nslice n is a) (.slice is b)
  | upd (n n' is) {a b a' b'} : Same a a' → Same b b' → Same (.upd a n is b) (.upd a' n' is b')
  | cat {as bs} : SameAll as bs → Same (.cat as) (.cat bs)
  | read (s l d) {m a m' a'} : Same m m' → Same a a' → Same (.read s l d m a) (.read s l d m' a')
  | write (s l d) {m a v m' a' v'} : Same m m' → Same a a' → Same v v' → Same (.write s l d m a v) (.write s l d m' a' v')
  | delay (sz mr Mr mf Mf) {c c' h h'} : Same c c' → SameAll h h' →
      Same (.delay sz mr Mr mf Mf c h) (.delay sz mr Mr mf Mf c' h')
/-- The same for lists of expressions, in order. -/
inductive SameAll : List W → List W → Prop
  | nil : SameAll [] []
  | cons {a b as bs} : Same a b → SameAll as bs → SameAll (a :: as) (b :: bs)
end

/-- Functions with the same structure. -/
inductive SameFn : Fn → Fn → Prop
  | update {l r l' r'} : Same l l' → Same r r' → SameFn (.update l r) (.update l' r')
  | phase {l r l' r'} : Same l l' → Same r r' → SameFn (.phase l r) (.phase l' r')

/-- Lists whose elements are related in some order. -/
def InSomeOrder {α} (r : α → α → Prop) (l l' : List α) : Prop := ∃ m, l.Perm m ∧ List.Forall₂ r m l'

/-- Names of the same sizes, in some order. -/
def SameSizes : List Name → List Name → Prop := InSomeOrder fun a b => Vec.mdSize a = Vec.mdSize b

/-- The first fingerprint among the attributes. -/
def firstFp (as : List (Name × Name)) : Option Name := (as.find? fun a => a.1 == "FP".toList).map Prod.snd

/-- Instances inside with the same fingerprint and interface. -/
structure SameKid (a b : Kid) : Prop where
  fp : firstFp a.attrs = firstFp b.attrs
  inps : SameSizes (a.inps.map Pin.formal) (b.inps.map Pin.formal)
  outs : SameSizes (a.outs.map Pin.formal) (b.outs.map Pin.formal)
  ints : SameSizes a.ints b.ints

inductive SameContent : Content Fn → Content Fn → Prop
  | leaf {l l'} : InSomeOrder SameFn l l' → SameContent (.leaf l) (.leaf l')
  | hier {l l'} : InSomeOrder SameKid l l' → SameContent (.hier l) (.hier l')

/-- Circuits that differ in names and in the order of ports, internals, functions and instances only. -/
structure SameInst (a b : Inst Fn) : Prop where
  inps : SameSizes (a.inps.map Pin.formal) (b.inps.map Pin.formal)
  outs : SameSizes (a.outs.map Pin.formal) (b.outs.map Pin.formal)
  ints : SameSizes a.ints b.ints
  content : SameContent a.content b.content

/-- What `qsort` does with numbers (C11 7.22.5.2). -/
def Sorts (sort : List Nat → List Nat) : Prop := ∀ l, (sort l).Perm l ∧ (sort l).Pairwise (· ≤ ·)

/-- The value of an expression over one bit that has only variables, `and` and `not`. -/
def val (env : Name → Bool) : W → Option Bool
  | .var 1 n => some (env n)
  | .not a => (val env a).map (!·)
  | .op .and a b => do let x ← val env a; let y ← val env b; some (x && y)
  | _ => none

end Voss.Inst
