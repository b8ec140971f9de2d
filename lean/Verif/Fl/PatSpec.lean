import Verif.Fl.Spec
import Verif.Fl.Pattern
/-
What it means that a value matches a pattern.
-/
namespace Voss.Fl
variable {D : Type} (A : Alg D)

/-- A pair or list cell. -/
def Alg.pair (x y : D) : D := A.app (A.app (A.con .cons) x) y

/-- The value matches the pattern and binds the variables.  Constructor applications are nested pairs with
the constructor innermost. -/
inductive Match : Pat → D → List (Name × D) → Prop where
  | int (n) : Match (.int n) (A.con (.int n)) []
  | str (s) : Match (.str s) (A.con (.str s)) []
  | bool (b) : Match (.bool b) (A.bool b) []
  | var (x d) : Match (.var x) d [(x, d)]
  | nil : Match .nil (A.con .nil) []
  | cons {p q u v s t} : Match p u s → Match q v t → Match (.cons p q) (A.pair u v) (s ++ t)
  | tuple {p q u v s t} : Match p u s → Match q v t → Match (.tuple p q) (A.pair u v) (s ++ t)
  | con0 (c) : Match (.con0 c) (A.con (.str (cname c))) []
  | capp {p q u v s t} : Match p u s → Match q v t → Match (.capp p q) (A.pair u v) (s ++ t)

/-- The value does not match the pattern. -/
inductive NoMatch : Pat → D → Prop where
  | int {m n} : m ≠ n → NoMatch (.int n) (A.con (.int m))
  | str {s t} : s ≠ t → NoMatch (.str t) (A.con (.str s))
  | bool {a b} : a ≠ b → NoMatch (.bool b) (A.bool a)
  | nil (u v) : NoMatch .nil (A.pair u v)
  | cons_nil (p q) : NoMatch (.cons p q) (A.con .nil)
  | cons_hd {p q u v} : NoMatch p u → NoMatch (.cons p q) (A.pair u v)
  | cons_tl {p q u v s} : Match A p u s → NoMatch q v → NoMatch (.cons p q) (A.pair u v)
  | tuple_fst {p q u v} : NoMatch p u → NoMatch (.tuple p q) (A.pair u v)
  | tuple_snd {p q u v s} : Match A p u s → NoMatch q v → NoMatch (.tuple p q) (A.pair u v)
  | con0_str {c s} : s ≠ cname c → NoMatch (.con0 c) (A.con (.str s))
  | con0_pair (c u v) : NoMatch (.con0 c) (A.pair u v)
  | capp_str (p q s) : NoMatch (.capp p q) (A.con (.str s))
  | capp_con {p q u v} : NoMatch p u → NoMatch (.capp p q) (A.pair u v)
  | capp_arg {p q u v s} : Match A p u s → NoMatch q v → NoMatch (.capp p q) (A.pair u v)

/-- Several arguments, first to last. -/
inductive MatchAll : List Pat → List D → List (Name × D) → Prop where
  | nil : MatchAll [] [] []
  | cons {p ps d ds s t} : Match A p d s → MatchAll ps ds t → MatchAll (p :: ps) (d :: ds) (s ++ t)

inductive NoMatchAll : List Pat → List D → Prop where
  | head {p ps d ds} : NoMatch A p d → ps.length = ds.length → NoMatchAll (p :: ps) (d :: ds)
  | tail {p ps d ds s} : Match A p d s → NoMatchAll ps ds → NoMatchAll (p :: ps) (d :: ds)

/-- Bind the variables, first to last. -/
def Env.sets {D : Type} (ρ : Env D) : List (Name × D) → Env D
  | [] => ρ
  | (x, d) :: s => (ρ.set x d).sets s

/-- The clause applies to the arguments: the patterns match and the guard is true. -/
def Clause.Takes (c : Clause) (ρ : Env D) (ds : List D) (s : List (Name × D)) : Prop :=
  MatchAll A c.pats ds s ∧ ∀ g, c.guard = some g → ∀ v, Val A g (ρ.sets s) [] v → v = A.bool true

/-- The clause does not apply: a pattern does not match, or the guard is false. -/
def Clause.Skips (c : Clause) (ρ : Env D) (ds : List D) : Prop :=
  NoMatchAll A c.pats ds ∨
  ∃ s g, MatchAll A c.pats ds s ∧ c.guard = some g ∧ ∀ v, Val A g (ρ.sets s) [] v → v = A.bool false

/-- The clause that a definition selects for the arguments, with its bindings: the first that applies, if
any does. -/
inductive Selects (ρ : Env D) (ds : List D) : List Clause → Option (Clause × List (Name × D)) → Prop where
  | none : Selects ρ ds [] none
  | take {c cs s} : c.Takes A ρ ds s → Selects ρ ds (c :: cs) (some (c, s))
  | skip {c cs o} : c.Skips A ρ ds → Selects ρ ds cs o → Selects ρ ds (c :: cs) o

/-- Variables of a pattern. -/
def Pat.vars : Pat → List Name
  | .var x => [x]
  | .cons p q => p.vars ++ q.vars
  | .tuple p q => p.vars ++ q.vars
  | .capp p q => p.vars ++ q.vars
  | _ => []

/-- Constructors of a pattern. -/
def Pat.constrs : Pat → List Name
  | .con0 c => [c]
  | .cons p q => p.constrs ++ q.constrs
  | .tuple p q => p.constrs ++ q.constrs
  | .capp p q => p.constrs ++ q.constrs
  | _ => []

/-- In `C p1 ... pn` the head is a constructor. -/
def Pat.wf : Pat → Bool
  | .cons p q => p.wf && q.wf
  | .tuple p q => p.wf && q.wf
  | .capp (.con0 _) q => q.wf
  | .capp (.capp a b) q => (Pat.capp a b).wf && q.wf
  | .capp _ _ => false
  | _ => true

/-- Names that the compiler makes up. -/
def Made (x : Name) : Prop := (∃ k, x = qName k) ∨ (∃ k, x = argName k) ∨ ∃ c, x = destName c

end Voss.Fl
