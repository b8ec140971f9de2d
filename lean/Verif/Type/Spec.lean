import Verif.Type.Model
/-
Specification of the type checker: which types an expression has.
-/
namespace Voss.TC

mutual
/-- Replace the variables. -/
def Ty.sub (ρ : Nat → Ty) : Ty → Ty
  | .var v => ρ v
  | .con o ts => .con o (ts.sub ρ)
def Tys.sub (ρ : Nat → Ty) : Tys → Tys
  | .nil => .nil
  | .cons t ts => .cons (t.sub ρ) (ts.sub ρ)
end

/-- `τ` is an instance of the type `t`. -/
def Instance (t τ : Ty) : Prop := ∃ ρ, τ = t.sub ρ

/-- The expression `e` has type `τ` when its variables have the types `Γ`; `η` are the types that the type
variables in type assertions stand for, and `η v` is the type of the overloaded name number `v`, an instance
of the type of its entry. -/
inductive HasType (η : Nat → Ty) : List (String × Ty) → Tm → Ty → Prop
  | var {Γ x τ} : Γ.lookup x = some τ → HasType η Γ (.var x) τ
  | lit {Γ o} : HasType η Γ (.lit o) (.base o)
  | const {Γ t τ} : Instance t τ → HasType η Γ (.const t) τ
  | ov {Γ v t} : Instance t (η v) → HasType η Γ (.ov v t) (η v)
  | app {Γ f a α β} : HasType η Γ f (.arrow α β) → HasType η Γ a α → HasType η Γ (.app f a) β
  | nil {Γ α} : HasType η Γ .nil (.list α)
  | cons {Γ h t α} : HasType η Γ h α → HasType η Γ t (.list α) → HasType η Γ (.cons h t) (.list α)
  | lam {Γ x b α β} : HasType η ((x, α) :: Γ) b β → HasType η Γ (.lam x b) (.arrow α β)
  | hint {Γ e t} : HasType η Γ e (t.sub η) → HasType η Γ (.hint e t) (t.sub η)

/-- `τ` is a type of the closed expression `e`. -/
def Types (e : Tm) (τ : Ty) : Prop := ∃ η, HasType η [] e τ

mutual
/-- All variables of a type satisfy `P`. -/
def Ty.All (P : Nat → Prop) : Ty → Prop
  | .var v => P v
  | .con _ ts => ts.All P
def Tys.All (P : Nat → Prop) : Tys → Prop
  | .nil => True
  | .cons t ts => t.All P ∧ ts.All P
end

/-- The number of arguments of an operator; `ar` gives that of the declared types. -/
def Op.arity (ar : String → Nat) : Op → Nat
  | .bool | .bexpr | .int | .fsm | .string | .void | .fp => 0
  | .list | .ref => 1
  | .arrow | .tuple | .tbl => 2
  | .concrete name => ar name

def Tys.length : Tys → Nat
  | .nil => 0
  | .cons _ ts => ts.length + 1

mutual
/-- Every operator has its number of arguments. -/
def Ty.WF (ar : String → Nat) : Ty → Prop
  | .var _ => True
  | .con o ts => ts.length = o.arity ar ∧ ts.WF ar
def Tys.WF (ar : String → Nat) : Tys → Prop
  | .nil => True
  | .cons t ts => t.WF ar ∧ ts.WF ar
end

/-- An expression the parser produces: its variables are bound (by `xs`), types are well formed, the
variables of the types of defined names and the numbers of overloaded names are among `G`, the variables of
type assertions among `H`. -/
def Tm.OK (ar : String → Nat) (G H : Nat → Prop) : List String → Tm → Prop
  | xs, .var x => x ∈ xs
  | _, .lit o => o.arity ar = 0
  | _, .const t => t.WF ar ∧ t.All G
  | _, .ov v t => t.WF ar ∧ t.All G ∧ G v
  | xs, .app f a => f.OK ar G H xs ∧ a.OK ar G H xs
  | _, .nil => True
  | xs, .cons h t => h.OK ar G H xs ∧ t.OK ar G H xs
  | xs, .lam x b => b.OK ar G H (x :: xs)
  | xs, .hint e t => e.OK ar G H xs ∧ t.WF ar ∧ t.All H

/-- The numbers of the overloaded names, the last one first. -/
def Tm.occs : Tm → List Nat
  | .ov v _ => [v]
  | .app f a => a.occs ++ f.occs
  | .cons h t => t.occs ++ h.occs
  | .lam _ b => b.occs
  | .hint e _ => e.occs
  | _ => []

mutual
/-- The variables of a type, in order. -/
def Ty.vars : Ty → List Nat
  | .var v => [v]
  | .con _ ts => ts.vars
def Tys.vars : Tys → List Nat
  | .nil => []
  | .cons t ts => t.vars ++ ts.vars
end

end Voss.TC
