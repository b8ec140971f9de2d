import Verif.Type.Over
/-
Specification of overloading.
-/
namespace Voss.TC

/-- The alternatives of the overloaded names are well-formed types of defined names, and instances of the
type of the name. -/
def Tm.Alts (ar : String → Nat) (G : Nat → Prop) (alts : Nat → List Ty) : Tm → Prop
  | .ov v t => ∀ a ∈ alts v, a.WF ar ∧ a.All G ∧ Instance t a
  | .app f a => f.Alts ar G alts ∧ a.Alts ar G alts
  | .cons h t => h.Alts ar G alts ∧ t.Alts ar G alts
  | .lam _ b => b.Alts ar G alts
  | .hint e _ => e.Alts ar G alts
  | _ => True

/-- `c` chooses an alternative for every overloaded name of `e`, and the expression then has a type. -/
def Works (alts : Nat → List Ty) (e : Tm) (c : Nat → Nat) : Prop :=
  (∀ v ∈ e.occs, c v < (alts v).length) ∧ ∃ τ, Types (e.pick alts c) τ

/-- `τ₁ → τ` for the first type, then `τ₂ → (τ₁ → τ)`, and so on. -/
def arrows (us : List Ty) (t : Ty) : Ty := us.foldl (fun t u => .arrow u t) t

end Voss.TC
