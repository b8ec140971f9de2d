import Verif.Type.Print
/-
What the property about printed types refers to.
-/
namespace Voss.TC

/-- A function or tuple type. -/
def Ty.chain : Ty → Bool
  | .con .tuple _ | .con .arrow _ => true
  | _ => false

def Tys.headChain : Tys → Bool
  | .nil => false
  | .cons t _ => t.chain

mutual
/-- No tuple has a tuple or a function as its first component, and no declared type has the name of a
built-in one. -/
def Ty.Legible : Ty → Prop
  | .var _ => True
  | .con o ts => (o = .tuple → ts.headChain = false) ∧ (∀ x, o = .concrete x → builtin x = none) ∧ ts.Legible
def Tys.Legible : Tys → Prop
  | .nil => True
  | .cons t ts => t.Legible ∧ ts.Legible
end

end Voss.TC
