import Verif.Sim.Ops
/-
The operations used while a BDD size limit is in force.
-/
namespace Voss.Sim

/-- fsm.c:6998-7046 `BDD_c_limited_AND`, `BDD_c_limited_OR` without information-flow weakening: a result
that is too big is replaced by the constant one.  `big` stands for the size test (any test). -/
def limited {F : Type} (big : F → Bool) (o : Ops F) : Ops F :=
  { o with
    and := fun a b => if big (o.and a b) then o.one else o.and a b
    or := fun a b => if big (o.or a b) then o.one else o.or a b }

end Voss.Sim
