import Verif.Gen.Spec
/-
When a vector of any size stands for a number without sign: the most significant bit is not used, so that leading bits
that are the same can be removed.
-/
namespace Voss.Ugen
open Voss.Pre Voss.Gen
variable {o : Order}

/-- The number needs less than all the bits of the vector. -/
def Clear (l : List (Fn o)) (η : Env) : Prop := 2 * unsigned l η < 2 ^ l.length

end Voss.Ugen
