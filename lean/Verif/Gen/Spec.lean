import Verif.Pre.Fn
import Verif.Bv.Spec
/-
What a list of Boolean functions means under an assignment of the variables.
-/
namespace Voss.Gen
open Voss.Pre
variable {o : Order}

/-- The bits. -/
def bits (l : List (Fn o)) (η : Env) : List Bool := l.map fun f => f.ev η
/-- The number without sign. -/
def unsigned (l : List (Fn o)) (η : Env) : Nat := Bv.uv (bits l η)
/-- The number in two's complement. -/
def signed (l : List (Fn o)) (η : Env) : Int := Bv.tc (bits l η)

end Voss.Gen
