import Verif.Sum.Model
import Mathlib.Data.List.Dedup
/- What `bv_sum` and `gen_model_count` are to compute. -/
namespace Voss.Sum
open Voss.Pre

/-- The sum of `g` over all values of the variables in the list, each of which occurs once; the other variables have
the values that the assignment gives them. -/
def total : List String → (Env → Int) → Env → Int
  | [], g, η => g η
  | v :: vs, g, η => total vs g (η.set v true) + total vs g (η.set v false)

/-- The variable whose number is in the record of the constants, if there is one, does not come, in the order, after a
variable that the functions depend on and that is not in the list. -/
def Safe (o : Order) (z : Option String) (vars : List String) (fs : List (Fn o)) : Prop :=
  ∀ v, z = some v → v ∈ vars → ∀ f ∈ Fn.depends fs, f ∉ vars → o.pos v < o.pos f

end Voss.Sum
