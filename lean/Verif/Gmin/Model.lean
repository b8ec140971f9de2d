import Verif.Pre.Param
import Verif.Gen.Model
import Verif.Ugen.Model
/-
Model of the smallest and the largest value of a symbolic vector: src/vosslib/bool_arithm.fl:35-65,
bexpr_arithm.fl:34-80 and bexpr_u_arithm.fl:34-80.

Simplification: the conversion of expressions to BDDs (`bexpr2bdd []`, bexpr_arithm.fl:54, 76) is not described; the
vectors of the last two files are taken after it.
-/
namespace Voss.Gmin
open Voss.Pre Voss.Pre.Fn
variable {o : Order}

/-- new_bdd.c:1677-1706 `substitute` on a list of functions (C18); a list that names a variable twice is refused. -/
def substitute (σ : List (String × Fn o)) (l : List (Fn o)) : Out (List (Fn o)) :=
  if (σ.map Prod.fst).Nodup then .ok (l.map (Fn.subst σ)) else .fail

/-- The local `find` of `get_minimum_value` (bool_arithm.fl:38-46); the number bounds the length of the list. -/
def findMin : Nat → Bool → List (Fn o) → Out (List (Fn o))
  | _, _, [] => .ok []
  | 0, _, _ :: _ => .more
  | n + 1, first, b :: bs =>
    if b = tt o then (findMin n false bs).bind fun r => .ok (tt o :: r)
    else if b = ff o then (findMin n false bs).bind fun r => .ok (ff o :: r)
    else
      let cond := if first then b else b.not
      (Out.ofOption (param cond)).bind fun psub =>
      (substitute psub bs).bind fun bs' =>
      (findMin n false bs').bind fun r => .ok (const o first :: r)

/-- The local `find` of `get_maximum_value` (bool_arithm.fl:54-62). -/
def findMax : Nat → Bool → List (Fn o) → Out (List (Fn o))
  | _, _, [] => .ok []
  | 0, _, _ :: _ => .more
  | n + 1, first, b :: bs =>
    if b = tt o then (findMax n false bs).bind fun r => .ok (tt o :: r)
    else if b = ff o then (findMax n false bs).bind fun r => .ok (ff o :: r)
    else
      let cond := if first then b.not else b
      (Out.ofOption (param cond)).bind fun psub =>
      (substitute psub bs).bind fun bs' =>
      (findMax n false bs').bind fun r => .ok (const o (!first) :: r)

/-- bool_arithm.fl:37-49 `get_minimum_value`. -/
def getMin (bv : List (Fn o)) : Out Int := (findMin bv.length true bv).bind Gen.bv2int

/-- bool_arithm.fl:53-65 `get_maximum_value`. -/
def getMax (bv : List (Fn o)) : Out Int := (findMax bv.length true bv).bind Gen.bv2int

/-- bexpr_arithm.fl:36-48 and bexpr_u_arithm.fl:36-48 `BDD_get_minimum_value`, the same text in both files. -/
def bddGetMin (bv : List (Fn o)) : Out Int := (findMin bv.length true bv).bind (Ugen.bv2num 0)

/-- bexpr_arithm.fl:58-70 and bexpr_u_arithm.fl:58-70 `BDD_get_maximum_value`. -/
def bddGetMax (bv : List (Fn o)) : Out Int := (findMax bv.length true bv).bind (Ugen.bv2num 0)

end Voss.Gmin
