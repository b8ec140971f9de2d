import Verif.Pre.Param
import Verif.Lst.Model
import Verif.Bv.Spec
/-
Model of src/bin/fl/preamble.fl:838-885 (`forcing`, `example`, `full_example`), 943-983 (`enumerate_examples`)
and 1989-2033 (`bv_examples`).  What is printed is modelled as the list of the printed items.
-/
namespace Voss.Pre
variable {o : Order}
open Fn

/-- preamble.fl:838-847 `forcing`, on the tree of the condition; `intersect` is the builtin (C66). -/
def forcing : Dd → List (String × Bool)
  | .leaf _ => []
  | .node v H L =>
    if H = .leaf false then (v, false) :: forcing L
    else if L = .leaf false then (v, true) :: forcing H
    else if H = .leaf true then []
    else if L = .leaf true then []
    else Lst.intersect (fun p q => decide (p = q)) (forcing H) (forcing L)

/-- preamble.fl:854-860 and 876-882, the local function `select`. -/
def select (preference : Bool) : Fn o → List String → List (String × Bool)
  | _, [] => []
  | f, v :: vs =>
    let H := cof v true f
    let L := cof v false f
    if H = ff o then (v, false) :: select preference L vs
    else if L = ff o then (v, true) :: select preference H vs
    else if preference then (v, true) :: select preference H vs
    else (v, false) :: select preference L vs

/-- preamble.fl:853-863 `example`. -/
def exampleOf (preference : Bool) (cond : Fn o) : List (String × Bool) := select preference cond (depends [cond])

/-- preamble.fl:869-885 `full_example`. -/
def fullExample (preference : Bool) (vars : List String) (cond : Fn o) : Option (List (String × Bool)) :=
  if (depends [cond]).filter (· ∉ vars) ≠ [] then none else some (select preference cond vars)

/-- preamble.fl:943-947 `select`, the one of `enumerate_examples`. -/
def selectLow : Fn o → List String → List Bool
  | _, [] => []
  | f, v :: vs =>
    let H := cof v true f
    let L := cof v false f
    if L = ff o then true :: selectLow H vs else false :: selectLow L vs

/-- `vv = ex` for a list of variables and a list of constants. -/
def varsEq (o : Order) : List String → List Bool → Fn o
  | v :: vs, b :: bs => ((var o v).xnor (const o b)).and (varsEq o vs bs)
  | _, _ => tt o

/-- preamble.fl:971-977, the loop of `enumerate_examples`; the number says how many examples may still be
printed, and `none` is the line "...". -/
def enumGo (vars : List String) : Nat → Fn o → List (Option (List Bool))
  | 0, _ => [none]
  | n + 1, f =>
    if f = ff o then []
    else
      let ex := selectLow f vars
      some ex :: enumGo vars n (f.and (varsEq o vars ex).not)

/-- preamble.fl:969-981 `enumerate_examples`. -/
def enumerateExamples (max : Int) (vars : List String) (f : Fn o) : List (Option (List Bool)) :=
  enumGo vars max.toNat f

/-- `bvs = bvis` on lists of bit-vectors (C11). -/
def bvsEq (o : Order) : List (List (Fn o)) → List (List (Fn o)) → Option (Fn o)
  | a :: l, b :: m => (Bv.bvEq a b).bind fun f => (bvsEq o l m).map fun g => f.and g
  | [], [] => some (tt o)
  | _, _ => some (ff o)

/-- preamble.fl:1991-1998, the loop of `bv_examples_n`.  `bv2int` of a bit-vector of constants is its value (C12). -/
def bvExGo (vs : List String) (bvs : List (List (Fn o))) : Nat → Fn o → Option (List (List Int))
  | 0, _ => some []
  | n + 1, cond =>
    if cond = ff o then some []
    else (fullExample false vs cond).bind fun sub =>
      let bvis := bvs.map fun bv => Bv.list2bv (bv.map (subst (sub.map fun p => (p.1, const o p.2))))
      (bvsEq o bvs bvis).bind fun e =>
        (bvExGo vs bvs n (cond.and e.not)).map fun rest => bvis.map (fun bv => Bv.sv bv fun _ => false) :: rest

/-- preamble.fl:1989-2022 `bv_examples_n` for a count that is not negative: the examples and whether "..." is printed after them; the order in
which they are printed is that of `qsort` (C66), which is left out. -/
def bvExamples (cnt : Nat) (bvs : List (List (Fn o))) : Option (List (List Int) × Bool) :=
  (bvExGo (depends bvs.flatten) bvs (cnt + 1) (tt o)).map fun exs => (exs, decide (exs.length > cnt))

end Voss.Pre
