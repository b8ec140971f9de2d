import Verif.Pre.Param
import Verif.Lst.Model
/-
Model of `early_quant_thereis` (src/bin/fl/preamble.fl:1445-1602), called outside of symbolic conditionals (inside, an
assignment to a reference merges the new with the old value, graph.c:4517-4527).

Functions are numbered from 0 (in the code from 1).  The tables that the code keeps as association lists from
variables to references are functions here; every variable that is looked up comes from the list that the tables
were made of, except the one that `find_smallest` gives, for which this is checked.
-/
namespace Voss.Pre
variable {o : Order}
open Fn

def same {α : Type} [DecidableEq α] (a b : α) : Bool := decide (a = b)

/-- preamble.fl:1445-1455 `eq_info`, with the contents of the references. -/
structure EqSt (o : Order) where
  /-- The functions, each with the variables that it may depend on. -/
  main : List (Fn o × List String)
  /-- For each variable the numbers of the functions that may depend on it, -/
  is : String → List Nat
  /-- and how many there are. -/
  cnt : String → Nat

def upd {α : Type} (f : String → α) (v : String) (a : α) : String → α := fun w => if w = v then a else f w

/-- `foreach` with a function that changes the entries of one variable in both tables. -/
def updEach (gi : List Nat → List Nat) (gc : List Nat → Nat → Nat) (l : List String) (st : EqSt o) : EqSt o :=
  l.foldl (fun st v => { st with is := upd st.is v (gi (st.is v)), cnt := upd st.cnt v (gc (st.is v) (st.cnt v)) }) st

/-- preamble.fl:1461-1472 `mk_info`. -/
def mkInfo (qvars : List String) : List (Fn o) → EqSt o → EqSt o
  | [], st => st
  | f :: fs, st =>
    let dep := Lst.intersect same qvars (depends [f])
    let st := updEach (fun is => st.main.length :: is) (fun _ c => c + 1) dep st
    mkInfo qvars fs { st with main := st.main ++ [(f, dep)] }

/-- preamble.fl:1482-1492 `find_smallest`. -/
def findSmallest (cnt : String → Nat) : String → Nat → List String → String
  | cv, _, [] => cv
  | cv, cs, v :: vs => if cnt v < cs then findSmallest cnt v (cnt v) vs else findSmallest cnt cv cs vs

/-- preamble.fl:1545, `map (\i. assoc i main_list) indices`. -/
def lookAll (m : List (Fn o × List String)) : List Nat → Option (List (Fn o × List String))
  | [] => some []
  | i :: is => m[i]?.bind fun e => (lookAll m is).map (e :: ·)

/-- preamble.fl:1542-1562 `merge_funs`. -/
def mergeFuns (st : EqSt o) : List Nat → Option (EqSt o)
  | [] => none
  | idx :: rem =>
    (lookAll st.main (idx :: rem)).map fun es =>
      let newFun := es.foldr (fun e r => e.1.and r) (tt o)
      let newDep := Lst.setify same (es.flatMap fun e => e.2)
      let main := rem.foldl (fun m i => m.set i (tt o, [])) (st.main.set idx (newFun, newDep))
      updEach (fun is => idx :: Lst.subtract same is (idx :: rem))
        (fun is _ => (idx :: Lst.subtract same is (idx :: rem)).length) newDep { st with main := main }

/-- preamble.fl:1579-1600 `do`; the number bounds the depth of the calls, a failure is `none`. -/
def eqDo (keys : List String) : Nat → EqSt o → List String → Option (List (Fn o))
  | 0, _, _ => none
  | k + 1, st, vars =>
    if vars = [] then
      let res := (st.main.map Prod.fst).filter fun f => decide (f ≠ tt o)
      some (if res = [] then [tt o] else res)
    else
      let v := findSmallest st.cnt "" (2 ^ 60) vars
      if v ∉ keys then none
      else
        (mergeFuns st (st.is v)).bind fun st =>
          match st.is v with
          | [idx] => st.main[idx]?.bind fun e =>
            let only := e.2.filter fun v => decide (st.cnt v = 1)
            eqDo keys k { st with main := st.main.set idx (Quant_thereis only e.1, Lst.subtract same e.2 only) }
              (Lst.subtract same vars only)
          | _ => none

/-- preamble.fl:1573-1602 `early_quant_thereis`, with `early_quant_thereis_preamble` (1457-1480). -/
def earlyQuant (qvars : List String) (fns : List (Fn o)) : Option (List (Fn o)) :=
  let avars := Lst.intersect same qvars (depends fns)
  let relevant := fun f : Fn o => decide (Lst.intersect same avars (depends [f]) ≠ [])
  let rfns := fns.filter relevant
  let other := fns.filter fun f => !relevant f
  let keys := Lst.intersect same avars (depends rfns)
  (eqDo keys (avars.length + 1) (mkInfo keys rfns ⟨[], fun _ => [], fun _ => 0⟩) avars).map (· ++ other)

end Voss.Pre
