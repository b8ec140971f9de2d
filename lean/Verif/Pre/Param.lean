import Verif.Pre.Fn
/-
Model of src/bin/fl/preamble.fl:416-542: next-state names, quantification over named variables, and the
parametric representation of conditions.

A failure of the evaluator is `none`.  The library functions are lazy only in the sense that they may build a
list step by step; every list below is finite, and a failure in a part makes the whole fail when it is printed,
substituted or forced by `catch` (graph.c:3275-3292), which is what all callers do.
-/
namespace Voss.Pre
variable {o : Order}
open Fn

/-- preamble.fl `c => l1 | l2` on lists of Boolean values with a condition that may be symbolic: graph.c merges
lists of the same length element by element and fails on others (C54). -/
def pick (c : Fn o) (l1 l2 : List (Fn o)) : Option (List (Fn o)) :=
  if c = tt o then some l1
  else if c = ff o then some l2
  else if l1.length = l2.length then some (List.zipWith (Fn.ite c) l1 l2)
  else none

/-- The same for lists of pairs of a name and a Boolean value; different names cannot be merged. -/
def pickPairs (c : Fn o) (l1 l2 : List (String × Fn o)) : Option (List (String × Fn o)) :=
  if c = tt o then some l1
  else if c = ff o then some l2
  else if l1.map Prod.fst = l2.map Prod.fst then
    some (List.zipWith (fun p q => (p.1, Fn.ite c p.2 q.2)) l1 l2)
  else none

/-- preamble.fl:17-25 `zip`. -/
def zipE {α β : Type} : List α → List β → Option (List (α × β))
  | [], [] => some []
  | a :: l, b :: m => (zipE l m).map ((a, b) :: ·)
  | _, _ => none

/-- preamble.fl:464-480 `parametric`, on the tree of the condition. -/
def parametric (o : Order) (rem : List String) (d : Dd) : Option (List (Fn o)) :=
  if rem = [] then some []
  else match d with
    | .leaf true => some (rem.map (var o))
    | .leaf false => none
    | .node v H L =>
      if v ∈ rem then
        let i := rem.idxOf v
        let rem' := rem.drop (i + 1)
        let tail :=
          if H = .leaf false then (parametric o rem' L).map (ff o :: ·)
          else if L = .leaf false then (parametric o rem' H).map (tt o :: ·)
          else (parametric o rem' H).bind fun Hres =>
            (parametric o rem' L).bind fun Lres =>
              (pick (var o v) Hres Lres).map (var o v :: ·)
        tail.map ((rem.take i).map (var o) ++ ·)
      else none

/-- preamble.fl:483-490 `param`. -/
def param (cond : Fn o) : Option (List (String × Fn o)) :=
  if cond = ff o then none
  else
    let vars := depends [cond]
    (parametric o vars cond.1).bind (zipE vars)

/-- `str_is_suffix "_n"`. -/
def isNext (s : String) : Bool := "_n".toList.isSuffixOf s.toList

/-- preamble.fl:416-427 `bdd_current2next`, applied to a list of functions. -/
def current2next (fs : List (Fn o)) : Option (List (Fn o)) :=
  let vs := depends fs
  let next := vs.filter isNext
  let cur := vs.filter fun s => !isNext s
  let sub := cur.map fun n => (n, var o (n ++ "_n"))
  let new := depends (sub.map Prod.snd)
  if new.filter (· ∈ next) = [] then some (fs.map (subst sub)) else none

/-- preamble.fl:435-446 `bdd_next2current`: the last two characters of a name are dropped. -/
def next2current (fs : List (Fn o)) : Option (List (Fn o)) :=
  let vs := depends fs
  let next := vs.filter isNext
  let cur := vs.filter fun s => !isNext s
  let sub := next.map fun n => (n, var o (String.ofList (n.toList.take (n.toList.length - 2))))
  let new := depends (sub.map Prod.snd)
  if new.filter (· ∈ cur) = [] then some (fs.map (subst sub)) else none

/-- `bdd_current2next` of one function. -/
def next1 (f : Fn o) : Option (Fn o) := (current2next [f]).bind List.head?

/-- preamble.fl:493-495: quantification over the variables that the disjunction of `vs` depends on. -/
def quantVars (vs : List String) (f : Fn o) : Fn o :=
  thereis (depends [vs.foldr (fun v r => (var o v).or r) (ff o)]) f

/-- preamble.fl:449-452 `Quant_thereis`: here the variables are collected in a conjunction. -/
def Quant_thereis (vs : List String) (f : Fn o) : Fn o :=
  thereis (depends [vs.foldr (fun v r => (var o v).and r) (tt o)]) f

/-- preamble.fl:492-524 `fparam_rec`. -/
def fparamRec : List String → Fn o → Option (List (String × Fn o))
  | [], _ => some []
  | v :: vs, f =>
    if f = tt o then (v :: vs).mapM fun v => (next1 (var o v)).map (v, ·)
    else
      let hi := cof v true f
      let lo := cof v false f
      if hi = ff o then (fparamRec vs lo).map ((v, ff o) :: ·)
      else if hi = f then
        let hq := quantVars vs hi
        (next1 (var o v)).bind fun pv => (fparamRec vs f).map ((v, pv.and hq) :: ·)
      else if lo = ff o then (fparamRec vs hi).map ((v, tt o) :: ·)
      else
        let hq := quantVars vs hi
        let lq := quantVars vs lo
        (next1 (var o v)).bind fun pv =>
          let bit := Fn.ite hq (Fn.ite lq pv (tt o)) (ff o)
          if bit = tt o then (fparamRec vs hi).map ((v, tt o) :: ·)
          else if bit = ff o then (fparamRec vs lo).map ((v, ff o) :: ·)
          else (fparamRec vs hi).bind fun Hres =>
            (fparamRec vs lo).bind fun Lres => (pickPairs bit Hres Lres).map ((v, bit) :: ·)

/-- preamble.fl:533-542 `fparam`. -/
def fparam (vars : List String) (f : Fn o) : Option (List (String × Fn o)) :=
  if (depends [f]).filter (· ∉ vars) ≠ [] then fparamRec vars f
  else (param f).bind fun sub =>
    vars.mapM fun v =>
      match (sub.lookup v).bind next1 with
      | some g => some (v, g)
      | none => (next1 (var o v)).map (v, ·)

/-- preamble.fl:1906-1911 `bv_constrained_variable`: the bits of the vector, and the condition that the
predicate computes from them. -/
def constrained (names : List String) (pred : List (Fn o) → Fn o) : Option (List (Fn o)) :=
  let v := names.map (var o)
  let cond := pred v
  if cond = ff o then none
  else (fparam (depends v) cond).bind fun sub =>
    if (sub.map Prod.fst).Nodup then some (v.map (subst sub)) else none

end Voss.Pre
