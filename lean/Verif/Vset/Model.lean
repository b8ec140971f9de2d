import Verif.Vec.Extract
/-
Model of the set functions on lists of vector names (src/vosslib/vector_names.fl:1-112).

The functions on names that they call are parameters (`Names`); `real` puts the models of C70, C71 and C72 in their
place.  `none` is a failure or undefined behaviour in one of these.  `intersect`, `subtract`, `overlap` and `partition`
are taken as C66 describes them.
-/
namespace Voss.Vset

/-- The functions of voss_strings.c that are called: `md_expand_vector`, `md_extract_vectors`, `md_merge_vectors`,
`md_size` and `get_vector_signature`. -/
structure Names (N S : Type) where
  expand : N → Option (List N)
  extract : List N → Option (List N)
  merge : List N → Option (List N)
  size : N → Option Nat
  sig : N → S

section
variable {N S : Type} [DecidableEq N] [DecidableEq S] (o : Names N S)

/-- list_ops.c:1196-1233 `intersect` (C66). -/
def inter (a b : List N) : List N := (a.filter fun x => decide (x ∈ b)).eraseDups

/-- list_ops.c:1276-1308 `subtract` (C66). -/
def sub (a b : List N) : List N := a.filter fun x => decide (x ∉ b)

/-- list_ops.c:1236-1273 `overlap` (C66). -/
def over (a b : List N) : Bool := a.any fun x => decide (x ∈ b)

/-- voss_strings.c `md_expand_vectors`: all bits, one name after the other. -/
def expandAll : List N → Option (List N)
  | [] => some []
  | n :: ns => do
    let l ← o.expand n
    let k ← expandAll ns
    pure (l ++ k)

/-- `partition fst (map (\v. get_vector_signature v, v) vl)` (vector_names.fl:14-15), with the signature before each
class: `partition` (list_ops.c:1066-1129, C66) keeps the order in which signatures are first met. -/
def parts (vl : List N) : List (S × List N) :=
  (vl.map o.sig).eraseDups.map fun s => (s, vl.filter fun v => decide (o.sig v = s))

/-- vector_names.fl:8-12, 69-73 `mk`, for all classes. -/
def mkAll : List (S × List N) → Option (List (S × List N))
  | [] => some []
  | (s, l) :: p => do
    let v ← o.extract l
    let r ← mkAll p
    pure ((s, v) :: r)

/-- `flatmap`, with failure. -/
def flatM (f : S → Option (List N)) : List S → Option (List N)
  | [] => some []
  | s :: ss => do
    let l ← f s
    let k ← flatM f ss
    pure (l ++ k)

/-- vector_names.fl:19-23 `find_intersection`. -/
def common (p1 p2 : List (S × List N)) (b : S) : Option (List N) := do
  let v1 ← p1.lookup b
  let v2 ← p2.lookup b
  let n1 ← expandAll o v1
  let n2 ← expandAll o v2
  o.extract (inter n1 n2)

/-- vector_names.fl:7-26 `vec_intersect`. -/
def vecIntersect (vl1 vl2 : List N) : Option (List N) := do
  let direct := inter vl1 vl2
  let p1 ← mkAll o (parts o (sub vl1 direct))
  let p2 ← mkAll o (parts o (sub vl2 direct))
  let base := inter (p1.map Prod.fst) (p2.map Prod.fst)
  let rem ← flatM (common o p1 p2) base
  o.extract (direct ++ rem)

/-- vector_names.fl:49-54 `tst`. -/
def overTst (p2 : List (S × List N)) : List (S × List N) → Option Bool
  | [] => some false
  | (b1, vs1) :: rem =>
    let vs2 := (p2.lookup b1).getD []
    if vs2.isEmpty then overTst p2 rem
    else do
      let n1 ← expandAll o vs1
      let n2 ← expandAll o vs2
      if over n1 n2 then pure true else overTst p2 rem

/-- vector_names.fl:34-57 `vec_overlap`. -/
def vecOverlap (vl1 vl2 : List N) : Option Bool :=
  if over vl1 vl2 then some true
  else
    let p1 := parts o vl1
    let p2 := parts o vl2
    if !over (p1.map Prod.fst) (p2.map Prod.fst) then some false else overTst o p2 p1

/-- vector_names.fl:78-85 `do_subtract`. -/
def remain (p1 p2 : List (S × List N)) (b : S) : Option (List N) := do
  let v1s ← p1.lookup b
  let v2s := (p2.lookup b).getD []
  let both := inter v1s v2s
  let n1 ← expandAll o (sub v1s both)
  let n2 ← expandAll o (sub v2s both)
  o.extract (sub n1 n2)

/-- vector_names.fl:66-88 `vec_subtract`. -/
def vecSubtract (vl1 vl2 : List N) : Option (List N) := do
  let p1 ← mkAll o (parts o vl1)
  let p2 ← mkAll o (parts o vl2)
  let rem ← flatM (remain o p1 p2) (p1.map Prod.fst)
  o.extract rem

/-- vector_names.fl:94-112 `vec_zip`; the number bounds the calls. -/
def vecZip : Nat → List N → List N → Option (List (N × N))
  | 0, _, _ => none
  | k + 1, pv :: pvs, gv :: gvs => do
    let psz ← o.size pv
    let gsz ← o.size gv
    if psz = gsz then
      let r ← vecZip k pvs gvs
      pure ((pv, gv) :: r)
    else
      let use := min psz gsz
      let ps ← o.expand pv
      let gs ← o.expand gv
      let p1 ← (← o.merge (ps.take use)).head?
      let g1 ← (← o.merge (gs.take use)).head?
      let prem ← o.merge (ps.drop use)
      let grem ← o.merge (gs.drop use)
      let r ← vecZip k (prem ++ pvs) (grem ++ gvs)
      pure ((p1, g1) :: r)
  | _ + 1, [], [] => some []
  | _ + 1, _, _ => none

end

/-- The functions as they are in voss_strings.c; `sort` is the order that `qsort` makes. -/
def real (sort : List Vec.Vec → List Vec.Vec) : Names (List Char) (Option (List Char)) where
  expand := Vec.mdExpand
  extract := Vec.mdExtract sort
  merge := Vec.mdMerge
  size := Vec.mdSize
  sig s := (Vec.split s).map Vec.sig

end Voss.Vset
