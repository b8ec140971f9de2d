import Verif.Sum.Model
import Verif.Pre.Pow
import Verif.Pre.Ints
/-
Model of symbolic matrices: src/vosslib/smatrix.fl.

A matrix is a bit-vector that depends on two vectors of index variables.  Boolean functions are reduced ordered decision
trees (Verif/Pre/Fn.lean).  The functions are modelled as called outside of conditionals with a symbolic condition.
The numbers of rows and columns are taken to be natural numbers.  `separate_substitute` is `substitute` (the file is
compiled without USE_SEPARATE_SUB).
-/
namespace Voss.Smat
open Voss.Pre

variable {o : Order}

/-- smatrix.fl:2-8 `SMAT`. -/
structure SMat (o : Order) where
  rows : Nat
  cols : Nat
  ridx : List (Fn o)
  cidx : List (Fn o)
  v : List (Fn o)

/-- The names that `bv_variable "base[bits-1:0]"` makes (voss_strings.c, C70), for a base without brackets. -/
def idxNames (base : String) (bits : Nat) : List String :=
  (List.range bits).reverse.map fun i => base ++ "[" ++ i.repr ++ "]"

/-- preamble.fl:1887-1892 `bv_uvector`. -/
def uvector (o : Order) (base : String) (bits : Nat) : List (Fn o) := Bv.bvZX ((idxNames base bits).map (Fn.var o))

/-- preamble.fl:2550-2555 `ubits_needed (n - 1)`. -/
def ubits (n : Nat) : Out Nat := Out.ofOption ((ubitsNeeded ((n : Int) - 1)).map Int.toNat)

/-- new_bdd.c:1677-1706 `substitute`, on a bit-vector (C18); a list that names a variable twice is refused. -/
def substitute (σ : List (String × Fn o)) (l : List (Fn o)) : Out (List (Fn o)) :=
  if (σ.map Prod.fst).Nodup then .ok (Bv.list2bv (l.map (Fn.subst σ))) else .fail

/-- bv.c:810-829 `bv2int` (C12): fails unless the vector is constant. -/
def bv2int (l : List (Fn o)) : Out Int := if Bv.isScalar l then .ok (Bv.sv l fun _ => false) else .fail

/-- The results of a list of evaluations. -/
def collect {α : Type} : List (Out α) → Out (List α)
  | [] => .ok []
  | x :: l => x.bind fun a => (collect l).bind fun r => .ok (a :: r)

/-- smatrix.fl:29-35, one element. -/
def readCell (sm : SMat o) (i j : Nat) : Out Int :=
  (Out.ofOption (Bv.bvEq sm.ridx (intBv o i))).bind fun rcond =>
  (Out.ofOption (Bv.bvEq sm.cidx (intBv o j))).bind fun ccond =>
  (Out.ofOption (param (rcond.and ccond))).bind fun sub =>
  (substitute sub sm.v).bind bv2int

/-- smatrix.fl:20-39 `smatrix2matrix`. -/
def smatrix2matrix (sm : SMat o) : Out (List (List Int)) :=
  if ((Fn.depends sm.v).filter fun n => n ∉ Fn.depends (sm.ridx ++ sm.cidx)) ≠ [] then .fail
  else collect ((List.range sm.rows).map fun i => collect ((List.range sm.cols).map fun j => readCell sm i j))

/-- smatrix.fl:107-111 `get_var`: the only variable of a function. -/
def getVar (b : Fn o) : Option String :=
  match Fn.depends [b] with
  | [v] => some v
  | _ => none

/-- smatrix.fl:106-116 `mk_sub`. -/
def mkSub (old new : List (Fn o)) : Out (List (String × Fn o)) :=
  (Out.ofOption (old.tail.mapM getVar)).bind fun vars =>
    let n := vars.length
    let raw := List.replicate n (Fn.ff o) ++ new
    .ok (vars.zip (raw.drop (raw.length - n)))

/-- smatrix.fl:118-127 `transpose`. -/
def transpose (m : SMat o) : Out (SMat o) :=
  (ubits m.cols).bind fun rb =>
  (ubits m.rows).bind fun cb =>
    let ridx' := uvector o "r" rb
    let cidx' := uvector o "c" cb
    (mkSub m.ridx cidx').bind fun s1 =>
    (mkSub m.cidx ridx').bind fun s2 =>
    (substitute (s1 ++ s2) m.v).bind fun v' => .ok ⟨m.cols, m.rows, ridx', cidx', v'⟩

/-- smatrix.fl:152-158 `get_element`. -/
def getElement (sm : SMat o) (row col : List (Fn o)) : Out (List (Fn o)) :=
  (Out.ofOption (Bv.bvGeq row (intBv o sm.rows))).bind fun c1 =>
    branch (Fn.tt o) c1 (fun _ => .ok (intBv o 0)) (fun p =>
      (Out.ofOption (Bv.bvGeq col (intBv o sm.cols))).bind fun c2 =>
        branch p c2 (fun _ => .ok (intBv o 0)) (fun _ =>
          (mkSub sm.ridx row).bind fun s1 =>
          (mkSub sm.cidx col).bind fun s2 => substitute (s1 ++ s2) sm.v) mergeBv) mergeBv

/-- smatrix.fl:160-164 `set_element`. -/
def setElement (sm : SMat o) (row col new : List (Fn o)) : Out (SMat o) :=
  (Out.ofOption (Bv.bvEq row sm.ridx)).bind fun rc =>
  (Out.ofOption (Bv.bvEq col sm.cidx)).bind fun cc =>
  (branch (Fn.tt o) (rc.and cc) (fun _ => .ok new) (fun _ => .ok sm.v) mergeBv).bind fun v' =>
    .ok { sm with v := v' }

/-- smatrix.fl:166-171 `maybe_set_element`. -/
def maybeSetElement (fails : List (List (Fn o))) (cnt : List (Fn o)) (sm : SMat o) (row col new : List (Fn o)) :
    Out (List (Fn o) × SMat o) :=
  (fails.foldr (fun c (r : Out (Fn o)) => r.bind fun r => (Out.ofOption (Bv.bvEq c cnt)).bind fun e => .ok (e.or r)) (Out.ok (Fn.ff o))).bind
    fun dont =>
  (Out.ofOption (Bv.bvEq row sm.ridx)).bind fun rc =>
  (Out.ofOption (Bv.bvEq col sm.cidx)).bind fun cc =>
  (branch (Fn.tt o) ((dont.not.and rc).and cc) (fun _ => .ok new) (fun _ => .ok sm.v) mergeBv).bind fun v' =>
  (Out.ofOption (Bv.bvAdd cnt (intBv o 1))).bind fun cnt' => .ok (cnt', { sm with v := v' })

/-- smatrix.fl:173-177 `mat_abs`. -/
def matAbs (m : SMat o) : Out (SMat o) :=
  (Out.ofOption (Bv.bvGeq m.v (intBv o 0))).bind fun c =>
  (branch (Fn.tt o) c (fun _ => .ok m.v) (fun _ => Out.ofOption (Bv.bvMul (intBv o (-1)) m.v)) mergeBv).bind fun v' =>
    .ok { m with v := v' }

/-- No two matrices are merged here: the other branch of the conditional has failed. -/
def mergeNone (_ : Fn o) (_ _ : SMat o) : Out (SMat o) := .fail

/-- smatrix.fl:180-221 `mat_add`, `mat_sub`; `op` is the operation on bit-vectors. -/
def matOp (op : List (Fn o) → List (Fn o) → Option (List (Fn o))) (m1 m2 : SMat o) : Out (SMat o) :=
  if m1.rows ≠ m2.rows then .fail
  else if m1.cols ≠ m2.cols then .fail
  else
    (Out.ofOption (Bv.bvEq m1.ridx m2.ridx)).bind fun e1 =>
      branch (Fn.tt o) e1.not (fun _ => .fail) (fun p =>
        (Out.ofOption (Bv.bvEq m1.cidx m2.cidx)).bind fun e2 =>
          branch p e2.not (fun _ => .fail) (fun _ =>
            (Out.ofOption (op m1.v m2.v)).bind fun v => .ok { m1 with v := v }) mergeNone) mergeNone

/-- smatrix.fl:180-199 `mat_add`. -/
def matAdd (m1 m2 : SMat o) : Out (SMat o) := matOp Bv.bvAdd m1 m2

/-- smatrix.fl:202-221 `mat_sub`. -/
def matSub (m1 m2 : SMat o) : Out (SMat o) := matOp Bv.bvSub m1 m2

/-- smatrix.fl:224-228 `scalar_mult`. -/
def scalarMult (k : List (Fn o)) (m : SMat o) : Out (SMat o) :=
  (Out.ofOption (Bv.bvMul k m.v)).bind fun v => .ok { m with v := v }

/-- smatrix.fl:229-243 `mat_mult`; `z` as in Verif/Sum/Model.lean. -/
def matMult (z : Option String) (m1 m2 : SMat o) : Out (SMat o) :=
  if m1.cols ≠ m2.rows then .fail
  else
    (ubits m1.cols).bind fun n =>
      let tmp := uvector o "mid" n
      (mkSub m1.cidx tmp).bind fun sub1 =>
      (mkSub m2.ridx tmp).bind fun sub2 =>
      (substitute sub1 m1.v).bind fun v1 =>
      (substitute sub2 m2.v).bind fun v2 =>
      (Out.ofOption (Bv.bvMul v1 v2)).bind fun prod =>
      (Sum.bvSum z (Fn.depends tmp) prod).bind fun v => .ok ⟨m1.rows, m2.cols, m1.ridx, m2.cidx, v⟩

/-- smatrix.fl:250-257, one `sitlist`: the value at the index, zero if there is none. -/
def chain (idx : List (Fn o)) : Nat → List (List (Fn o)) → Out (List (Fn o))
  | _, [] => .ok (intBv o 0)
  | i, v :: l =>
    (chain idx (i + 1) l).bind fun r =>
    (Out.ofOption (Bv.bvEq idx (intBv o i))).bind fun c =>
      branch (Fn.tt o) c (fun _ => .ok v) (fun _ => .ok r) mergeBv

/-- smatrix.fl:247-258 `int_matrix2symb`, for rows of the same length. -/
def intMatrix2symb (r c : List (Fn o)) (ll : List (List Int)) : Out (List (Fn o)) :=
  (collect (ll.map fun ints => chain c 0 (ints.map (intBv o)))).bind fun brows => chain r 0 brows

/-- smatrix.fl:265-269 `do_col`; `next` is what comes after the row. -/
def doCol (c : List (Fn o)) (rowCond : Fn o) (next : Fn o → Out (List (Fn o))) : Nat → List (List (Fn o)) → Fn o → Out (List (Fn o))
  | _, [], p => next p
  | j, v :: vs, p =>
    (Out.ofOption (Bv.bvEq c (intBv o j))).bind fun colCond =>
      branch p (rowCond.and colCond) (fun _ => .ok v) (fun p => doCol c rowCond next (j + 1) vs p) mergeBv

/-- smatrix.fl:262-276 `bv_matrix2symb`. -/
def doRow (r c : List (Fn o)) : Nat → List (List (List (Fn o))) → Fn o → Out (List (Fn o))
  | _, [], _ => .ok (intBv o 0)
  | i, row :: rows, p =>
    (Out.ofOption (Bv.bvEq r (intBv o i))).bind fun rowCond =>
      doCol c rowCond (fun p => doRow r c (i + 1) rows p) 0 row p

/-- smatrix.fl:280-289 `matrix2smatrix`, with the version of `matrix2symb` for the type of the elements. -/
def matrix2smatrix {α : Type} (conv : List (Fn o) → List (Fn o) → List (List α) → Out (List (Fn o))) (m : List (List α))
    (rowBase colBase : String) : Out (SMat o) :=
  match m with
  | [] => .fail
  | row :: rest =>
    if rest.all (fun l => l.length == row.length) then
      (ubits m.length).bind fun rb =>
      (ubits row.length).bind fun cb =>
        let ridx := uvector o rowBase rb
        let cidx := uvector o colBase cb
        (conv ridx cidx m).bind fun sm => .ok ⟨m.length, row.length, ridx, cidx, sm⟩
    else .fail

end Voss.Smat
