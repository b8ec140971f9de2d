import Verif.Pre.Range
import Verif.Bv.Spec
/-
Model of `bv_sum` and `gen_model_count`: src/bin/fl/bv.c:1238-1313, 1574-1711, new_bdd.c:1259-1300, preamble.fl:2767-2784.

Boolean functions are reduced ordered decision trees (`Fn`, see Verif/Pre/Fn.lean); `bv_sum` switches reordering off.
The conjunctions of variables `vs` and `fs`, which are only walked through, are lists of variables in their order.
Walking follows the first son of each node without its sign, so that it ends in ZERO, not in ONE.  Record 0 of the table
of nodes (the constant) is never initialised (new_bdd.c:1134-1155): its field `var` is the parameter `z`, `some v` if it is
the number of the variable `v`, `none` if it is not the number of a variable; its field `lson` is taken to be 0, as in memory
that the operating system has cleared.
-/
namespace Voss.Sum
open Voss.Pre

variable {o : Order}

/-- A conjunction of variables: ONE, or what is left of one when walking through it; `rest []` is ZERO. -/
inductive Conj where
  | one
  | rest (l : List String)
  deriving DecidableEq

/-- new_bdd.c:1276-1284, 1292-1299: the conjunction of variables in their order. -/
def Conj.ofList (l : List String) : Conj := if l = [] then .one else .rest l

/-- bv.c:1624-1630 `f_BDD_GET_VAR(f_GET_BDDP(f))`. -/
def Conj.var (z : Option String) : Conj → Option String
  | .rest (v :: _) => some v
  | _ => z

/-- bv.c:1632, 1638 `f_GET_LSON(f_GET_BDDP(f))`. -/
def Conj.next : Conj → Conj
  | .rest (_ :: l) => .rest l
  | _ => .rest []

/-- bv.c:1620-1640 `get_next_vars`: whether the variable is free, and both conjunctions after it. -/
def getNext (z : Option String) (vs fs : Conj) : Bool × Conj × Conj :=
  if fs = .one then (false, vs.next, fs)
  else if fs.var z = vs.var z then (true, vs.next, fs.next)
  else (false, vs.next, fs)

/-- bv.c:1671-1675: the number of bits appended, for `vs` other than ONE. -/
def zerosList (z : Option String) : List String → Conj → Nat
  | [], _ => 0
  | v :: l, fs =>
    let r := getNext z (.rest (v :: l)) fs
    (if r.1 then 0 else 1) + zerosList z l r.2.2

/-- bv.c:1671-1675. -/
def zeros (z : Option String) : Conj → Conj → Nat
  | .one, fs => if (getNext z .one fs).1 then 0 else 1
  | .rest l, fs => zerosList z l fs

/-- bv.c:1679-1684: up to the variable; `none`: there is no such variable, and the loop goes on through record 0. -/
def skip (z : Option String) (v : String) : List String → Conj → Option (Nat × List String × Conj)
  | [], _ => none
  | w :: l, fs =>
    if w = v then some (0, w :: l, fs)
    else
      let r := getNext z (.rest (w :: l)) fs
      (skip z v l r.2.2).map fun q => ((if r.1 then 0 else 1) + q.1, q.2)

/-- bv.c:1601-1618 `shift_left`. -/
def shiftLeft (l : List (Fn o)) (n : Nat) : List (Fn o) := l ++ List.replicate n (Fn.ff o)

/-- bv.c:1579-1592 the cache. -/
abbrev Cache (o : Order) := List (Dd × List (Fn o))

/-- bv.c:435-446 and 326-348: `sx2` and `gen_add`. -/
def add (a b : List (Fn o)) : List (Fn o) := Bv.genAdd false (Bv.sx2 a b).1 (Bv.sx2 a b).2

/-- bv.c:1660-1711 `gen_model_count_rec`. -/
def count (z : Option String) : Dd → Conj → Conj → Cache o → Option (List (Fn o) × Cache o)
  | .leaf false, _, _, t => some ([Fn.ff o], t)
  | .leaf true, vs, fs, t => some (shiftLeft [Fn.ff o, Fn.tt o] (zeros z vs fs), t)
  | .node _ _ _, .one, _, _ => none
  | .node v h l, .rest vs, fs, t =>
    match skip z v vs fs with
    | none => none
    | some (mul, vs, fs) =>
      match t.lookup (.node v h l) with
      | some r => some (shiftLeft r mul, t)
      | none =>
        let r := getNext z (.rest vs) fs
        (count z h r.2.1 r.2.2 t).bind fun hr =>
          (count z l r.2.1 r.2.2 hr.2).bind fun lr =>
            let raw := if r.1 then Bv.iteList (Fn.var o v) hr.1 lr.1 else add hr.1 lr.1
            some (shiftLeft raw mul, (.node v h l, raw) :: lr.2)

/-- new_bdd.c:1286-1299: all variables, of the functions and of the list. -/
def allVars (vars : List String) (fs : List (Fn o)) : List String :=
  sortNames o ((fs.flatMap fun f => f.1.vars) ++ vars)

/-- new_bdd.c:1276-1285: the variables of the functions that are not in the list. -/
def freeVars (vars : List String) (fs : List (Fn o)) : List String :=
  (Fn.depends fs).filter fun v => v ∉ vars

/-- bv.c:1253-1260. -/
def countLoop (z : Option String) (vs fs : Conj) : List (Fn o) → Cache o → Option (List (List (Fn o)))
  | [], _ => some []
  | f :: l, t => (count z f.1 vs fs t).bind fun r => (countLoop z vs fs l r.2).map (Bv.trim r.1 :: ·)

/-- bv.c:1238-1267 `gen_model_count`. -/
def genModelCount (z : Option String) (vars : List String) (fs : List (Fn o)) : Option (List (List (Fn o))) :=
  countLoop z (.ofList (allVars vars fs)) (.ofList (freeVars vars fs)) fs []

/-- bv.c:1295-1304: the bits are added with their weights, from the first one. -/
def sumLoop (z : Option String) (vs fs : Conj) : List (Fn o) → List (Fn o) → Cache o → Option (List (Fn o))
  | [], sum, _ => some sum
  | b :: bs, sum, t =>
    (count z b.1 vs fs t).bind fun r => sumLoop z vs fs bs (add sum (shiftLeft r.1 bs.length)) r.2

/-- bv.c:1269-1313 `bv_sum`, the builtin. -/
def bvSumC (z : Option String) (vars : List String) (bv : List (Fn o)) : Option (List (Fn o)) :=
  (sumLoop z (.ofList (allVars vars bv)) (.ofList (freeVars vars bv)) bv [Fn.ff o] []).map Bv.trim

/-- preamble.fl:2775-2784 `bv_sum`, called outside of conditionals with a symbolic condition. -/
def bvSum (z : Option String) (vars : List String) (bv : List (Fn o)) : Out (List (Fn o)) :=
  (Out.ofOption (Bv.bvGeq bv [Fn.ff o])).bind fun isPos =>
    if isPos = Fn.tt o then Out.ofOption (bvSumC z vars bv)
    else
      (branch (Fn.tt o) isPos (fun _ => .ok bv) (fun _ => .ok [Fn.ff o]) mergeBv).bind fun pos =>
      (branch (Fn.tt o) isPos (fun _ => .ok [Fn.ff o]) (fun _ => Out.ofOption (bvNeg bv)) mergeBv).bind fun neg =>
      (Out.ofOption (bvSumC z vars pos)).bind fun posSum =>
      (Out.ofOption (bvSumC z vars neg)).bind fun negSum =>
        Out.ofOption (Bv.bvSub posSum negSum)

end Voss.Sum
