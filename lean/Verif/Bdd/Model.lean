/-
Model of the BDD package (`src/bin/fl/new_bdd.c`, `new_bdd.h`): node table, unique tables, result
cache, Boolean connectives, quantification, support, relational product and composition.

Conventions.
* An operation that would read a node slot that is not in use (undefined behaviour or a failing
  `ASSERT` in C), or that runs out of recursion fuel, returns `none`.  The theorems show that on
  states reachable through the API the answer is `some`.
* The recursion fuel handed in by the API functions is one more than the number of variables.  The
  C code has no fuel; the theorems show it is never exhausted.
* The hash buckets of the unique tables (`VarTbl[v].uniq_tbl`) are merged into the list `live` of
  node numbers that are in some unique table: the look-up in the table of variable `v` for sons
  `l`, `r` finds the entry of `live` whose node is `(v, l, r)`.  The result cache (`cache_tbl`) is a
  list of entries.  Bucket selection (`uniq_hash_fn`, `cache_hash`) and table growth
  (`grow_uniq_tbl`) are therefore not modelled; they only move entries between buckets.
* Node numbers are unbounded (the C code has 2^31-1 nodes at most, `MAX_RECS` new_bdd.h:119).
-/
namespace Voss.Bdd

/-- A `formula` (new_bdd.h:14): bit 31 is the complement flag (`ISNOT`), the other 31 bits
(`POS`) the node number.  new_bdd.h:187-189. -/
structure F where
  neg : Bool
  idx : Nat
deriving DecidableEq, Repr

/-- `ZERO = 0` (new_bdd.c:1163). -/
def ZERO : F := ⟨false, 0⟩
/-- `ONE = NOT(ZERO)` (new_bdd.c:1164). -/
def ONE : F := ⟨true, 0⟩
/-- Macro `NOT` (new_bdd.h:188). -/
def F.not (f : F) : F := ⟨!f.neg, f.idx⟩
/-- `NOT(x)` if the flag is set, `x` otherwise (the `ISNOT(f) ? NOT(x) : x` idiom). -/
def F.xneg (b : Bool) (f : F) : F := if b then f.not else f

/-- The part of `bdd_rec` (new_bdd.h:128-143) that holds the node: `var`, `lson` (31 bits: no
complement flag, storing a formula drops the flag) and `rson` (32 bits). -/
structure Node where
  var : Nat
  lson : Nat
  rson : F
deriving DecidableEq, Repr

/-- `cache_rec` (new_bdd.h:157-169). -/
structure CEntry where
  fn : Nat
  a : F
  b : F
  res : F
deriving DecidableEq, Repr

/-- Operation codes, new_bdd.h:101-106. -/
def opAND : Nat := 1
def opOR : Nat := 2
def opXOR : Nat := 3
def opUNIVERSAL : Nat := 4
def opEXISTENTIAL : Nat := 5
def opDEPENDS : Nat := 6

/-- `BDD_MAX_REF_CNT` (new_bdd.h:113-121, with `REF_CNT_DEBUG`): a 10 bit counter. -/
def maxRef : Nat := 1023

/-- Global state of the package (new_bdd.c:14-120).
`tbl` is `MainTbl` (`none`: not `in_use`), `live` the union of the unique tables, `free` the free
list `b_free_list`, `size` is `sz_MainTbl`, `ref` the `ref_cnt` fields, `ord` is
`VarTbl[v].variable` (`ORDER`), `nvars` is `nbr_VarTbl`, `vname` is `VarTbl[v].var_name`, `vars` is
`var_htbl` and `cache` is `cache_tbl`. -/
structure S where
  tbl : Nat → Option Node
  live : List Nat
  free : List Nat
  size : Nat
  ref : Nat → Nat
  ord : Nat → Nat
  nvars : Nat
  vname : Nat → String
  vars : List (String × F)
  cache : List CEntry

/-- Update of one slot of a table. -/
def upd {α : Type} (f : Nat → α) (i : Nat) (x : α) : Nat → α := fun j => if j = i then x else f j

/-- Insertion into a list sorted by position. -/
def insBy (key : Nat → Nat) (v : Nat) : List Nat → List Nat
  | [] => [v]
  | w :: l => if key v ≤ key w then v :: w :: l else w :: insBy key v l

/-- Sorting of variables by position: stands for the C library's `qsort` with the comparison
function `var_ord_comp` (new_bdd.c:3008-3020). -/
def sortBy (key : Nat → Nat) : List Nat → List Nat
  | [] => []
  | v :: l => insBy key v (sortBy key l)

/-- `inc_ref_cnt` new_bdd.c:3454-3460: saturating. -/
def incRef (ref : Nat → Nat) (i : Nat) : Nat → Nat :=
  if ref i < maxRef then upd ref i (ref i + 1) else ref

/-- `B_Init` new_bdd.c:1130-1187.  `2^lg` slots, slot 0 is the constant. -/
def init (lg : Nat) : S where
  tbl := fun _ => none
  live := []
  free := List.range' 1 (2 ^ lg - 1)
  size := 2 ^ lg
  ref := fun i => if i = 0 then maxRef else 0
  ord := fun v => v
  nvars := 0
  vname := fun _ => ""
  vars := []
  cache := []

/-- `grow_MainTbl` new_bdd.c:2364-2396: double the table, all new slots go on the free list (which
is empty when this is called). -/
def grow (s : S) : S :=
  { s with free := List.range' s.size s.size, size := 2 * s.size }

/-- First half of `find_insert_bdd`: the search of the unique table (new_bdd.c:2487-2497). -/
def lookup (s : S) (n : Node) : Option Nat := s.live.find? (fun i => s.tbl i == some n)

/-- Second half of `find_insert_bdd`: take a slot from the free list and fill it
(new_bdd.c:2498-2523). -/
def alloc (s : S) (n : Node) : Option (Nat × S) :=
  let s := if s.free = [] then grow s else s
  match s.free with
  | [] => none
  | i :: rest =>
    some (i, { s with
      tbl := upd s.tbl i (some n)
      live := i :: s.live
      free := rest
      ref := incRef (incRef (upd s.ref i 0) n.lson) n.rson.idx })

/-- `find_insert_bdd` new_bdd.c:2461-2525. -/
def findInsert (s : S) (v : Nat) (l r : F) : Option (F × S) :=
  if l = r then some (l, s)
  else
    let n : Node := ⟨v, (F.xneg l.neg l).idx, F.xneg l.neg r⟩
    match lookup s n with
    | some i => some (⟨l.neg, i⟩, s)
    | none =>
      match alloc s n with
      | none => none
      | some (i, s') => some (⟨l.neg, i⟩, s')

/-- The cofactors of `f` for its top variable, with the complement flag pushed down (the pattern
`if( ISNOT(f) ) NOT(GET_LSON(fp)) ...`, e.g. new_bdd.c:2606-2613). -/
def sons (f : F) (n : Node) : F × F := (F.xneg f.neg ⟨false, n.lson⟩, F.xneg f.neg n.rson)

/-- Look-up in the result cache (`find_hash(&cache_tbl, &cr)` with `cache_equ`
new_bdd.c:3581-3589). -/
def cacheFind (s : S) (fn : Nat) (a b : F) : Option F :=
  (s.cache.find? (fun e => e.fn == fn && e.a == a && e.b == b)).map CEntry.res

/-- `insert_hash(&cache_tbl, cp, cp)`. -/
def cacheAdd (s : S) (fn : Nat) (a b res : F) : S := { s with cache := ⟨fn, a, b, res⟩ :: s.cache }

/-- The terminal cases of `bdd_step` (new_bdd.c:2537-2582); `none` when there is none. -/
def stepTerminal (fn : Nat) (f1 f2 : F) : Option F :=
  if f1.idx = f2.idx then
    if f1 = f2 then (if fn = opXOR then some ZERO else some f1)
    else (if fn = opAND then some ZERO else some ONE)
  else if f1.idx = 0 ∨ f2.idx = 0 then
    if fn = opAND then
      (if f1 = ONE then some f2 else if f2 = ONE then some f1 else some ZERO)
    else if fn = opOR then
      (if f1 = ZERO then some f2 else if f2 = ZERO then some f1 else some ONE)
    else
      (if f1 = ZERO then some f2 else if f2 = ZERO then some f1
       else if f1 = ONE then some f2.not else some f1.not)
  else none

/-- `bdd_step` new_bdd.c:2527-2646.  `fn` is one of `AND`, `OR`, `XOR`. -/
def bddStep : Nat → S → Nat → F → F → Option (F × S)
  | 0, _, _, _, _ => none
  | fuel + 1, s, fn, f1, f2 =>
    match stepTerminal fn f1 f2 with
    | some r => some (r, s)
    | none =>
      match cacheFind s fn f1 f2 with
      | some r => some (r, s)
      | none => do
        let n1 ← s.tbl f1.idx
        let n2 ← s.tbl f2.idx
        let v := if s.ord n1.var > s.ord n2.var then n2.var else n1.var
        let p1 := if s.ord n1.var > s.ord n2.var then (f1, f1) else sons f1 n1
        let p2 := if s.ord n2.var > s.ord n1.var then (f2, f2) else sons f2 n2
        let (l, s) ← bddStep fuel s fn p1.1 p2.1
        let (r, s) ← bddStep fuel s fn p1.2 p2.2
        let (res, s) ← findInsert s v l r
        some (res, cacheAdd s fn f1 f2 res)

/-- Depth bound handed to the recursive functions. -/
def S.fuel (s : S) : Nat := s.nvars + 1

/-- `B_Not` new_bdd.c:469-476. -/
def bNot (f : F) : F := f.not
/-- `B_And` new_bdd.c:498-505. -/
def bAnd (s : S) (f g : F) : Option (F × S) := bddStep s.fuel s opAND f g
/-- `B_Or` new_bdd.c:508-516. -/
def bOr (s : S) (f g : F) : Option (F × S) := bddStep s.fuel s opOR f g
/-- `B_Xor` new_bdd.c:519-526. -/
def bXor (s : S) (f g : F) : Option (F × S) := bddStep s.fuel s opXOR f g
/-- `B_Nand` new_bdd.c:488-495. -/
def bNand (s : S) (f g : F) : Option (F × S) := do
  let (r, s) ← bddStep s.fuel s opAND f g
  some (r.not, s)
/-- `B_Nor` new_bdd.c:478-485. -/
def bNor (s : S) (f g : F) : Option (F × S) := do
  let (r, s) ← bddStep s.fuel s opOR f g
  some (r.not, s)
/-- `B_Xnor` new_bdd.c:529-536. -/
def bXnor (s : S) (f g : F) : Option (F × S) := do
  let (r, s) ← bddStep s.fuel s opXOR f g
  some (r.not, s)
/-- `B_Ite` new_bdd.c:539-551. -/
def bIte (s : S) (i t e : F) : Option (F × S) := do
  let (f1, s) ← bAnd s i t
  let (f2, s) ← bAnd s (bNot i) e
  bOr s f1 f2
/-- `B_Equal` new_bdd.c:554-562. -/
def bEqual (f g : F) : Bool := f == g
/-- `F_and` new_bdd.c:576-593. -/
def fAnd (s : S) (f g : F) : Option (F × S) :=
  if f = ZERO ∨ g = ZERO then some (ZERO, s)
  else if f = ONE then some (g, s)
  else if g = ONE then some (f, s)
  else bddStep s.fuel s opAND f g
/-- `F_or` new_bdd.c:595-612. -/
def fOr (s : S) (f g : F) : Option (F × S) :=
  if f = ONE ∨ g = ONE then some (ONE, s)
  else if f = ZERO then some (g, s)
  else if g = ZERO then some (f, s)
  else bddStep s.fuel s opOR f g

/-- `Get_top_cofactor` new_bdd.c:364-378 and `top_cofactor` 1545-1573: variable number and
cofactors; fails on constants. -/
def topCofactor (s : S) (f : F) : Option (Nat × F × F) :=
  match s.tbl f.idx with
  | none => none
  | some n => some (n.var, sons f n)

/-- `B_Depends` new_bdd.c:614-651.  (C leaves the evaluation order of the two recursive calls and
of `find_insert_bdd` open; the model goes left to right.) -/
def bDepends : Nat → S → F → Option (F × S)
  | 0, _, _ => none
  | fuel + 1, s, f =>
    if f = ZERO then some (ONE, s)
    else if f = ONE then some (ONE, s)
    else match cacheFind s opDEPENDS f f with
      | some r => some (r, s)
      | none => do
        let n ← s.tbl f.idx
        let (dl, s) ← bDepends fuel s ⟨false, n.lson⟩
        let (dr, s) ← bDepends fuel s n.rson
        let (d, s) ← bAnd s dl dr
        let (v, s) ← findInsert s n.var ONE ZERO
        let (res, s) ← bAnd s d v
        some (res, cacheAdd s opDEPENDS f f res)

/-- `quantify` new_bdd.c:2648-2712.  `vf` is the conjunction of the variables to quantify, read
off by following stored `lson` fields.  (Evaluation order of the recursive calls: left to right.) -/
def quantify : Nat → S → F → F → Nat → Option (F × S)
  | 0, _, _, _, _ => none
  | fuel + 1, s, f, vf, type =>
    if vf = ONE ∨ vf = ZERO then some (f, s)
    else if f = ZERO ∨ f = ONE then some (f, s)
    else match cacheFind s type f vf with
      | some r => some (r, s)
      | none => do
        let nv ← s.tbl vf.idx
        let n ← s.tbl f.idx
        if s.ord n.var > s.ord nv.var then
          let (res, s) ← quantify fuel s f ⟨false, nv.lson⟩ type
          some (res, cacheAdd s type f vf res)
        else if s.ord n.var < s.ord nv.var then
          let (l, s) ← quantify fuel s (sons f n).1 vf type
          let (r, s) ← quantify fuel s (sons f n).2 vf type
          let (res, s) ← findInsert s n.var l r
          some (res, cacheAdd s type f vf res)
        else
          let (l, s) ← quantify fuel s (sons f n).1 ⟨false, nv.lson⟩ type
          let (r, s) ← quantify fuel s (sons f n).2 ⟨false, nv.lson⟩ type
          let (res, s) ← if type = opUNIVERSAL then bAnd s l r else bOr s l r
          some (res, cacheAdd s type f vf res)

/-- `B_forall` new_bdd.c:653-657.  (Depth is at most the sum of the two heights.) -/
def bForall (s : S) (vf f : F) : Option (F × S) := quantify (2 * s.fuel) s f vf opUNIVERSAL
/-- `B_thereis` new_bdd.c:659-663. -/
def bThereis (s : S) (vf f : F) : Option (F × S) := quantify (2 * s.fuel) s f vf opEXISTENTIAL

/-- `Quant_forall` at the language level (graph.c:4117-4134): quantify over the support of the
first argument. -/
def quantForall (s : S) (v f : F) : Option (F × S) := do
  let (d, s) ← bDepends s.fuel s v
  bForall s d f
/-- `Quant_thereis` (graph.c:4117-4134). -/
def quantThereis (s : S) (v f : F) : Option (F × S) := do
  let (d, s) ← bDepends s.fuel s v
  bThereis s d f

/-- `prim_B_Var` new_bdd.c:282-318: find a variable by name or make a new one at the last
position. -/
def primVar (s : S) (name : String) : Option (F × S) :=
  match s.vars.lookup name with
  | some f => some (f, s)
  | none => do
    let v := s.nvars
    let s := { s with nvars := v + 1, ord := upd s.ord v v, vname := upd s.vname v name }
    let (f, s) ← findInsert s v ONE ZERO
    some (f, { s with ref := upd s.ref f.idx maxRef, vars := (name, f) :: s.vars })

/-- `B_Var` new_bdd.c:252-280: variables are declared together with their next-state copy, whose
name has the suffix `_n`. -/
def bVar (s : S) (name : String) : Option (F × S) :=
  match s.vars.lookup name with
  | some f => some (f, s)
  | none =>
    let cs := name.toList
    if 2 ≤ cs.length ∧ cs.drop (cs.length - 2) = ['_', 'n'] then do
      let (_, s) ← primVar s (String.ofList (cs.take (cs.length - 2)))
      primVar s name
    else do
      let (f, s) ← primVar s name
      let (_, s) ← primVar s (String.ofList (cs ++ ['_', 'n']))
      some (f, s)

end Voss.Bdd
