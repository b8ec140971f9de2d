/-
Reclaiming of graph nodes in fl: reference counts, mark and sweep, and the rewrite rules of the reducer with
their changes of reference counts (graph.h, graph.c, cache.c).

Simplifications, for the whole file: addresses are natural numbers, NULL is 0; `g_rec_mgr` hands out 1, 2, ...
in order and `FOR_REC` visits them in that order.  The words L and R of a node are kept apart as an object and
the two lowest bits of R (reference count and mark).  The link of a free node is kept in a separate list.
Recursive functions take `fuel`; `none` is "not finished", a `DIE`, or undefined behaviour.
-/
namespace Voss.Gc

/-- What a node is (graph.h:185-340).  `tab true i`: the leaf P_REF_VAR of reference variable `i`;
`tab false i`: the leaf P_CACHE of cache `i`; `leaf`: all other leaves; `free`: not handed out, or returned. -/
inductive Obj where
  | free
  | lam (v b : Nat)
  | app (l r : Nat)
  | cons (h t : Nat)
  | leaf (v : Nat)
  | tab (isRef : Bool) (t : Nat)
  deriving DecidableEq, Repr

/-- The sons of a node. -/
def Obj.kids : Obj → List Nat
  | .lam v b => [v, b]
  | .app l r => [l, r]
  | .cons h t => [h, t]
  | _ => []

/-- `GET_APPLY_LEFT`, `GET_CONS_HD`. -/
def Obj.left : Obj → Nat
  | .lam v _ => v
  | .app l _ => l
  | .cons h _ => h
  | _ => 0

/-- `GET_APPLY_RIGHT`, `GET_CONS_TL`. -/
def Obj.right : Obj → Nat
  | .lam _ b => b
  | .app _ r => r
  | .cons _ t => t
  | _ => 0

/-- `SET_APPLY_LEFT` (graph.h:253). -/
def Obj.setLeft (v : Nat) : Obj → Obj
  | .lam _ b => .lam v b
  | .app _ r => .app v r
  | .cons _ t => .cons v t
  | o => o

/-- `SET_APPLY_RIGHT` (graph.h:255). -/
def Obj.setRight (v : Nat) : Obj → Obj
  | .lam a _ => .lam a v
  | .app l _ => .app l v
  | .cons h _ => .cons h v
  | o => o

/-- The nodes `1 ... size`, the free list, the table of reference variables (`tab true`, cache.c:245), the
caches with keys and results (`tab false`, cache.c:100-150) and their marks. -/
structure Heap where
  size : Nat
  obj : Nat → Obj
  rc : Nat → Nat
  freeList : List Nat
  tab : Bool → Nat → List Nat
  ntab : Bool → Nat
  cmark : Nat → Bool

def upd {α : Type} (f : Nat → α) (n : Nat) (v : α) : Nat → α := fun m => if m = n then v else f m

/-- `INC_REFCNT` (graph.h:225) on the two bits: 00, 01, 11, 11. -/
def incBits (r : Nat) : Nat := (((r <<< 1) &&& 2) ||| 1) ||| r

/-- `GET_MARK` (graph.h:239). -/
def getMark (r : Nat) : Nat := (r &&& 2) >>> 1

/-- `SET_MARK` (graph.h:240). -/
def setMarkBits (r m : Nat) : Nat := (r &&& 1) ||| ((m &&& 1) <<< 1)

namespace Heap

/-- `SET_REFCNT` (graph.h:222). -/
def setRc (h : Heap) (n v : Nat) : Heap := { h with rc := upd h.rc n (v &&& 3) }

/-- `INC_REFCNT` (graph.h:225). -/
def inc (h : Heap) (n : Nat) : Heap := { h with rc := upd h.rc n (incBits (h.rc n)) }

/-- `SET_MARK` (graph.h:240). -/
def setMark (h : Heap) (n m : Nat) : Heap := { h with rc := upd h.rc n (setMarkBits (h.rc n) m) }

/-- Sets the object of a node, not its reference count (`SET_TYPE`, `SET_LEFT`, `SET_RIGHT`). -/
def put (h : Heap) (n : Nat) (o : Obj) : Heap := { h with obj := upd h.obj n o }

/-- `Get_node` (graph.c:2356-2373) and the fields set by `Make_APPL_ND`, `Make_CONS_ND`
(graph.c:829-848) and the like.  Simplified: the collection it may ask for is a separate step. -/
def new (h : Heap) (o : Obj) : Heap × Nat :=
  match h.freeList with
  | a :: fl => ({ h with freeList := fl, obj := upd h.obj a o, rc := upd h.rc a 0 }, a)
  | [] => ({ h with size := h.size + 1, obj := upd h.obj (h.size + 1) o, rc := upd h.rc (h.size + 1) 0 },
      h.size + 1)

/-- `refcnt_free_nd` (graph.c:2652-2660). -/
def release (h : Heap) (n : Nat) : Heap :=
  { h with obj := upd h.obj n .free, rc := upd h.rc n 0, freeList := n :: h.freeList }

/-- `inc_refcnt_children` (graph.c:1181-1197). -/
def incKids (h : Heap) (n : Nat) : Heap :=
  match h.obj n with
  | .app l r => (h.inc l).inc r
  | .cons a b => if a = 0 then h else (h.inc a).inc b
  | _ => h

/-- `OVERWRITE` (graph.h:228-237); the mark FORCED is left out. -/
def overwrite (h : Heap) (red np : Nat) : Heap := (h.put red (h.obj np)).incKids red

/-- `dec_ref_cnt` (graph.c:1210-1251).  A free node has type LAMBDA_ND. -/
def dec : Nat → Heap → Nat → Option Heap
  | 0, _, _ => none
  | k + 1, h, n =>
    if n = 0 then some h
    else if h.rc n = 0 then
      match h.obj n with
      | .app _ _ | .cons _ _ =>
        match dec k h (h.obj n).left with
        | none => none
        | some h₁ =>
          match dec k h₁ (h₁.obj n).right with
          | none => none
          | some h₂ => some (h₂.release n)
      | .leaf _ | .tab _ _ => some (h.release n)
      | .lam _ _ | .free => none
    else if h.rc n = 1 then some (h.setRc n 0)
    else if h.rc n = 2 then none
    else some h

/-- `dec_ref_cnt` on one node after the other. -/
def decs (k : Nat) : Heap → List Nat → Option Heap
  | h, [] => some h
  | h, n :: ns =>
    match h.dec k n with
    | none => none
    | some h => decs k h ns

/-- Marks a list of nodes with `f`. -/
def foldMark (f : Heap → Nat → Option Heap) : Heap → List Nat → Option Heap
  | h, [] => some h
  | h, n :: ns =>
    match f h n with
    | none => none
    | some h => foldMark f h ns

/-- `SET_REFCNT(node, MAX_REF_CNT)` for a list of nodes. -/
def pinAll : Heap → List Nat → Heap
  | h, [] => h
  | h, n :: ns => pinAll (h.setRc n 3) ns

/-- `Mark` (graph.c:1522-1580), `Mark_G_Cache` (cache.c:152-171), `Mark_RefVar` (cache.c:245-252).  The marks
on BDDs, expressions, integers and external objects are left out. -/
def mark : Nat → Heap → Nat → Option Heap
  | 0, _, _ => none
  | k + 1, h, n =>
    if n = 0 then some h
    else if getMark (h.rc n) = 1 then some (h.setRc n 3)
    else
      match h.obj n with
      | .app l r => foldMark (mark k) (h.setMark n 1) [l, r]
      | .lam v b => foldMark (mark k) (h.setMark n 1) [v, b]
      | .cons a b => foldMark (mark k) (h.setMark n 1) [a, b]
      | .leaf _ => some (h.setMark n 1)
      | .tab true t =>
        match foldMark (mark k) (h.setMark n 1) (h.tab true t) with
        | none => none
        | some h' => some (h'.pinAll (h.tab true t))
      | .tab false t =>
        foldMark (mark k) { h.setMark n 1 with cmark := upd h.cmark t true } (h.tab false t)
      | .free => none

/-- The roots: `Mark(n)`, and `SET_REFCNT(n, MAX_REF_CNT)` for those with `true` (graph.c:1607-1634). -/
def markRoots (k : Nat) : Heap → List (Nat × Bool) → Option Heap
  | h, [] => some h
  | h, (n, pin) :: rs =>
    match h.mark k n with
    | none => none
    | some h => markRoots k (if pin then h.setRc n 3 else h) rs

/-- `SET_REFCNT(nd, 0)` for all nodes (graph.c:1602-1604); addresses above `size` are not nodes. -/
def clear (h : Heap) : Heap := { h with rc := fun _ => 0 }

/-- `Sweep_G_caches` (cache.c:173-187). -/
def sweepCaches (h : Heap) : Heap :=
  { h with
    tab := fun b t => if b = false ∧ t < h.ntab false ∧ h.cmark t = false then [] else h.tab b t
    cmark := fun t => if t < h.ntab false then false else h.cmark t }

/-- One step of the loop of `sweep` (graph.c:5294-5322). -/
def sweepNode (h : Heap) (n : Nat) : Heap :=
  if getMark (h.rc n) = 0 then { h with obj := upd h.obj n .free, freeList := n :: h.freeList }
  else if h.rc n = 3 then h
  else h.setMark n 0

/-- `sweep` (graph.c:5287-5326). -/
def sweep (h : Heap) : Heap :=
  (List.range' 1 h.size).foldl sweepNode { h with freeList := [] }

/-- `Do_garbage_collect` (graph.c:1585-1656). -/
def gc (k : Nat) (h : Heap) (roots : List (Nat × Bool)) : Option Heap :=
  match h.clear.markRoots k roots with
  | none => none
  | some h => some h.sweepCaches.sweep

/-- `PUSH_GLOBAL_GC` (graph.c:573-577): the node also becomes a root. -/
def protect (h : Heap) (n : Nat) : Heap := h.setRc n 3

end Heap

/-- The combinators whose rules only rebuild the redex. -/
inductive Comb where
  | S | S' | C | C' | B | Bstar | B' | Y | cons
  deriving DecidableEq, Repr

/-- Number of arguments. -/
def Comb.arity : Comb → Nat
  | .S => 3 | .S' => 4 | .C => 3 | .C' => 4 | .B => 3 | .Bstar => 4 | .B' => 4 | .Y => 1 | .cons => 2

open Heap in
/-- The rules up to `goto finish` (graph.c:3114-3495, 3636-3648): `redex` is rewritten, `as` are the
arguments. -/
def rebuild (h : Heap) (redex : Nat) : Comb → List Nat → Option Heap
  | .S, [a1, a2, a3] =>
    let (h, m) := h.new (.app a1 a3)
    let h := h.put redex ((h.obj redex).setLeft m)
    let h := (h.inc a1).inc a3
    let (h, n) := h.new (.app a2 a3)
    let h := h.put redex ((h.obj redex).setRight n)
    some ((h.inc a2).inc a3)
  | .S', [a1, a2, a3, a4] =>
    let (h, m) := h.new (.app a2 a4)
    let (h, n) := h.new (.app a1 m)
    let h := h.put redex ((h.obj redex).setLeft n)
    let h := ((h.inc a1).inc a2).inc a4
    let (h, p) := h.new (.app a3 a4)
    let h := h.put redex ((h.obj redex).setRight p)
    some ((h.inc a3).inc a4)
  | .C, [a1, a2, a3] =>
    let (h, m) := h.new (.app a1 a3)
    let h := h.put redex ((h.obj redex).setLeft m)
    let h := (h.inc a1).inc a3
    let h := h.put redex ((h.obj redex).setRight a2)
    some (h.inc a2)
  | .C', [a1, a2, a3, a4] =>
    let (h, m) := h.new (.app a2 a4)
    let (h, n) := h.new (.app a1 m)
    let h := h.put redex ((h.obj redex).setLeft n)
    let h := ((h.inc a1).inc a2).inc a4
    let h := h.put redex ((h.obj redex).setRight a3)
    some (h.inc a3)
  | .B, [a1, a2, a3] =>
    let h := h.put redex ((h.obj redex).setLeft a1)
    let h := h.inc a1
    let (h, m) := h.new (.app a2 a3)
    let h := h.put redex ((h.obj redex).setRight m)
    some ((h.inc a2).inc a3)
  | .Bstar, [a1, a2, a3, a4] =>
    let h := h.put redex ((h.obj redex).setLeft a1)
    let h := h.inc a1
    let (h, m) := h.new (.app a3 a4)
    let (h, n) := h.new (.app a2 m)
    let h := h.put redex ((h.obj redex).setRight n)
    some (((h.inc a2).inc a3).inc a4)
  | .B', [a1, a2, a3, a4] =>
    let (h, m) := h.new (.app a1 a2)
    let h := h.put redex ((h.obj redex).setLeft m)
    let h := (h.inc a1).inc a2
    let (h, n) := h.new (.app a3 a4)
    let h := h.put redex ((h.obj redex).setRight n)
    some ((h.inc a3).inc a4)
  | .Y, [a1] =>
    let h := h.put redex ((h.obj redex).setLeft a1)
    let h := h.inc a1
    let h := h.put redex ((h.obj redex).setRight redex)
    some (h.inc redex)
  | .cons, [a1, a2] =>
    let h := h.put redex (.cons a1 (h.obj redex).right)
    let h := h.inc a1
    let h := h.put redex ((h.obj redex).setRight a2)
    some (h.inc a2)
  | _, _ => none

/-- `finish1` ... `finish4` (graph.c:4683-4712): what the redex pointed to before, and its last argument. -/
def finish (k : Nat) (h : Heap) (oldLeft lastArg : Nat) : Option Heap := h.decs k [oldLeft, lastArg]

/-- A rule that rebuilds the redex.  `oldLeft` is `root` or the node of the stack below the redex. -/
def fire (k : Nat) (h : Heap) (redex oldLeft : Nat) (c : Comb) (as : List Nat) : Option Heap :=
  match rebuild h redex c as with
  | none => none
  | some h => finish k h oldLeft (as.getLastD 0)

/-- The end of the rules that overwrite the redex with an evaluated node: K, I, SEQ, HEAD, TAIL, FST, SND,
CATCH, a hit of a cache and so on (graph.c:3188-3600 and 4403-4445). -/
def project (k : Nat) (h : Heap) (redex np oldLeft lastArg : Nat) : Option Heap :=
  finish k (h.overwrite redex np) oldLeft lastArg

/-- COND with a true condition: the redex is cut off from the third argument before the second one is
evaluated (graph.c:4268-4273). -/
def cutRight (k : Nat) (h : Heap) (redex void lastArg : Nat) : Option Heap :=
  (h.put redex ((h.obj redex).setRight void)).dec k lastArg

/-- COND with a false condition (graph.c:4277-4284). -/
def cutLeft (k : Nat) (h : Heap) (redex void oldLeft : Nat) : Option Heap :=
  (h.put redex ((h.obj redex).setLeft void)).dec k oldLeft

/-- `fail1` ... `fail3` and the results of builtin functions that are leaves: the redex becomes a leaf and
what it pointed to keeps its reference count (graph.c:4736-4763). -/
def makeLeaf (h : Heap) (redex v : Nat) : Heap := h.put redex (.leaf v)

/-- MK_REF_VAR (graph.c:4447-4462, cache.c:217-228): a new reference variable with the value `v`. -/
def mkRef (k : Nat) (h : Heap) (redex v oldLeft lastArg : Nat) : Option Heap :=
  let t := h.ntab true
  let h := { h with
    tab := fun b i => if b = true ∧ i = t then [v] else h.tab b i
    ntab := fun b => if b = true then t + 1 else h.ntab b }
  finish k ((h.inc v).put redex (.tab true t)) oldLeft lastArg

/-- DEREFERENCE (graph.c:4464-4481): `v` is the value of the variable. -/
def deref (k : Nat) (h : Heap) (redex v lastArg : Nat) : Option Heap :=
  finish k (((h.inc redex).inc v).overwrite redex v) v lastArg

/-- UPDATE_RVAR (graph.c:4504-4532) without a condition. -/
def setRef (k : Nat) (h : Heap) (redex t v void oldLeft : Nat) : Option Heap :=
  let h := { h with tab := fun b i => if b = true ∧ i = t then [v] else h.tab b i }
  finish k ((h.inc v).overwrite redex void) oldLeft v

/-- The end of a call of a cached function that was not in the cache (graph.c:4433-4443): the key and the
redex are put into the cache, and `kept` is what stays of the old contents (`Insert_in_g_cache`, cache.c:101-150,
drops entries with the same hash value). -/
def cacheInsert (k : Nat) (h : Heap) (redex t key np oldLeft lastArg : Nat) (kept : List Nat) : Option Heap :=
  let h := h.overwrite redex np
  let h := { h with tab := fun b i => if b = false ∧ i = t then key :: redex :: kept else h.tab b i }
  finish k ((h.inc key).inc redex) oldLeft lastArg

/-- A leaf P_CACHE with a new cache (`Make_g_cache`, cache.c:69-80, language.y:813-818). -/
def mkCache (h : Heap) : Heap :=
  let (h, m) := h.new (.leaf 0)
  let t := h.ntab false
  ({ h with
    tab := fun b i => if b = false ∧ i = t then [] else h.tab b i
    ntab := fun b => if b = false then t + 1 else h.ntab b } : Heap).put m (.tab false t)

/-- `clean_clets` (cache.c:190-209): all caches are emptied, and the redex becomes void. -/
def cleanCaches (k : Nat) (h : Heap) (redex v oldLeft lastArg : Nat) : Option Heap :=
  let h := { h with tab := fun b i => if b = false ∧ i < h.ntab false then [] else h.tab b i }
  finish k (h.put redex (.leaf v)) oldLeft lastArg

/-- Printing of a value with a function installed by the user (graph.c:5181-5185): the application to be
evaluated.  Neither the function nor the value is counted. -/
def printNode (h : Heap) (fn node : Nat) : Heap × Nat :=
  let (h, p) := h.new (.app fn node)
  (h.setRc p 3, p)

end Voss.Gc
