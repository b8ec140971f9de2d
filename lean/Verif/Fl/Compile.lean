import Verif.Fl.Term
import Verif.Bdd.Binder
/-
The compiler from terms to combinator code: Optimise (compile.c), the two abstraction algorithms
(graph.c:2691-2930, 5265-5285, 5878-6015).
-/
namespace Voss.Fl
open Voss.Bdd (decimal)

/-! ### Optimise -/

/-- `Sprintf(buf, "_ZZ'%d", n)` (compile.c:111).  (The counter is an `int` and the buffer has 20 bytes;
unbounded here.) -/
def zzName (n : Nat) : Name := "_ZZ'".toList ++ decimal n

/-- `Sprintf(buf, "_Z'%d", n)` (compile.c:269). -/
def zName (n : Nat) : Name := "_Z'".toList ++ decimal n

/-- Number of nodes of a term: bound for the recursion of `subst`. -/
def Term.size : Term → Nat
  | .var _ => 1
  | .con _ => 1
  | .app a b => a.size + b.size + 1
  | .lam _ b => b.size + 1

/-- `substitute` (compile.c:236-290).  The result carries `uniq_name_cnt`.  The function calls itself on
the result of another call (when it renames a bound variable), so the recursion is bounded by a number
that is always at least the size of the term.  (Returning the old node when nothing changes, type hints
and line numbers are left out.) -/
def substF : Nat → Name → Name → Term → Nat → Term × Nat
  | 0, _, _, t, n => (t, n)
  | k + 1, old, new, t, n =>
    match t with
    | .var x => (if x = old then .var new else .var x, n)
    | .con c => (.con c, n)
    | .app a b =>
      let (e, n) := substF k old new a n
      let (f, n) := substF k old new b n
      (.app e f, n)
    | .lam x b =>
      if x = old then (.lam x b, n)
      else if x ≠ new then
        let (e, n) := substF k old new b n
        (.lam x e, n)
      else
        let x2 := zName n
        let (e, n) := substF k x x2 b (n + 1)
        let (e, n) := substF k old new e n
        (.lam x2 e, n)

def subst (old new : Name) (t : Term) (n : Nat) : Term × Nat := substF t.size old new t n

/-- `rm_P_NAMED_ARG` (compile.c:74-85). -/
def rmNamedArg : Term → Term
  | .app (.app (.app (.con .namedArg) e) x) d => e
  | t => t

theorem rmNamedArg_size (t : Term) : (rmNamedArg t).size ≤ t.size := by
  unfold rmNamedArg
  split
  · simp [Term.size]; omega
  · exact Nat.le_refl _

/-- `mk_uniq_names` (compile.c:88-131). -/
def mkUniq (t : Term) (n : Nat) : Term × Nat :=
  match t with
  | .var x => (.var x, n)
  | .con c => (.con c, n)
  | .app a b =>
    let (e, n) := mkUniq a n
    let (f, n) := mkUniq b n
    (.app e f, n)
  | .lam x b =>
    let x2 := zzName n
    let (e, n) := mkUniq (rmNamedArg b) (n + 1)
    let (e, n) := subst x x2 e n
    (.lam x2 e, n)
termination_by t.size
decreasing_by
  · simp [Term.size]; omega
  · simp [Term.size]; omega
  · have := rmNamedArg_size b
    simp [Term.size]; omega

/-- `remove_aliases` (compile.c:133-173) with `is_let_or_letrec` (compile.c:292-317): an application of
a lambda to a variable is `let x = y in F` (a variable is no `Y`-application, so it is not a letrec). -/
def rmAliases : Term → Nat → Term × Nat
  | .var x, n => (.var x, n)
  | .con c, n => (.con c, n)
  | .app (.lam x f) (.var y), n =>
    let (f, n) := rmAliases f n
    subst x y f n
  | .app a b, n =>
    let (e, n) := rmAliases a n
    let (f, n) := rmAliases b n
    (.app e f, n)
  | .lam x b, n =>
    let (e, n) := rmAliases b n
    (.lam x e, n)

/-- `Optimise` (compile.c:48-69). -/
def optimise (t : Term) : Term :=
  let (t, n) := mkUniq t 0
  (rmAliases t n).1

/-! ### Free variable tables -/

/-- `strcmp`. -/
def strcmp : Name → Name → Ordering
  | [], [] => .eq
  | [], _ :: _ => .lt
  | _ :: _, [] => .gt
  | a :: as, b :: bs => if a.toNat < b.toNat then .lt else if b.toNat < a.toNat then .gt else strcmp as bs

/-- `set_union` (graph.c:2720-2742). -/
def setUnion (s1 s2 : List Name) : List Name :=
  match s1, s2 with
  | [], s2 => s2
  | s1, [] => s1
  | a :: as, b :: bs =>
    match strcmp a b with
    | .lt => a :: setUnion as (b :: bs)
    | .gt => b :: setUnion (a :: as) bs
    | .eq => b :: setUnion as bs
termination_by s1.length + s2.length

/-- `remove_element` (graph.c:2745-2758): removes the first occurrence. -/
def removeElement : List Name → Name → List Name
  | [], _ => []
  | v :: s, x => if v = x then s else v :: removeElement s x

/-- Graph nodes together with their entry in `free_tbl` (the table is indexed by node, so an entry
belongs to a node; leaves that are not variables have none, which reads as the empty set). -/
inductive ATerm where
  | var (x : Name)
  | con (c : Con)
  | app (fs : List Name) (a b : ATerm)
  | lam (fs : List Name) (x : Name) (b : ATerm)

/-- Nodes without lambda, with their entries. -/
inductive ACode where
  | var (x : Name)
  | con (c : Con)
  | app (fs : List Name) (a b : ACode)
  deriving DecidableEq

/-- `get_set` (graph.c:2704-2708). -/
def ATerm.set : ATerm → List Name
  | .var x => [x]
  | .con _ => []
  | .app fs _ _ => fs
  | .lam fs _ _ => fs

def ACode.set : ACode → List Name
  | .var x => [x]
  | .con _ => []
  | .app fs _ _ => fs

/-- `create_free_tbl` (graph.c:2761-2791). -/
def createFreeTbl : Term → ATerm
  | .var x => .var x
  | .con c => .con c
  | .app a b =>
    let a := createFreeTbl a
    let b := createFreeTbl b
    .app (setUnion a.set b.set) a b
  | .lam x b =>
    let b := createFreeTbl b
    .lam (removeElement b.set x) x b

/-! ### Abstraction, small terms -/

/-- `cached_is_free` (graph.c:2950-2960). -/
def cachedIsFree (x : Name) (e : ACode) : Bool := e.set.contains x

/-- `Make_1inp_Primitive(p, e)` followed by the insertion of `get_set(e)` for the new node. -/
def mk1 (p : Con) (e : ACode) : ACode := .app e.set (.con p) e

/-- `Make_APPL_ND(ret, q)` followed by the insertion of the union of the two entries. -/
def mk2 (r q : ACode) : ACode := .app (setUnion r.set q.set) r q

/-- `abstract_rec` (graph.c:2793-2911).  The last alternative of the leaf case is excluded by the
ASSERT. -/
def abstractRec (x : Name) (e : ACode) : ACode :=
  if cachedIsFree x e = false then mk1 .K e
  else
    match e with
    | .var _ => .con .I
    | .con c => .con c
    | .app _ e1 e2 =>
      if cachedIsFree x e1 = false then
        match abstractRec x e2 with
        | .con .I => e1
        | .app _ (.app _ (.con .B) q) r => mk2 (mk2 (mk1 .Bstar e1) q) r
        | e2 => mk2 (mk1 .B e1) e2
      else if cachedIsFree x e2 = false then
        match abstractRec x e1 with
        | .app _ (.app _ (.con .B) p) q => mk2 (mk2 (mk1 .C' p) q) e2
        | e1 => mk2 (mk1 .C e1) e2
      else
        match abstractRec x e1 with
        | .app _ (.app _ (.con .B) p) q => mk2 (mk2 (mk1 .S' p) q) (abstractRec x e2)
        | e1 => mk2 (mk1 .S e1) (abstractRec x e2)

/-- `compile_rec` (graph.c:5268-5285).  Application nodes are updated in place, so they keep their
entry. -/
def compileRec : ATerm → ACode
  | .var x => .var x
  | .con c => .con c
  | .app fs a b => .app fs (compileRec a) (compileRec b)
  | .lam _ x b => abstractRec x (compileRec b)

/-- Forget the entries. -/
def ACode.erase : ACode → Code
  | .var x => .var x
  | .con c => .con c
  | .app _ a b => .app a.erase b.erase

/-- The small case of `Compile` (graph.c:1331-1335). -/
def compileSmall (t : Term) : Code := (compileRec (createFreeTbl t)).erase

/-! ### Abstraction, large terms -/

/-- `cc == NULL ? P : P' cc` (graph.c:5917-5951). -/
def ccStep (p p' : Con) : Option Code → Code
  | none => .con p
  | some cc => .app (.con p') cc

/-- The loop of `compile` for applications (graph.c:5913-5957): `vs` is the rest of the variable list,
`np1` and `np2` the rests of the needed lists.  Gives the director and the needed list. -/
def mergeNeeded : List Name → List Name → List Name → Option Code → Option Code × List Name
  | [], _, _, cc => (cc, [])
  | v :: vs, np1, np2, cc =>
    if np1.head? = some v then
      if np2.head? = some v then
        let (cc, nd) := mergeNeeded vs np1.tail np2.tail (some (ccStep .S .S' cc))
        (cc, v :: nd)
      else
        let (cc, nd) := mergeNeeded vs np1.tail np2 (some (ccStep .C .C' cc))
        (cc, v :: nd)
    else if np2.head? = some v then
      let (cc, nd) := mergeNeeded vs np1 np2.tail (some (ccStep .B .B' cc))
      (cc, v :: nd)
    else mergeNeeded vs np1 np2 cc

/-- The loop for lambdas whose variable is not needed (graph.c:5981-5997). -/
def mergeUnneeded : List Name → List Name → Option Code → Option Code × List Name
  | [], _, cc => (cc, [])
  | v :: vs, np2, cc =>
    if np2.head? = some v then
      let (cc, nd) := mergeUnneeded vs np2.tail (some (ccStep .B .B' cc))
      (cc, v :: nd)
    else mergeUnneeded vs np2 cc

/-- `cc != NULL ? cc r1 r2 : r1 r2`. -/
def joinCode (cc : Option Code) (r1 r2 : Code) : Code :=
  match cc with
  | some cc => .app (.app cc r1) r2
  | none => .app r1 r2

/-- `compile` (graph.c:5878-6015).  `vl` are the variables in scope, innermost first. -/
def compileBig : Term → List Name → Code × List Name
  | .var x, vl => if vl.contains x then (.con .I, [x]) else (.var x, [])
  | .con c, _ => (.con c, [])
  | .app a b, vl =>
    let (r1, n1) := compileBig a vl
    let (r2, n2) := compileBig b vl
    let (cc, nd) := mergeNeeded vl n1 n2 none
    (joinCode cc r1 r2, nd)
  | .lam x b, vl =>
    let (r, nd) := compileBig b (x :: vl)
    match nd with
    | [] =>
      let (cc, nd) := mergeUnneeded vl [] none
      (joinCode cc (.con .K) r, nd)
    | y :: nd =>
      if y = x then (r, nd)
      else
        let (cc, nd) := mergeUnneeded vl (y :: nd) none
        (joinCode cc (.con .K) r, nd)

/-! ### Compile -/

/-- `LARGE_CUT_OFF` (graph.c). -/
def largeCutOff : Nat := 100000

/-- `is_large` (graph.c:2623-2647).  (The sum is an `int` in C; it is at most twice the cut-off plus the
nesting depth, so it is taken as unbounded.) -/
def isLarge : Term → Nat
  | .var _ => 1
  | .con _ => 1
  | .app a b =>
    let r := isLarge a
    if largeCutOff ≤ r then largeCutOff else 1 + r + isLarge b
  | .lam _ b => 1 + isLarge b

/-- The part of `Compile` after type checking and before the names of other definitions are linked
(graph.c:1322-1339). -/
def compileTerm (t : Term) : Code :=
  let t := optimise t
  if isLarge t < largeCutOff then compileSmall t else (compileBig t []).1

end Voss.Fl
