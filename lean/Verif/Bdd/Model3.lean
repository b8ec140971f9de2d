import Verif.Bdd.Model
/-
Model of garbage collection and dynamic variable reordering (`src/bin/fl/new_bdd.c`).
-/
namespace Voss.Bdd

/-! ### Marking -/

/-- The `mark` bits and the reference counts built up by a mark phase. -/
structure MR where
  mark : Nat → Bool
  rf : Nat → Nat

/-- `Reset_Ref_cnts` new_bdd.c:348-362. -/
def resetRefs : MR := ⟨fun _ => false, fun _ => 0⟩

/-- The saturating increment at the start of `gc_update_ref_cnt` (new_bdd.c:382-384). -/
def bump (rf : Nat → Nat) (i : Nat) : Nat → Nat := if rf i ≠ maxRef then upd rf i (rf i + 1) else rf

/-- `gc_update_ref_cnt` new_bdd.c:379-394.  The tests `!B_IS_CONSTANT(..)` in front of the calls
are at the start of the model function. -/
def gcMark : Nat → S → MR → Nat → Option MR
  | 0, _, _, _ => none
  | fuel + 1, s, m, i =>
    if i = 0 then some m
    else if m.mark i then some { m with rf := bump m.rf i }
    else do
      let n ← s.tbl i
      let m ← gcMark fuel s ⟨upd m.mark i true, bump m.rf i⟩ n.lson
      gcMark fuel s m n.rson.idx

/-- `B_Mark` (new_bdd.c:396-405) on a list of handles. -/
def markList (s : S) : MR → List F → Option MR
  | m, [] => some m
  | m, f :: fs => do
    let m ← gcMark s.fuel s m f.idx
    markList s m fs

/-- `mark_vars` new_bdd.c:407-415, for every entry of `var_htbl`. -/
def markVars : MR → List (String × F) → MR
  | m, [] => m
  | m, (_, f) :: rest => markVars ⟨upd m.mark f.idx true, upd m.rf f.idx maxRef⟩ rest

/-- The mark phase: `Reset_Ref_cnts`, `B_Mark` on the handles the interpreter holds (`roots`,
graph.c:1600-1644), then the first half of `B_Clean` (new_bdd.c:418-451): the variables, the protected
BDDs (`prot`: `bdd_gc_buf` and the substitution records), and the constant
(`MAX_REF_CNT` is 3, fl.h). -/
def markPhase (s : S) (roots prot : List F) : Option MR := do
  let m ← markList s resetRefs roots
  let m ← markList s (markVars m s.vars) prot
  some ⟨upd m.mark 0 true, upd m.rf 0 3⟩

/-! ### Sweeping -/

/-- The sweep loop of `garbage_collect` (new_bdd.c:2774-2822).  The order in which slots go on the
free list follows the bucket order in C and `live` in the model. -/
def sweep (s : S) (m : MR) : S :=
  { s with
    tbl := fun i => if m.mark i then s.tbl i else none
    live := s.live.filter (fun i => m.mark i)
    free := (s.live.filter (fun i => !m.mark i)).reverse ++ s.free
    ref := m.rf }

/-- `clean_cache(FALSE)` new_bdd.c:2866-2899: drop the entries that mention a dead node. -/
def cleanCache (s : S) : S :=
  { s with cache := s.cache.filter (fun e =>
      decide (1 ≤ s.ref e.a.idx) && decide (1 ≤ s.ref e.b.idx) && decide (1 ≤ s.ref e.res.idx)) }

/-- `clean_cache(TRUE)`. -/
def eraseCache (s : S) : S := { s with cache := [] }

/-! ### Swapping adjacent variables -/

/-- `Bdec_ref_cnt` new_bdd.c:3463-3518.  `none` also stands for a failing `ASSERT`. -/
def decRef : Nat → S → Nat → Option S
  | 0, _, _ => none
  | fuel + 1, s, i =>
    if i = 0 then some s
    else if s.ref i = 0 then none
    else if s.ref i = maxRef then some s
    else if 0 < s.ref i - 1 then some { s with ref := upd s.ref i (s.ref i - 1) }
    else do
      let n ← s.tbl i
      let s ← decRef fuel { s with ref := upd s.ref i (s.ref i - 1) } n.lson
      let s ← decRef fuel s n.rson.idx
      some { s with tbl := upd s.tbl i none, live := s.live.filter (· ≠ i), free := i :: s.free }

/-- `POS(f) != ZERO && f2var(f) == v` (e.g. new_bdd.c:3326). -/
def isVar (s : S) (v i : Nat) : Bool :=
  match s.tbl i with
  | none => false
  | some n => i ≠ 0 && n.var == v

/-- The sons of a son in the four cases of `swap_down` (new_bdd.c:3326-3378): `f` itself twice when
it is not a node for `v`, and otherwise `f2lson(f)`, `f2rson(f)`, complemented when `neg`. -/
def cofsAt (s : S) (v : Nat) (f : F) : Option (F × F) :=
  if isVar s v f.idx then (s.tbl f.idx).map (fun n => sons f n) else some (f, f)

/-- One iteration of the second loop of `swap_down` on a node `i` whose `moving` flag is set
(new_bdd.c:3319-3417).  `x` is the variable that moves down, `y` the one that moves up.
(The model does not separate `vp->variable` from the number of the variable: both loops work with
variable numbers.) -/
def swapNode (x y : Nat) (s : S) (i : Nat) : Option S := do
  let n ← s.tbl i
  if s.ref i = 0 then none
  else if isVar s y n.lson = false ∧ isVar s y n.rson.idx = false then some s
  else
    let (a, b) ← cofsAt s y ⟨false, n.lson⟩
    let (c, d) ← cofsAt s y n.rson
    let (nl, s) ← findInsert s x a c
    let (nr, s) ← findInsert s x b d
    if nl = nr then none
    else
      let s := { s with
        tbl := upd s.tbl i (some ⟨y, nl.idx, nr⟩)
        ref := incRef (incRef s.ref nl.idx) nr.idx }
      let s ← decRef s.fuel s n.lson
      decRef s.fuel s n.rson.idx

/-- The second loop of `swap_down`. -/
def swapNodes (x y : Nat) : S → List Nat → Option S
  | s, [] => some s
  | s, i :: rest => do
    let s ← swapNode x y s i
    swapNodes x y s rest

/-- `swap_down` new_bdd.c:3286-3428.  `rev` is `rev_table` (position to variable).  The first loop
sets the `moving` flag on the nodes for the upper variable; the model remembers their numbers. -/
def swapDown (s : S) (rev : List Nat) (pos : Nat) : Option (S × List Nat) := do
  let x ← rev[pos]?
  let y ← rev[pos + 1]?
  let s ← swapNodes x y s (s.live.filter (fun i => isVar s x i))
  some ({ s with ord := upd (upd s.ord x (s.ord y)) y (s.ord x) },
    (rev.set pos y).set (pos + 1) x)

/-- `do_swap_down` new_bdd.c:3276-3284: swap two pairs of current-state and next-state variables. -/
def doSwapDown (s : S) (rev : List Nat) (pos : Nat) : Option (S × List Nat) := do
  let (s, rev) ← swapDown s rev (pos + 1)
  let (s, rev) ← swapDown s rev (pos + 2)
  let (s, rev) ← swapDown s rev pos
  swapDown s rev (pos + 1)

/-- The reverse index (new_bdd.c:3068-3075, 3226-3231): `qsort` of the variables by position. -/
def revTable (s : S) : List Nat :=
  sortBy s.ord (List.range s.nvars)

/-! ### Sifting -/

/-- The decisions of `re_order` that depend on numbers without influence on the meaning of BDDs:
`worth start used last` is the test at new_bdd.c:3096-3101, `tooBig used optimal` the test
`nodes_used > RCelasticity*optimal_size`, `quit k` whether `quit_early` has been set by an interrupt
at the `k`-th time it is tested, `repetitions` is `RCdyn_var_repetitions`.  (The C counter
`nodes_used` is the length of `live`.) -/
structure Cfg where
  worth : Nat → Nat → Nat → Bool
  tooBig : Nat → Nat → Bool
  quit : Nat → Bool
  repetitions : Nat
  minReduction : Nat

/-- State of the sift loops: package, reverse index, position, best size and place, tick of the
interrupt oracle. -/
structure Sift where
  s : S
  rev : List Nat
  pos : Nat
  best : Nat
  place : Nat
  tick : Nat

/-- "Sift down" (new_bdd.c:3148-3157).  `nbr_VarTbl-2` does not wrap here: a variable exists, and
variables come in pairs. -/
def siftDown (c : Cfg) : Nat → Sift → Option Sift
  | 0, _ => none
  | fuel + 1, z =>
    if z.pos < z.s.nvars - 2 ∧ c.quit z.tick = false then do
      let (s, rev) ← doSwapDown z.s z.rev z.pos
      let z : Sift := { z with s := s, rev := rev, pos := z.pos + 2, tick := z.tick + 1 }
      let u := z.s.live.length
      if c.tooBig u z.best then some z
      else siftDown c fuel (if u < z.best then { z with best := u, place := z.pos } else z)
    else some { z with tick := z.tick + 1 }

/-- "Sift up" (new_bdd.c:3160-3169).  `none` when the unsigned position wraps. -/
def siftUp (c : Cfg) : Nat → Sift → Option Sift
  | 0, _ => none
  | fuel + 1, z =>
    if 0 < z.pos ∧ c.quit z.tick = false then
      if z.pos < 2 then none
      else do
        let (s, rev) ← doSwapDown z.s z.rev (z.pos - 2)
        let z : Sift := { z with s := s, rev := rev, pos := z.pos - 2, tick := z.tick + 1 }
        let u := z.s.live.length
        if c.tooBig u z.best then some z
        else siftUp c fuel (if u ≤ z.best then { z with best := u, place := z.pos } else z)
    else some { z with tick := z.tick + 1 }

/-- "Sift to final location", upwards (new_bdd.c:3172-3176) and in `user_defined_reorder`
(3239-3242). -/
def moveUp : Nat → S → List Nat → Nat → Nat → Option (S × List Nat)
  | 0, _, _, _, _ => none
  | fuel + 1, s, rev, pos, dest =>
    if dest < pos then
      if pos < 2 then none
      else do
        let (s, rev) ← doSwapDown s rev (pos - 2)
        moveUp fuel s rev (pos - 2) dest
    else some (s, rev)

/-- "Sift to final location", downwards (new_bdd.c:3178-3181). -/
def moveDown : Nat → S → List Nat → Nat → Nat → Option (S × List Nat)
  | 0, _, _, _, _ => none
  | fuel + 1, s, rev, pos, dest =>
    if pos < dest then do
      let (s, rev) ← doSwapDown s rev pos
      moveDown fuel s rev (pos + 2) dest
    else some (s, rev)

/-- Number of nodes for a variable (`nbr_uniq_tbl`). -/
def width (s : S) (v : Nat) : Nat := (s.live.filter (fun i => isVar s v i)).length

/-- "Find the widest BDD node left to place" (new_bdd.c:3102-3112): the last variable of maximal
width among those not done. -/
def widest (s : S) (done : List Nat) : List Nat → Nat → Option Nat → Option Nat
  | [], _, r => r
  | v :: vs, mx, r =>
    if v ∉ done ∧ mx ≤ width s v then widest s done vs (width s v) (some v)
    else widest s done vs mx r

/-- Body of the `while` loop of `re_order` after a variable at position `p` was chosen
(new_bdd.c:3117-3183). -/
def siftOne (c : Cfg) (s : S) (rev : List Nat) (tick p : Nat) : Option (S × List Nat × Nat) := do
  let z ← siftDown c (s.nvars + 1) ⟨s, rev, p, s.live.length, p, tick⟩
  let z ← siftUp c (s.nvars + 1) z
  if z.pos > z.place then do
    let (s, rev) ← moveUp (s.nvars + 1) z.s z.rev z.pos z.place
    some (s, rev, z.tick)
  else do
    let (s, rev) ← moveDown (s.nvars + 1) z.s z.rev z.pos z.place
    some (s, rev, z.tick)

/-- The inner `while` loop of `re_order` (new_bdd.c:3091-3183): place one pair of variables at a
time. -/
def reorderPass (c : Cfg) (start : Nat) :
    Nat → S → List Nat → List Nat → Nat → Nat → Option (S × List Nat × Nat)
  | 0, _, _, _, _, _ => none
  | fuel + 1, s, rev, done, last, tick =>
    if c.quit tick then some (s, rev, tick + 1)
    else if c.worth start s.live.length last then
      match widest s done (List.range s.nvars) 0 none with
      | none => some (s, rev, tick + 1)
      | some v => do
        let p := 2 * (s.ord v / 2)
        let w' ← rev[p + 1]?
        let w ← rev[p]?
        let (s', rev, tick) ← siftOne c s rev (tick + 1) p
        reorderPass c start fuel s' rev (w :: w' :: done) s.live.length tick
    else some (s, rev, tick + 1)

/-- The outer `for` loop of `re_order` (new_bdd.c:3077-3184). -/
def reorderReps (c : Cfg) (start : Nat) : Nat → S → List Nat → Nat → Option S
  | 0, s, _, _ => some s
  | k + 1, s, rev, tick =>
    if c.quit tick then some s
    else do
      let (s, rev, tick) ←
        reorderPass c start (s.nvars + 1) s rev [] (s.live.length + c.minReduction + 2) (tick + 1)
      reorderReps c start k s rev tick

/-- `re_order` new_bdd.c:3047-3214. -/
def reOrder (c : Cfg) (s : S) : Option S := reorderReps c s.live.length c.repetitions s (revTable s) 0

/-- `Add_ordering_var` (new_bdd.c:1064-1077) on a list of names: `new_order_tbl`.  For the name of a
next-state variable the C code means to warn and skip, but the call `Wprintf("... (%s) ...")` has no
argument for `%s`: undefined behaviour, `none` in the model. -/
def orderingVars : S → List String → Option (List Nat × S)
  | s, [] => some ([], s)
  | s, name :: rest =>
    let cs := name.toList
    if 2 < cs.length ∧ cs.drop (cs.length - 2) = ['_', 'n'] then none
    else do
      let (f, s) ← bVar s name
      let n ← s.tbl f.idx
      let (vs, s) ← orderingVars s rest
      some (n.var :: (n.var + 1) :: vs, s)

/-- The loop of `user_defined_reorder` (new_bdd.c:3233-3243).  `ORDER(next)` on a number that is not
a variable reads past the variable table. -/
def userLoop : S → List Nat → Nat → List Nat → Option S
  | s, _, _, [] => some s
  | s, rev, i, v :: vs =>
    if v < s.nvars then do
      let (s, rev) ← moveUp (s.nvars + 1) s rev (s.ord v) i
      userLoop s rev (i + 1) vs
    else none

/-- `user_defined_reorder` new_bdd.c:3216-3274. -/
def userReorder (s : S) (vs : List Nat) : Option S := userLoop s (revTable s) 0 vs

/-- What `garbage_collect` does after sweeping (new_bdd.c:2824-2837). -/
inductive Plan where
  | keep
  | sift (c : Cfg)
  | user (vs : List Nat)

/-- `garbage_collect` after marking (new_bdd.c:2757-2864). -/
def collect (s : S) (m : MR) : Plan → Option S
  | .keep => some (cleanCache (sweep s m))
  | .sift c => do
    let s ← reOrder c (sweep s m)
    some (eraseCache s)
  | .user vs => do
    let s ← userReorder (sweep s m) vs
    some (eraseCache s)

/-- A garbage collection as a whole (graph.c:1600-1644, new_bdd.c:418-452). -/
def gc (s : S) (roots prot : List F) (p : Plan) : Option S := do
  let m ← markPhase s roots prot
  collect s m p

end Voss.Bdd
