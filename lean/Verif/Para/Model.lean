/-
Model of `para_eval` (src/bin/fl/preamble.fl:2590-2745) and of the builtins by which it watches processes
(src/bin/fl/system.c:340-376).

The expressions are numbered from 1.  What the processes do is given by a `World`; time is counted in calls of
`get_process_exit_status`.  Process identifiers are not used again, and the process of expression number `i` is
simply called `i`.  A child that has ended stays a zombie until it is waited for.
-/
namespace Voss.Para

/-- What is outside of the program. -/
structure World (α : Type) where
  /-- At this time, the process of this expression, if it was started, has ended. -/
  ended : Nat → Nat → Bool
  /-- The exit code of the process, or `none` if it was killed by a signal. -/
  exit : Nat → Option Nat
  /-- The process has written its result to a file before it ended. -/
  file : Nat → Bool
  /-- The result that it has written. -/
  value : Nat → α
  /-- system.c:348: the variable `status` is not initialised, and `waitpid` leaves it alone when there is
  nothing to report.  What `get_process_exit_status` makes of its content at this time. -/
  junk : Nat → Int

/-- The time, and the children that were waited for. -/
structure Sys where
  clock : Nat
  reaped : List Nat
deriving DecidableEq, Repr

/-- preamble.fl:2596-2600 `status`. -/
inductive Status where
  | running
  | doneOk
  | failed
  | died (code : Int)
deriving DecidableEq, Repr

variable {α : Type} (w : World α)

/-- system.c:340-361 `get_process_exit_status`. -/
def exitStatus (s : Sys) (i : Nat) : Int × Sys :=
  if w.ended s.clock i = true ∧ i ∉ s.reaped then
    (match w.exit i with | some c => (c : Int) | none => 999999, ⟨s.clock + 1, i :: s.reaped⟩)
  else (w.junk s.clock, ⟨s.clock + 1, s.reaped⟩)

/-- preamble.fl:2621-2631 `get_status`; `kill pid 0` succeeds as long as the child was not waited for. -/
def getStatus (s : Sys) (i : Nat) : Status × Sys :=
  let e := exitStatus w s i
  if e.1 ≠ 0 ∧ e.1 ≠ 999999 then (.died e.1, e.2)
  else if i ∈ e.2.reaped then (if w.file i then .doneOk else .failed, e.2)
  else (.running, e.2)

/-- list_ops.c `split`, with a predicate on the status of processes. -/
def split (p : Status → Bool) : Sys → List Nat → (List Nat × List Nat) × Sys
  | s, [] => (([], []), s)
  | s, i :: l =>
    let r := getStatus w s i
    let q := split p r.2 l
    (if p r.1 then (i :: q.1.1, q.1.2) else (q.1.1, i :: q.1.2), q.2)

/-- list_ops.c:789-835 `find_first0`, for processes that are done. -/
def findDone : Sys → List Nat → Nat × Sys
  | s, [] => (0, s)
  | s, i :: l =>
    let r := getStatus w s i
    if r.1 = .doneOk then (1, r.2)
    else
      let q := findDone r.2 l
      (if q.1 = 0 then 0 else q.1 + 1, q.2)

/-- preamble.fl:2638-2641 `list_grab`; `firstn` and `butfirstn` take a negative number for 0. -/
def grab (cnt : Int) (l : List Nat) : List Nat × List Nat :=
  if (l.length : Int) ≤ cnt then (l, []) else (l.take cnt.toNat, l.drop cnt.toNat)

/-- The three lists that the loop works on. -/
structure St where
  finished : List Nat
  current : List Nat
  todo : List Nat
deriving DecidableEq, Repr

/-- preamble.fl:2686-2690 `stop`. -/
def stop (single : Bool) (s : Sys) (st : St) : Bool × Sys :=
  if st.current = [] ∧ st.todo = [] then (true, s)
  else
    let r := findDone w s st.finished
    (single && decide (r.1 ≠ 0), r.2)

/-- preamble.fl:2691-2718 `update_fn`. -/
def update (max : Int) (s : Sys) (st : St) : St × Sys :=
  let r := split w (fun x => decide (x = .running)) s st.current
  let active := r.1.1
  let done := r.1.2
  if active ≠ [] ∧ done = [] then (st, r.2)
  else
    let g := grab (max - active.length) st.todo
    (⟨st.finished ++ done, active ++ g.1, g.2⟩, r.2)

/-- preamble.fl:2720, with list_ops.c:411-456 `loop`: the number bounds the number of iterations. -/
def loop (max : Int) (single : Bool) : Nat → Sys → St → Option (St × Sys)
  | 0, _, _ => none
  | k + 1, s, st =>
    let t := stop w single s st
    if t.1 then some (st, t.2)
    else
      let u := update w max t.2 st
      loop max single k u.2 u.1

/-- The result of a call: a value, a failure, or no end within the number of iterations. -/
inductive Res (β : Type) where
  | ok (b : β)
  | fail
  | more
deriving DecidableEq, Repr

/-- preamble.fl:2722-2738, for all results. -/
def allResults (s : Sys) (st : St) : List (Nat × Option α) :=
  let r := split w (fun x => decide (x = .doneOk)) s st.finished
  r.1.1.map (fun i => (i, some (w.value i))) ++ r.1.2.map fun i => (i, none)

/-- preamble.fl:2727-2737, for the first result; `el 0` is a failure. -/
def winnerResults (n : Nat) (s : Sys) (st : St) : Res (List (Nat × Option α)) :=
  let r := findDone w s st.finished
  if r.1 = 0 then .fail
  else match st.finished[r.1 - 1]? with
    | none => .fail
    | some j => .ok ((j, some (w.value j)) :: (((List.range' 1 n).filter (· ≠ r.1)).map fun i => (i, none)))

/-- preamble.fl:2675-2741 `para_eval` of `n` expressions; `sort` is `qsort` with the comparison of the numbers. -/
def paraEval (sort : List (Nat × Option α) → List (Nat × Option α)) (max : Int) (single : Bool) (n k : Nat) :
    Res (List (Option α)) :=
  match loop w max single k ⟨0, []⟩ ⟨[], [], List.range' 1 n⟩ with
  | none => .more
  | some (st, s) =>
    if single then
      match winnerResults w n s st with
      | .ok l => .ok ((sort l).map Prod.snd)
      | .fail => .fail
      | .more => .more
    else .ok ((sort (allResults w s st)).map Prod.snd)

end Voss.Para
