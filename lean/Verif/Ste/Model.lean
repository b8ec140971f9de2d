import Verif.Sim.Limited
/-
Model of the STE simulator: `update_node`, `do_wl_op`, `do_combinational`, `do_phase`, `initialize`, the
events and the main loop of `gSTE` in `src/bin/fl/fsm.c`.

Simplifications.  The value arrays and node flags are functions from node numbers; node names have been
looked up already.  Recording of traces, messages, the options `-a`, `-m`, `-e`, the stop node, interrupts and
garbage collection are left out; trace events are kept because they act on a flag.  Whether the operations
of one evaluation are limited in size, and by which test, is an arbitrary function `lim` of the number of
evaluations so far: this covers `BDD_size_limit` and the `no_weakening` flags.  The hash tables of active
events are functions from nodes to lists (C29).
-/
namespace Voss.Ste
open Voss.Sim

/-- One component of the circuit: `ncomp_rec` (fsm.h:169-179). -/
structure Comp where
  prim : Prim
  size : Nat
  inps : List Nat
  outs : List Nat
  delay : Bool
  rank : Nat

/-- The array of components (`compositesp`). -/
abbrev Net := List Comp

/-- `fanouts` of a node: the components reading it, each once, last compiled first (fsm.c:4594-4619). -/
def Net.fanouts (net : Net) (n : Nat) : List Nat :=
  ((List.range net.length).filter fun c => match net[c]? with
    | some k => k.inps.contains n
    | none => false).reverse

/-- `composite` of a node: the component that drives it; the last one compiled wins (fsm.c:4634-4638);
-1 (here `none`) for an input. -/
def Net.driver (net : Net) (n : Nat) : Option Nat :=
  ((List.range net.length).filter fun c => match net[c]? with
    | some k => k.outs.contains n
    | none => false).getLast?

/-- The kinds of listed items. -/
inductive Kind where
  | weak
  | ant
  | cons
  | trace
  deriving DecidableEq

/-- fsm.h:217-224 `event_rec`; `start` distinguishes the two halves of `event_type`. -/
structure Event (F : Type) where
  id : Nat
  kind : Kind
  start : Bool
  node : Nat
  time : Int
  H : F
  L : F
  deriving DecidableEq

/-- fsm.h:206-215 `event_type` as a number. -/
def Event.code (e : Event F) : Int :=
  (match e.kind with
    | .weak => 0
    | .ant => 1
    | .cons => 2
    | .trace => 3) + (if e.start then 0 else 4)

/-- fsm.c:3401-3415 `event_cmp`.  Differences are taken in `int`; here they are exact. -/
def eventCmp (e1 e2 : Event F) : Int :=
  if e2.time = e1.time then
    if e1.node = e2.node then e1.code - e2.code else (e2.node : Int) - e1.node
  else e2.time - e1.time

/-- An item of the weakening, antecedent, consequent or trace list: condition, node, value, from, to. -/
structure Item (F : Type) where
  kind : Kind
  cond : F
  node : Nat
  val : F
  frm : Int
  til : Int

variable {F : Type}

/-- The two events of an item (fsm.c:3422-3564). -/
def Item.events (o : Ops F) (id : Nat) (i : Item F) : List (Event F) :=
  match i.kind with
  | .weak => [⟨id, .weak, true, i.node, i.frm, i.cond, i.cond⟩, ⟨id, .weak, false, i.node, i.til, i.cond, i.cond⟩]
  | .trace => [⟨id, .trace, true, i.node, i.frm, o.zero, o.zero⟩, ⟨id, .trace, false, i.node, i.til, o.zero, o.zero⟩]
  | k => [⟨id, k, true, i.node, i.frm, o.or (o.not i.cond) i.val, o.or (o.not i.cond) (o.not i.val)⟩,
          ⟨id, k, false, i.node, i.til, o.one, o.one⟩]

/-- fsm.c:3417-3564 `create_event_buffer`, before sorting: event numbers count the items.  The lists of the
four kinds are one list here. -/
def createEvents (o : Ops F) (items : List (Item F)) : List (Event F) :=
  (items.zipIdx.map fun p => p.1.events o p.2).flatten

/-- The accumulated `assertion_OK` and `check_OK` (fsm.c:3487, 3530). -/
def okOf (o : Ops F) (k : Kind) (items : List (Item F)) : F :=
  (items.filter fun i => i.kind = k).foldl
    (fun acc i => o.and acc (o.or (o.or (o.not i.cond) i.val) (o.or (o.not i.cond) (o.not i.val)))) o.one

/-- Replacement of one value of an array. -/
def upd (f : Nat → α) (i : Nat) (x : α) : Nat → α := fun j => if j = i then x else f j

/-- The event part of the simulation state: node flags, buffers, active events. -/
structure Ev (F : Type) where
  hasWeak : Nat → Bool
  hasAnt : Nat → Bool
  hasCons : Nat → Bool
  weak : Nat → DR F
  ant : Nat → DR F
  cons : Nat → DR F
  actW : Nat → List (Event F)
  actA : Nat → List (Event F)
  actC : Nat → List (Event F)

/-- fsm.c:3653-3660: the conjunction of the active events. -/
def meet (o : Ops F) (es : List (Event F)) : DR F :=
  es.foldl (fun v e => ⟨o.and v.h e.H, o.and v.l e.L⟩) ⟨o.one, o.one⟩

/-- fsm.c:8490-8518 `delete_active_event`; `none` if there is no such event (an assertion fails or a null
pointer is followed). -/
def deleteActive (id : Nat) : List (Event F) → Option (List (Event F))
  | [] => none
  | e :: es => if e.id = id then some es else do
    let es ← deleteActive id es
    some (e :: es)

/-- The list of active events after an event (fsm.c:8475-8518). -/
def active (act : Nat → List (Event F)) (e : Event F) : Option (List (Event F)) :=
  if e.start then some (e :: act e.node) else deleteActive e.id (act e.node)

/-- The body of the loop of `process_event` (fsm.c:3585-3666).  The second component is
`has_ant_or_weak_change`. -/
def process1 (o : Ops F) (s : Ev F × (Nat → Bool)) (e : Event F) : Option (Ev F × (Nat → Bool)) :=
  let (v, chg) := s
  match e.kind with
  | .trace => some (v, upd chg e.node false)
  | .weak => do
    let a ← active v.actW e
    some ({ v with hasWeak := upd v.hasWeak e.node e.start, actW := upd v.actW e.node a, weak := upd v.weak e.node (meet o a) },
      upd chg e.node true)
  | .ant => do
    let a ← active v.actA e
    some ({ v with hasAnt := upd v.hasAnt e.node e.start, actA := upd v.actA e.node a, ant := upd v.ant e.node (meet o a) },
      upd chg e.node true)
  | .cons => do
    let a ← active v.actC e
    some ({ v with hasCons := upd v.hasCons e.node e.start, actC := upd v.actC e.node a, cons := upd v.cons e.node (meet o a) },
      upd chg e.node false)

/-- fsm.c:3575-3670 `process_event`; the list has the event popped next at its head. -/
def process (o : Ops F) (t : Int) : Ev F × (Nat → Bool) → List (Event F) → Option ((Ev F × (Nat → Bool)) × List (Event F))
  | s, [] => some (s, [])
  | s, e :: es => if e.time > t then some (s, e :: es) else do
    let s ← process1 o s e
    process o t s es

/-- Parameters of a run. -/
structure Par (F : Type) where
  o : Ops F
  /-- `c_NEQ` -/
  neq : F → F → Bool
  /-- the size test of the k-th evaluation, if there is one -/
  lim : Nat → Option (F → Bool)
  net : Net
  /-- number of nodes -/
  nodes : Nat
  /-- number of rank buffers: `fsm->ranks + 1` -/
  top : Nat
  /-- `RCStep_limit` -/
  limit : Nat
  /-- bound on the steps of one relaxation, to make the model total -/
  fuel : Nat

/-- The simulation state. -/
structure St (F : Type) where
  cur : Nat → DR F
  next : Nat → DR F
  hasPhase : Nat → Bool
  ev : Ev F
  /-- the stack of each rank, top first -/
  wheel : Nat → List Nat
  /-- `flag` of each component -/
  flag : Nat → Bool
  valid : F
  check : F
  /-- result of the relaxation so far -/
  todo : Nat
  /-- evaluations so far -/
  steps : Nat

/-- The value a node gets: weakening, then antecedent (fsm.c:7162-7209). -/
def adjust (o : Ops F) (v : Ev F) (n : Nat) (x : DR F) : DR F :=
  let x := if v.hasWeak n then ⟨o.or x.h (v.weak n).h, o.or x.l (v.weak n).l⟩ else x
  if v.hasAnt n then ⟨o.and x.h (v.ant n).h, o.and x.l (v.ant n).l⟩ else x

variable (p : Par F)

/-- fsm.c:5761-5769 `add_op_todo`. -/
def addTodo (s : St F) (c : Nat) : St F :=
  if s.flag c then s else
    match p.net[c]? with
    | some k => { s with flag := upd s.flag c true, wheel := upd s.wheel k.rank (c :: s.wheel k.rank) }
    | none => s

/-- fsm.c:7154-7225 `update_node`, without messages. -/
def updateNode (s : St F) (n : Nat) (x : DR F) : St F :=
  let y := adjust p.o s.ev n x
  let old := s.cur n
  let s1 := { s with cur := upd s.cur n y, valid := if s.ev.hasAnt n then p.o.and s.valid (p.o.or y.h y.l) else s.valid }
  if p.neq y.h old.h || p.neq y.l old.l then
    let fs := p.net.fanouts n
    fs.foldl (addTodo p) { s1 with todo := s1.todo + fs.length }
  else s1

/-- Evaluation of a component on its inputs, with the operations in force (fsm.c:5876-5890). -/
def evalComp (k : Nat) (c : Comp) (inps : List (DR F)) : Option (List (DR F)) :=
  c.prim.eval (match p.lim k with
    | none => p.o
    | some big => limited big p.o) c.size inps

/-- Storing the results of a component with a phase delay (fsm.c:5894-5904). -/
def storeNext (s : St F) (q : Nat × DR F) : St F :=
  { s with next := upd s.next q.1 q.2, hasPhase := upd s.hasPhase q.1 true, todo := s.todo + 1 }

/-- fsm.c:5856-5917 `do_wl_op`.  `none` stands for undefined behaviour of the operation, or outputs that do
not fit. -/
def doOp (s : St F) (c : Nat) : Option (St F) := do
  let k ← p.net[c]?
  let raw ← evalComp p s.steps k (k.inps.map s.cur)
  if raw.length ≠ k.outs.length then none else
  let s := { s with steps := s.steps + 1 }
  if k.delay then some ((k.outs.zip raw).foldl storeNext s)
  else some ((k.outs.zip raw).foldl (fun s q => updateNode p s q.1 q.2) s)

/-- One pass over the ranks (fsm.c:5805-5829): ranks below `r`, highest first; the second component tells
whether anything was found.  `none` also when the fuel is used up. -/
def pass : Nat → Nat → St F → Bool → Option (St F × Bool)
  | 0, _, _, _ => none
  | _ + 1, 0, s, seen => some (s, seen)
  | f + 1, r + 1, s, seen =>
    match s.wheel r with
    | [] => pass f r s seen
    | c :: cs => do
      let s ← doOp p { s with wheel := upd s.wheel r cs, flag := upd s.flag c false } c
      pass f (r + 1) s true

/-- fsm.c:5794-5832 `do_combinational`, `n` passes left; the second component is false for the result -1. -/
def relax : Nat → St F → Option (St F × Bool)
  | 0, s => some (s, false)
  | n + 1, s => do
    let (s, seen) ← pass p p.fuel p.top s false
    if seen then relax n s else some (s, true)

/-- `do_combinational` with its counter. -/
def combinational (s : St F) : Option (St F × Bool) := relax p p.limit { s with todo := 0 }

/-- The unknown value. -/
def unknown : DR F := ⟨p.o.one, p.o.one⟩

/-- The body of the loop of `do_phase` (fsm.c:5778-5790). -/
def phase1 (s : St F) (n : Nat) : St F :=
  if n > 3 ∧ p.net.driver n = none then updateNode p s n (unknown p)
  else if s.hasPhase n then updateNode p { s with hasPhase := upd s.hasPhase n false } n (s.next n)
  else s

/-- fsm.c:5771-5792 `do_phase`. -/
def doPhase (s : St F) : St F := (List.range p.nodes).foldl (phase1 p) s

/-- The loop of `initialize` (fsm.c:7255-7277). -/
def initLoop : Nat → St F → Option (St F × Bool)
  | 0, s => some (s, false)
  | n + 1, s => do
    let (s, ok) ← combinational p s
    if ok = false then some (s, false)
    else if s.todo > 0 then initLoop n (doPhase p s)
    else some (s, true)

/-- The initial event state (fsm.c:7242-7247, 8520-8535). -/
def ev0 (o : Ops F) : Ev F :=
  { hasWeak := fun _ => false, hasAnt := fun _ => false, hasCons := fun _ => false
    weak := fun _ => ⟨o.zero, o.zero⟩, ant := fun _ => ⟨o.one, o.one⟩, cons := fun _ => ⟨o.one, o.one⟩
    actW := fun _ => [], actA := fun _ => [], actC := fun _ => [] }

/-- The initial values: all unknown but for the built-in constants (fsm.c:8520-8535). -/
def cur0 (o : Ops F) (n : Nat) : DR F :=
  if n = 0 then ⟨o.zero, o.one⟩ else if n = 1 then ⟨o.one, o.zero⟩ else if n = 3 then ⟨o.zero, o.zero⟩ else ⟨o.one, o.one⟩

/-- The state before constant propagation. -/
def st0 : St F :=
  { cur := cur0 p.o, next := fun _ => unknown p, hasPhase := fun _ => false, ev := ev0 p.o
    wheel := fun _ => [], flag := fun _ => false, valid := p.o.one, check := p.o.one, todo := 0, steps := 0 }

/-- fsm.c:7238-7279 `initialize`: put everything on the wheel, then propagate. -/
def initState : Option (St F × Bool) :=
  initLoop p p.limit ((List.range p.net.length).foldl (addTodo p) (st0 p))

/-- The loop over the nodes whose weakening or antecedent changed (fsm.c:8759-8774). -/
def touch (chg : Nat → Bool) (s : St F) (n : Nat) : St F :=
  if chg n then
    match p.net.driver n with
    | some c => addTodo p s c
    | none => updateNode p s n (unknown p)
  else s

/-- The check of one node (fsm.c:8776-8836). -/
def check1 (s : St F) (n : Nat) : St F :=
  if s.ev.hasCons n then
    let v := p.o.and s.check (p.o.or (p.o.not (s.cur n).h) (s.ev.cons n).h)
    { s with check := p.o.and v (p.o.or (p.o.not (s.cur n).l) (s.ev.cons n).l) }
  else s

/-- The state of the main loop: simulation state, change flags, events left, and whether all relaxations
succeeded (which the program only prints). -/
structure Run (F : Type) where
  s : St F
  chg : Nat → Bool
  evs : List (Event F)
  ok : Bool

/-- One time unit up to the checks (fsm.c:8756-8836). -/
def timeStep (t : Int) (r : Run F) : Option (Run F) := do
  let ((ev, chg), evs) ← process p.o t (r.s.ev, r.chg) r.evs
  let s := (List.range p.nodes).foldl (touch p chg) { r.s with ev := ev }
  let (s, ok) ← combinational p s
  some ⟨(List.range p.nodes).foldl (check1 p) s, fun n => if n < p.nodes then false else chg n, evs, r.ok && ok⟩

/-- The main loop (fsm.c:8723-8848): `n` time units from `t` on. -/
def mainLoop : Nat → Int → Run F → Option (Run F)
  | 0, _, r => some r
  | n + 1, t, r => do
    let r ← timeStep p t r
    mainLoop n (t + 1) { r with s := doPhase p r.s }

/-- The state checked at time `t`, of a run that starts at `t0`. -/
def stateAt (t0 : Int) (r0 : Run F) (t : Int) : Option (St F) :=
  (mainLoop p (t - t0).toNat t0 r0).bind fun r => (timeStep p t r).map (·.s)

/-- The outcome of a run. -/
structure Result (F : Type) where
  /-- whether no message about a failed relaxation was printed -/
  ok : Bool
  antOK : F
  trajOK : F
  consOK : F
  checkOK : F

/-- fsm.c:8569-8858 `gSTE` without options: `evs` are the sorted events in the order of processing, `chg` the initial
change flags (never initialised by the program).  `some none` is a reported failure. -/
def ste (items : List (Item F)) (evs : List (Event F)) (chg : Nat → Bool) : Option (Option (Result F)) := do
  let (s, ok) ← initState p
  if ok = false then some none else
  let antOK := okOf p.o .ant items
  let consOK := okOf p.o .cons items
  match evs.head?, evs.getLast? with
  | some e, some l => do
    let r ← mainLoop p (l.time + 1 - e.time + 1).toNat e.time ⟨s, chg, evs, true⟩
    some (some ⟨r.ok, antOK, r.s.valid, consOK, r.s.check⟩)
  | _, _ => some (some ⟨true, antOK, s.valid, consOK, s.check⟩)

/-- fsm.c:9330-9372 `gen_get_ste_result`: the two combined verdicts. -/
def Result.strong (o : Ops F) (r : Result F) : F :=
  o.and r.antOK (o.and r.trajOK (o.and r.checkOK r.consOK))
def Result.implies (o : Ops F) (r : Result F) : F :=
  o.or (o.not r.antOK) (o.or (o.not r.trajOK) (o.and r.checkOK r.consOK))

/-- What `qsort` is assumed to return: the events in an order sorted by `event_cmp`; the list here is in the
order of processing, from the end of the buffer. -/
def Sorted (o : Ops F) (items : List (Item F)) (evs : List (Event F)) : Prop :=
  evs.Perm (createEvents o items) ∧ evs.reverse.Pairwise fun a b => eventCmp a b ≤ 0

end Voss.Ste
