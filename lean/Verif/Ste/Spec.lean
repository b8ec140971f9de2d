import Verif.Ste.Model
import Verif.Sim.Spec
/-
Specification side for STE: executions of a circuit, what it means to satisfy antecedents and consequents, and
the conditions under which the simulator can be trusted.
-/
namespace Voss.Ste
open Voss.Sim

/-- An execution gives each node a value at each time; it has no beginning.  Nodes 0 and 1 are the constants.
The outputs of a component without delay are its word operation applied to its inputs at the same time, those
of a component with a delay are that of its inputs one time unit earlier. -/
structure Execution (net : Net) (σ : Int → Nat → Bool) : Prop where
  zero : ∀ t, σ t 0 = false
  one : ∀ t, σ t 1 = true
  comb : ∀ t, ∀ k ∈ net, k.delay = false → List.Forall₂ Possible (wordOp k.prim k.size (k.inps.map (σ t))) (k.outs.map (σ t))
  delay : ∀ t, ∀ k ∈ net, k.delay = true → List.Forall₂ Possible (wordOp k.prim k.size (k.inps.map (σ t))) (k.outs.map (σ (t + 1)))

/-- Under the assignment `ρ`, the execution has the listed values at the listed times. -/
def Meets {F Env : Type} (den : F → Env → Bool) (ρ : Env) (kind : Kind) (items : List (Item F)) (σ : Int → Nat → Bool) : Prop :=
  ∀ i ∈ items, i.kind = kind → den i.cond ρ = true → ∀ t, i.frm ≤ t → t < i.til → σ t i.node = den i.val ρ

/-- Antecedents and weakenings act on the value of a node. -/
def Kind.acts (k : Kind) : Bool := k = .ant ∨ k = .weak

/-- Conditions on the listed items without which the simulator is wrong (see the refutations). -/
structure Fair {F : Type} (p : Par F) (items : List (Item F)) : Prop where
  /-- listed nodes exist; antecedents and weakenings are not on built-in nodes or on delayed outputs -/
  node : ∀ i ∈ items, i.node < p.nodes ∧ i.node ≠ 3
  acts : ∀ i ∈ items, i.kind.acts = true → 3 < i.node ∧ ∀ k ∈ p.net, k.delay = true → i.node ∉ k.outs
  /-- overlapping consequents on a node end together -/
  cons : ∀ i ∈ items, ∀ j ∈ items, i.kind = .cons → j.kind = .cons → i.node = j.node → i.frm < j.til → j.frm < i.til → i.til = j.til
  /-- a consequent or trace does not start where an antecedent or weakening ends, unless another starts there -/
  change : ∀ i ∈ items, ∀ j ∈ items, i.kind.acts = true → j.kind.acts = false → i.node = j.node → j.frm = i.til →
    ∃ l ∈ items, l.kind.acts = true ∧ l.node = i.node ∧ l.frm = i.til

/-- Components for which the primitives are right (C35): parameters as the circuit compiler supplies them, no
lattice comparison, no shift amounts of 32 bits or more. -/
structure GoodComp (k : Comp) : Prop where
  prim : k.prim ≠ .latLeq
  inps : k.prim.inputs k.size ≤ k.inps.length
  wf : k.prim.WF k.size
  size : k.prim.SizeOK k.size

/-- Well-formed netlists: every node is driven by at most one component output, numbers are in range. -/
structure WFNet {F : Type} (p : Par F) : Prop where
  nodup : ∀ k ∈ p.net, k.outs.Nodup
  disj : ∀ (i j : Nat) (a b : Comp), p.net[i]? = some a → p.net[j]? = some b → i ≠ j → ∀ n ∈ a.outs, n ∉ b.outs
  inps : ∀ k ∈ p.net, ∀ n ∈ k.inps, n < p.nodes
  outs : ∀ k ∈ p.net, ∀ n ∈ k.outs, 3 < n ∧ n < p.nodes
  rank : ∀ k ∈ p.net, k.rank < p.top

/-- The circuit has no zero-delay loop: levels increase from inputs to outputs.  No component reads the
overconstrained constant (node 3). -/
structure Acyclic {F : Type} (p : Par F) (level : Nat → Nat) : Prop where
  lt : ∀ k ∈ p.net, k.delay = false → ∀ i ∈ k.inps, ∀ n ∈ k.outs, level i < level n
  top : ∀ k ∈ p.net, 3 ∉ k.inps

/-- The ranks are right: a component without delay has a higher rank than the components reading its outputs
(what `assign_rank` establishes, fsm.c:6889-6925). -/
def RankOK (net : Net) : Prop :=
  ∀ k ∈ net, k.delay = false → ∀ n ∈ k.outs, ∀ k' ∈ net, n ∈ k'.inps → k'.rank < k.rank

/-- The two circuits have the same components but for ranks and order. -/
def SameNet (a b : Net) : Prop :=
  ∀ k ∈ a, ∃ k' ∈ b, k'.prim = k.prim ∧ k'.size = k.size ∧ k'.inps = k.inps ∧ k'.outs = k.outs ∧ k'.delay = k.delay

/-- The value of a node under the assignment. -/
def vb {F Env : Type} (den : F → Env → Bool) (ρ : Env) (s : St F) (n : Nat) : DR Bool := (s.cur n).at den ρ

/-- Weakening and antecedent, on Booleans. -/
def adjB {F Env : Type} (den : F → Env → Bool) (ρ : Env) (v : Ev F) (n : Nat) (x : DR Bool) : DR Bool :=
  let x : DR Bool := if v.hasWeak n then ⟨x.h || den (v.weak n).h ρ, x.l || den (v.weak n).l ρ⟩ else x
  if v.hasAnt n then ⟨x.h && den (v.ant n).h ρ, x.l && den (v.ant n).l ρ⟩ else x

/-- The component has as many outputs as its operation yields. -/
def Fits (k : Comp) : Prop := k.outs.length = (wordOp k.prim k.size (List.replicate k.inps.length false)).length

/-- What is needed for a run to end. -/
structure Ready {F : Type} (p : Par F) : Prop where
  good : ∀ k ∈ p.net, GoodComp k
  fits : ∀ k ∈ p.net, Fits k
  rank : RankOK p.net
  wf : WFNet p

/-- What is assumed of a run: exact handle operations (C01-C16), a sound inequality test, a well-formed
circuit, events sorted by the library, and items that avoid the faults recorded as refutations. -/
structure Setting {F Env : Type} (p : Par F) (den : F → Env → Bool) (items : List (Item F)) (evs : List (Event F)) : Prop where
  exact : Exact p.o den
  neq : ∀ a b, p.neq a b = false → ∀ ρ, den a ρ = den b ρ
  wf : WFNet p
  sorted : Sorted p.o items evs
  fair : Fair p items

/-- The state whose values are traced and checked at time `t` of the run. -/
def observed {F : Type} (p : Par F) (evs : List (Event F)) (chg : Nat → Bool) (t : Int) : Option (St F) := do
  let (s, _) ← initState p
  let e ← evs.head?
  stateAt p e.time ⟨s, chg, evs, true⟩ t

/-- `t` is a time at which the run checks. -/
def InRun {F : Type} (evs : List (Event F)) (t : Int) : Prop :=
  ∃ e l, evs.head? = some e ∧ evs.getLast? = some l ∧ e.time ≤ t ∧ t ≤ l.time + 1

end Voss.Ste
