import Verif.Ste.CompareLemmas
import Verif.Ste.TotalLemmas
import Verif.Ste.Concrete
/-
The properties of the STE simulator (C36, C37, C38).
-/
namespace Voss.Ste
open Voss.Sim

variable {F Env : Type} {p p' : Par F} {den : F → Env → Bool} {items : List (Item F)} {evs : List (Event F)}

/-! ### C36: soundness of the verdict -/

/-- C36 (partial: outside the faults excluded by `Setting`, `GoodComp` and `Acyclic`).  If a run ends without a
failed relaxation and its verdict holds under an assignment, every execution of the circuit that has the
values of the antecedents has the values of the consequents. -/
theorem c36_strong_partial (S : Setting p den items evs) (hg : ∀ k ∈ p.net, GoodComp k) {level} (A : Acyclic p level)
    (chg : Nat → Bool) (r : Result F) (h : ste p items evs chg = some (some r)) (hok : r.ok = true) (ρ : Env)
    (hv : den (r.strong p.o) ρ = true) (σ : Int → Nat → Bool) (hσ : Execution p.net σ) (ha : Meets den ρ .ant items σ) :
    Meets den ρ .cons items σ := by
  refine check_sound S.exact S.neq hg S.wf A items evs chg S.sorted S.fair r h hok ρ ?_ σ hσ ha
  simp only [Result.strong, S.exact.and, Bool.and_eq_true] at hv
  exact hv.2.2.1

/-- C36 (partial, as above).  With right ranks and an iteration limit of at least two, the same holds for the
weaker verdict that only asks for the consequents where the antecedents are consistent; no relaxation fails if
some execution has the values of the antecedents. -/
theorem c36_implies_partial (S : Setting p den items evs) (hg : ∀ k ∈ p.net, GoodComp k) {level} (A : Acyclic p level)
    (hR : RankOK p.net) (hl : 2 ≤ p.limit)
    (chg : Nat → Bool) (r : Result F) (h : ste p items evs chg = some (some r)) (ρ : Env)
    (hv : den (r.implies p.o) ρ = true) (σ : Int → Nat → Bool) (hσ : Execution p.net σ) (ha : Meets den ρ .ant items σ) :
    Meets den ρ .cons items σ := by
  obtain ⟨hok, ht⟩ := run_valid S.exact S.neq hg S.wf A hR hl items evs chg S.sorted S.fair r h ρ σ hσ ha
  refine check_sound S.exact S.neq hg S.wf A items evs chg S.sorted S.fair r h hok ρ ?_ σ hσ ha
  have hA : den r.antOK ρ = true := by
    obtain ⟨s, _, ⟨_, rfl⟩ | ⟨e, l, r', _, _, _, rfl⟩⟩ := ste_some items evs chg r h
    · exact okOf_true S.exact .ant items
    · exact okOf_true S.exact .ant items
  simp only [Result.implies, S.exact.and, S.exact.or, S.exact.not, hA, ht, Bool.not_true, Bool.false_or, Bool.and_eq_true] at hv
  exact hv.1

/-- C36: antecedents that some execution satisfies are never reported inconsistent, and no relaxation fails. -/
theorem c36_consistent_partial (S : Setting p den items evs) (hg : ∀ k ∈ p.net, GoodComp k) {level} (A : Acyclic p level)
    (hR : RankOK p.net) (hl : 2 ≤ p.limit)
    (chg : Nat → Bool) (r : Result F) (h : ste p items evs chg = some (some r)) (ρ : Env)
    (σ : Int → Nat → Bool) (hσ : Execution p.net σ) (ha : Meets den ρ .ant items σ) :
    r.ok = true ∧ den r.antOK ρ = true ∧ den r.trajOK ρ = true := by
  obtain ⟨hok, ht⟩ := run_valid S.exact S.neq hg S.wf A hR hl items evs chg S.sorted S.fair r h ρ σ hσ ha
  refine ⟨hok, ?_, ht⟩
  obtain ⟨s, _, ⟨_, rfl⟩ | ⟨e, l, r', _, _, _, rfl⟩⟩ := ste_some items evs chg r h
  · exact okOf_true S.exact .ant items
  · exact okOf_true S.exact .ant items

/-! ### C37: relaxation -/

/-- C37 (partial: `Setting` excludes lost changes).  At every time of a run without failed relaxation and without size limits,
the values of the outputs of every component without delay are its operation on the values of its inputs, as
weakened and constrained at that time. -/
theorem c37_stable_partial (S : Setting p den items evs) (hl : ∀ k, p.lim k = none) (chg : Nat → Bool) (hchg : ∀ n ≤ 3, chg n = false)
    (r : Result F) (h : ste p items evs chg = some (some r)) (hok : r.ok = true) (ρ : Env) (t : Int) (ht : InRun evs t) :
    ∃ s, observed p evs chg t = some s ∧ ∀ k ∈ p.net, k.delay = false →
      ∃ raw, k.prim.eval boolOps k.size (k.inps.map (vb den ρ s)) = some raw ∧ raw.length = k.outs.length ∧
        ∀ q ∈ k.outs.zip raw, vb den ρ s q.1 = adjB den ρ s.ev q.1 q.2 := by
  obtain ⟨e, l, he, hle, h1, h2⟩ := ht
  obtain ⟨s, hs, ⟨hn, _⟩ | ⟨e', l', r', he', hl', hr, rfl⟩⟩ := ste_some items evs chg r h
  · rw [hn] at he; simp at he
  · rw [he] at he'; rw [hle] at hl'
    cases he'; cases hl'
    obtain ⟨st, c1, c2, c3⟩ := settled (hypE S.exact S.neq hl : Hyp p den ρ OkE) S.wf (evOK S.sorted S.fair) e he (acts_builtin S) chg hchg s hs _ r' hr hok
      t h1 (by omega)
    refine ⟨st, by simp [observed, hs, he, c1], fun k hk hd => ?_⟩
    obtain ⟨c, hc⟩ := List.getElem?_of_mem hk
    obtain ⟨raw, g1, g2, g3⟩ := c2.inv.j c k hc (fun h => h) (c3 c)
    refine ⟨raw, g1, g2, fun q hq => ?_⟩
    have := g3 q hq
    rw [hd] at this
    simpa using this

/-- C37 (partial, as above).  The order of evaluation does not matter: two runs of the same components, listed and
ranked in any way, compute the same values at every time and the same verdict on the consequents. -/
theorem c37_order_partial (S : Setting p den items evs) (S' : Setting p' den items evs) (ho : p'.o = p.o) (hN : SameNet p.net p'.net)
    (hN' : SameNet p'.net p.net) (hnode : p'.nodes = p.nodes) {level} (A : Acyclic p level) (hp : ∀ k ∈ p.net, k.prim ≠ .latLeq)
    (hl : ∀ k, p.lim k = none) (hl' : ∀ k, p'.lim k = none) (chg chg' : Nat → Bool) (hchg : ∀ n ≤ 3, chg n = false ∧ chg' n = false)
    (r r' : Result F) (h : ste p items evs chg = some (some r)) (h' : ste p' items evs chg' = some (some r'))
    (hok : r.ok = true) (hok' : r'.ok = true) (ρ : Env) :
    (∀ t, InRun evs t → ∃ s s', observed p evs chg t = some s ∧ observed p' evs chg' t = some s' ∧
      ∀ m < p.nodes, m ≠ 3 → vb den ρ s m = vb den ρ s' m) ∧ den r.checkOK ρ = den r'.checkOK ρ := by
  have A' : Acyclic p' level := by
    refine ⟨fun k hk hd i hi n hn => ?_, fun k hk => ?_⟩
    · obtain ⟨k', hk', _, _, e3, e4, e5⟩ := hN' k hk
      exact A.lt k' hk' (by rw [e5]; exact hd) i (by rw [e3]; exact hi) n (by rw [e4]; exact hn)
    · obtain ⟨k', hk', _, _, e3, _⟩ := hN' k hk
      rw [← e3]; exact A.top k' hk'
  have hp' : ∀ k ∈ p'.net, k.prim ≠ .latLeq := by
    intro k hk
    obtain ⟨k', hk', e1, _⟩ := hN' k hk
    rw [← e1]; exact hp k' hk'
  obtain ⟨a1, a2⟩ := compare_runs S S' ho hN hN' hnode A hp hl' chg chg' hchg r r' h h' hok hok' ρ
  obtain ⟨b1, b2⟩ := compare_runs S' S ho.symm hN' hN hnode.symm A' hp' hl chg' chg (fun n hn => (hchg n hn).symm) r' r h' h hok' hok ρ
  refine ⟨fun t ht => ?_, ?_⟩
  · obtain ⟨s, s', c1, c2, c3⟩ := a1 t ht
    obtain ⟨u', u, d1, d2, d3⟩ := b1 t ht
    rw [c2] at d1; rw [c1] at d2
    cases d1; cases d2
    refine ⟨s, s', c1, c2, fun m hm h3 => ?_⟩
    exact weaker_antisymm (c3 m hm h3) (d3 m (by rw [hnode]; exact hm) h3)
  · cases hx : den r.checkOK ρ with
    | true => exact (a2 hx).symm
    | false =>
      cases hy : den r'.checkOK ρ with
      | false => rfl
      | true => rw [b2 hy] at hx; exact absurd hx (by simp)

/-- C37.  With right ranks every run ends, without undefined behaviour: the number of steps of a relaxation
is bounded by the number of components and ranks.  Proper intervals are needed (see
`c36_empty_interval_undefined`), right ranks too (see `c37_limit_ignored`). -/
theorem c37_ends (R : Ready p) (hfuel : p.net.length + p.top < p.fuel) (chg : Nat → Bool) (hS : Sorted p.o items evs)
    (hi : ∀ i ∈ items, i.frm < i.til) : ∃ r, ste p items evs chg = some r :=
  ste_total R hfuel items evs chg hS hi

/-! ### C38: size limits -/

/-- C38.  A run with size limits on any of its evaluations computes, at every time, values that are at most less
defined than those of the run without limits, and where it accepts the consequents the other does. -/
theorem c38_run (S : Setting p den items evs) (S' : Setting p' den items evs) (ho : p'.o = p.o) (hN : SameNet p.net p'.net)
    (hN' : SameNet p'.net p.net) (hnode : p'.nodes = p.nodes) {level} (A : Acyclic p level) (hp : ∀ k ∈ p.net, k.prim ≠ .latLeq)
    (hl : ∀ k, p'.lim k = none) (chg chg' : Nat → Bool) (hchg : ∀ n ≤ 3, chg n = false ∧ chg' n = false)
    (r r' : Result F) (h : ste p items evs chg = some (some r)) (h' : ste p' items evs chg' = some (some r'))
    (hok : r.ok = true) (hok' : r'.ok = true) (ρ : Env) :
    (∀ t, InRun evs t → ∃ s s', observed p evs chg t = some s ∧ observed p' evs chg' t = some s' ∧
      ∀ m < p.nodes, m ≠ 3 → Weaker (vb den ρ s m) (vb den ρ s' m)) ∧ (den r.checkOK ρ = true → den r'.checkOK ρ = true) :=
  compare_runs S S' ho hN hN' hnode A hp hl chg chg' hchg r r' h h' hok hok' ρ

/-! ### Non-vacuity: an inverter, an and-gate and a register, with a variable as input -/

section
def exNet : Net := [gate .not [4] 5 false 2, gate .and [5, 5] 6 false 1, gate .wire [6] 7 true 0]
def exItems : List (Item TT) := [⟨.ant, (true, true), 4, (false, true), 0, 1⟩, ⟨.cons, (true, true), 7, (true, false), 1, 2⟩]
/-- Every result that depends on the variable is too big. -/
def exLim (_ : Nat) : Option (TT → Bool) := some fun f => f.1 != f.2

theorem ex_setting (lim) : Setting (parT lim exNet 8 3) denT exItems (sortEvs opsT exItems) where
  exact := exactT
  neq := neqT
  wf := wfNet_of (by simp only [parT]; decide) (by simp only [parT]; decide) (by simp only [parT]; decide) (by simp only [parT]; decide) (by simp only [parT]; decide)
  sorted := sorted_sort _ _
  fair := ⟨by simp only [parT]; decide, by simp only [parT]; decide, by decide, by decide⟩

theorem ex_good : ∀ k ∈ exNet, GoodComp k := by
  intro k hk
  simp only [exNet, List.mem_cons, List.not_mem_nil, or_false] at hk
  rcases hk with rfl | rfl | rfl <;> exact ⟨by simp [gate], by decide, trivial, trivial⟩

theorem ex_acyclic (lim) : Acyclic (parT lim exNet 8 3) id := ⟨by simp only [parT]; decide, by simp only [parT]; decide⟩

/-- The verdict holds for both values of the variable, with an execution that meets the antecedent. -/
example : (ste (parT (fun _ => none) exNet 8 3) exItems (sortEvs opsT exItems) fun _ => false).map (·.map fun r => (r.ok, r.strong opsT, r.implies opsT)) =
    some (some (true, (true, true), (true, true))) := by decide +kernel

example : Ready (parT (fun _ => none) exNet 8 3) := by
  refine ⟨ex_good, ?_, by show RankOK exNet; unfold RankOK; decide, (ex_setting _).wf⟩
  intro k hk
  simp only [parT, exNet, List.mem_cons, List.not_mem_nil, or_false] at hk
  rcases hk with rfl | rfl | rfl <;> rfl

example : RankOK exNet := by unfold RankOK; decide
example : SameNet exNet exNet.reverse ∧ SameNet exNet.reverse exNet := by
  constructor <;> · intro k hk; exact ⟨k, by simpa using hk, rfl, rfl, rfl, rfl, rfl⟩

example (x : Bool) : ∃ σ, Execution exNet σ ∧ Meets denT x .ant exItems σ := by
  refine ⟨fun t n => n == 1 || n == 4 && x && decide (t = 0) || n == 5 && !(x && decide (t = 0)) || n == 6 && !(x && decide (t = 0)) || n == 7 && !(x && decide (t = 1)), ⟨by simp, by simp, ?_, ?_⟩, ?_⟩
  · intro t k hk hd
    simp only [exNet, List.mem_cons, List.not_mem_nil, or_false] at hk
    rcases hk with rfl | rfl | rfl
    · simp [gate, wordOp, Possible]
    · simp [gate, wordOp, Possible]
    · simp [gate] at hd
  · intro t k hk hd
    simp only [exNet, List.mem_cons, List.not_mem_nil, or_false] at hk
    rcases hk with rfl | rfl | rfl
    · simp [gate] at hd
    · simp [gate] at hd
    · have : decide (t + 1 = 1) = decide (t = 0) := by simp
      simp [gate, wordOp, Possible]
  · intro i hi hk _ t h1 h2
    simp only [exItems, List.mem_cons, List.not_mem_nil, or_false] at hi
    rcases hi with rfl | rfl
    · have : t = 0 := by simp at h1 h2; omega
      subst this
      cases x <;> rfl
    · simp at hk

/-- With the size limit the same run loses the verdict. -/
example : (ste (parT exLim exNet 8 3) exItems (sortEvs opsT exItems) fun _ => false).map (·.map fun r => (r.ok, r.checkOK)) =
    some (some (true, (false, false))) := by decide +kernel

example : InRun (sortEvs opsT exItems) 1 := ⟨_, _, rfl, rfl, by decide, by decide⟩
end

/-! ### Refutations -/

section
local macro "cases_items" i:ident : tactic =>
  `(tactic| (simp only [List.mem_cons, List.not_mem_nil, or_false] at $i:ident))

/-- Two consequents on one node that overlap and end at different times: the end of one switches off the check
of the other. -/
def i1 : List (Item Bool) := [⟨.ant, true, 4, true, 0, 2⟩, ⟨.cons, true, 4, true, 0, 3⟩, ⟨.cons, true, 4, true, 0, 2⟩]

theorem c36_overlapping_consequents_violated : ∃ σ, Wrong (par1 [] 5 1) i1 (sortEvs boolOps i1) σ := by
  refine ⟨fun t n => n == 1 || n == 4 && decide (t < 2), sorted_sort _ _, by decide,
    wfNet_of (by decide) (by decide) (by decide) (by decide) (by decide), by simp [par1], by decide +kernel,
    ⟨by simp, by simp, by simp [par1], by simp [par1]⟩, ?_, ?_⟩
  · intro i hi hk _ t h1 h2
    simp only [i1] at hi
    cases_items hi
    rcases hi with rfl | rfl | rfl <;> simp_all [den1]
  · intro h
    have := h ⟨.cons, true, 4, true, 0, 3⟩ (by simp [i1]) rfl rfl 2 (by decide) (by decide)
    simp [den1] at this

/-- A consequent that starts where an antecedent on the same node ends: the node keeps the value of the
antecedent. -/
def i2 : List (Item Bool) := [⟨.ant, true, 4, true, 0, 1⟩, ⟨.cons, true, 4, true, 1, 2⟩]

theorem c36_lost_change_violated : ∃ σ, Wrong (par1 [] 5 1) i2 (sortEvs boolOps i2) σ := by
  refine ⟨fun t n => n == 1 || n == 4 && decide (t < 1), sorted_sort _ _, by decide,
    wfNet_of (by decide) (by decide) (by decide) (by decide) (by decide), by simp [par1], by decide +kernel,
    ⟨by simp, by simp, by simp [par1], by simp [par1]⟩, ?_, ?_⟩
  · intro i hi hk _ t h1 h2
    simp only [i2] at hi
    cases_items hi
    rcases hi with rfl | rfl <;> simp_all [den1]
  · intro h
    have := h ⟨.cons, true, 4, true, 1, 2⟩ (by simp [i2]) rfl rfl 1 (by decide) (by decide)
    simp [den1] at this

/-- The same with a gate: at time 1 the output of a buffer is 1 while its input is unknown. -/
theorem c37_lost_change_violated :
    (observed (par1 [gate .wire [4] 5 false 0] 6 1) (sortEvs boolOps [⟨.ant, true, 5, true, 0, 1⟩, ⟨.cons, true, 5, true, 1, 2⟩]) (fun _ => false) 1).map
      (fun s => (s.ev.hasAnt 5, s.cur 4, s.cur 5)) = some (false, ⟨true, true⟩, ⟨true, false⟩) := by decide +kernel

/-- An antecedent on the output of a register takes effect one time unit late. -/
def n3 : Net := [gate .wire [4] 5 true 0, gate .wire [5] 6 false 0]
def i3 : List (Item Bool) := [⟨.ant, true, 5, true, 0, 1⟩, ⟨.cons, true, 6, true, 1, 2⟩]

theorem c36_register_antecedent_violated : ∃ σ, Wrong (par1 n3 7 1) i3 (sortEvs boolOps i3) σ := by
  refine ⟨fun t n => n == 1 || n == 4 && decide (t = -1) || n == 5 && decide (t = 0) || n == 6 && decide (t = 0), sorted_sort _ _, by decide,
    wfNet_of (by decide) (by decide) (by decide) (by decide) (by decide), ?_, by decide +kernel,
    ⟨by simp, by simp, ?_, ?_⟩, ?_, ?_⟩
  · intro k hk
    simp only [par1, n3] at hk
    cases_items hk
    rcases hk with rfl | rfl <;> exact ⟨by simp [gate], by decide, trivial, trivial⟩
  · intro t k hk hd
    simp only [par1, n3] at hk
    cases_items hk
    rcases hk with rfl | rfl
    · simp [gate] at hd
    · simp [gate, wordOp, Possible]
  · intro t k hk hd
    simp only [par1, n3] at hk
    cases_items hk
    rcases hk with rfl | rfl
    · have : decide (t + 1 = 0) = decide (t = -1) := by rw [decide_eq_decide]; omega
      simp [gate, wordOp, Possible, this]
    · simp [gate] at hd
  · intro i hi hk _ t h1 h2
    simp only [i3] at hi
    cases_items hi
    rcases hi with rfl | rfl
    · have : t = 0 := by simp at h1 h2; omega
      subst this; rfl
    · simp at hk
  · intro h
    have := h ⟨.cons, true, 6, true, 1, 2⟩ (by simp [i3]) rfl rfl 1 (by decide) (by decide)
    simp [den1] at this

/-- A zero-delay loop keeps a value after its cause is gone. -/
def n4 : Net := [gate .and [4, 5] 5 false 0]
def i4 : List (Item Bool) := [⟨.ant, true, 4, false, 0, 1⟩, ⟨.cons, true, 5, false, 1, 2⟩]

theorem c36_loop_violated : ∃ σ, Wrong (par1 n4 6 1) i4 (sortEvs boolOps i4) σ := by
  refine ⟨fun t n => n == 1 || n == 4 && decide (0 < t) || n == 5 && decide (0 < t), sorted_sort _ _, by decide,
    wfNet_of (by decide) (by decide) (by decide) (by decide) (by decide), ?_, by decide +kernel,
    ⟨by simp, by simp, ?_, ?_⟩, ?_, ?_⟩
  · intro k hk
    simp only [par1, n4] at hk
    cases_items hk
    rcases hk with rfl
    exact ⟨by simp [gate], by decide, trivial, trivial⟩
  · intro t k hk hd
    simp only [par1, n4] at hk
    cases_items hk
    rcases hk with rfl
    simp [gate, wordOp, Possible]
  · intro t k hk hd
    simp only [par1, n4] at hk
    cases_items hk
    rcases hk with rfl
    simp [gate] at hd
  · intro i hi hk _ t h1 h2
    simp only [i4] at hi
    cases_items hi
    rcases hi with rfl | rfl
    · have : t = 0 := by simp at h1 h2; omega
      subst this; rfl
    · simp at hk
  · intro h
    have := h ⟨.cons, true, 5, false, 1, 2⟩ (by simp [i4]) rfl rfl 1 (by decide) (by decide)
    simp [den1] at this

/-- A failed relaxation does not affect the verdict: with wrong ranks and a small limit, the output of three
buffers keeps its old value, which is accepted. -/
theorem c36_failed_relaxation_accepted :
    let items : List (Item Bool) := [⟨.ant, true, 4, false, 0, 1⟩, ⟨.ant, true, 4, true, 1, 2⟩, ⟨.cons, true, 7, false, 1, 2⟩]
    let net := [gate .wire [4] 5 false 0, gate .wire [5] 6 false 1, gate .wire [6] 7 false 2]
    (ste { par1 net 8 3 with limit := 2 } items (sortEvs boolOps items) fun _ => false).map (·.map fun r => (r.ok, r.strong boolOps)) =
      some (some (false, true)) := by decide +kernel

/-- Two antecedents on one node that overlap and end at different times: the end of one switches off the other,
so that a consequent that repeats the antecedent is rejected. -/
theorem c36_overlapping_antecedents_dropped :
    let items : List (Item Bool) := [⟨.ant, true, 4, true, 0, 3⟩, ⟨.ant, true, 4, true, 0, 2⟩, ⟨.cons, true, 4, true, 0, 3⟩]
    (ste (par1 [] 5 1) items (sortEvs boolOps items) fun _ => false).map (·.map fun r => (r.ok, r.checkOK)) =
      some (some (true, false)) := by decide +kernel

/-- The result depends on flags that are never initialised: a constant may become unknown. -/
theorem c36_uninitialised_flag :
    let items : List (Item Bool) := [⟨.cons, true, 4, true, 0, 1⟩]
    let run := fun chg => (ste (par1 [gate .wire [1] 4 false 0] 5 1) items (sortEvs boolOps items) chg).map (·.map fun r => r.strong boolOps)
    run (fun _ => false) = some (some true) ∧ run (fun n => n == 1) = some (some false) := by decide +kernel

/-- An item with an empty interval has undefined behaviour: its end is processed before its start. -/
theorem c36_empty_interval_undefined :
    let items : List (Item Bool) := [⟨.ant, true, 4, true, 1, 1⟩]
    (ste (par1 [] 5 1) items (sortEvs boolOps items) fun _ => false).isNone = true := by decide +kernel

/-- C37 (negation of the claim that the iteration limit ends every relaxation).  At time 1 of this run, a
comparator whose output is one of its inputs oscillates within one pass, which the limit does not count:
however large fuel is, the time step does not end. -/
theorem c37_limit_ignored :
    ∃ s, observed (oscPar 10 100) (sortEvs boolOps oscItems) (fun _ => false) 0 = some s ∧ ∀ limit fuel, 0 < limit →
      timeStep (oscPar limit fuel) 1 ⟨doPhase (oscPar 10 100) s, fun _ => false, (sortEvs boolOps oscItems).drop 1, true⟩ = none := by
  obtain ⟨s, hs⟩ : ∃ s, observed (oscPar 10 100) (sortEvs boolOps oscItems) (fun _ => false) 0 = some s := by
    apply Option.isSome_iff_exists.1
    decide +kernel
  refine ⟨s, hs, fun limit fuel hl => ?_⟩
  have key : (observed (oscPar 10 100) (sortEvs boolOps oscItems) (fun _ => false) 0).bind (fun s =>
      (process boolOps 1 ((doPhase (oscPar 10 100) s).ev, fun _ => false) ((sortEvs boolOps oscItems).drop 1)).map fun q =>
        let u := (List.range 6).foldl (touch (oscPar 10 100) q.1.2) { doPhase (oscPar 10 100) s with ev := q.1.1 }
        (u.wheel 0, u.cur 4, u.cur 5, u.ev.hasAnt 5, u.ev.hasWeak 5)) = some ([0], ⟨true, false⟩, ⟨false, true⟩, false, false) := by
    decide +kernel
  rw [hs, Option.bind_some] at key
  unfold timeStep
  cases hp : process boolOps 1 ((doPhase (oscPar 10 100) s).ev, fun _ => false) ((sortEvs boolOps oscItems).drop 1) with
  | none => rw [hp] at key; simp at key
  | some q =>
    rw [hp] at key
    obtain ⟨⟨v, c⟩, rest⟩ := q
    have hp' : process (oscPar limit fuel).o 1 ((doPhase (oscPar 10 100) s).ev, fun _ => false) ((sortEvs boolOps oscItems).drop 1) = some ((v, c), rest) := hp
    simp only [Option.map_some, Option.some.injEq, Prod.mk.injEq] at key
    dsimp only
    rw [hp']
    simp only [Option.bind_eq_bind, Option.bind_some]
    obtain ⟨k1, k2, k3, k4, k5⟩ := key
    have hpas : pass (oscPar limit fuel) fuel 1
        { (List.range 6).foldl (touch (oscPar 10 100) c) { doPhase (oscPar 10 100) s with ev := v } with todo := 0 } false = none :=
      osc_pass limit fuel fuel _ false k1 k2 (by dsimp only; rw [k3]; rfl) k4 k5
    obtain ⟨m, rfl⟩ : ∃ m, limit = m + 1 := ⟨limit - 1, by omega⟩
    have hr : combinational (oscPar (m + 1) fuel) ((List.range 6).foldl (touch (oscPar (m + 1) fuel) c) { doPhase (oscPar 10 100) s with ev := v }) = none := by
      unfold combinational
      show relax (oscPar (m + 1) fuel) (m + 1) _ = none
      rw [relax]
      have : pass (oscPar (m + 1) fuel) (oscPar (m + 1) fuel).fuel (oscPar (m + 1) fuel).top
        { (List.range 6).foldl (touch (oscPar (m + 1) fuel) c) { doPhase (oscPar 10 100) s with ev := v } with todo := 0 } false = none := hpas
      rw [this]; rfl
    show (combinational (oscPar (m + 1) fuel) ((List.range 6).foldl (touch (oscPar (m + 1) fuel) c) { doPhase (oscPar 10 100) s with ev := v })).bind _ = none
    rw [hr]; rfl

end

end Voss.Ste
