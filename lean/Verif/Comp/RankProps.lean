import Verif.Comp.RankLemmas
import Verif.Comp.Props
/-
C69: the ranks of compiled components.
-/
namespace Voss.Comp
open Voss.Ste Voss.Sim

/-! ### C69: ranks -/

/-- C69 (partial: without zero-delay loops, and if no path has more than 1000 components).  After ranking, every
component has a rank from 1 to the highest rank returned, and one without delay has a higher rank than all
components reading its outputs; nothing else has changed. -/
theorem c69_ranks_partial (net : Net) (h : Nat → Nat) (hS : Shallow net 1000 h) :
    RankOK (rankOrder net).1 ∧ (∀ k ∈ (rankOrder net).1, 1 ≤ k.rank ∧ k.rank ≤ (rankOrder net).2) ∧
    (rankOrder net).1.length = net.length ∧
    ∀ i : Nat, ∀ k, net[i]? = some k → ∃ rk, (rankOrder net).1[i]? = some { k with rank := rk } := by
  obtain ⟨I, _, h3⟩ := assignAll_spec hS (List.range net.length) (initRanks net) (by simp) (init_inv net)
  refine ⟨fun k hk hd n hn k' hk' hi => ?_, fun k hk => ?_, ?_, fun i k hk => ?_⟩
  · obtain ⟨i, x, hx, rfl⟩ := mem_setRanks.mp hk
    obtain ⟨j, y, hy, rfl⟩ := mem_setRanks.mp hk'
    exact (I.lt i x hx (h3 i (List.mem_range.mpr (List.getElem?_eq_some_iff.mp hx).1)) hd j ((mem_readers hx).mpr ⟨n, hn, y, hy, hi⟩)).2
  · obtain ⟨i, x, hx, rfl⟩ := mem_setRanks.mp hk
    exact ⟨Nat.pos_of_ne_zero (h3 i (List.mem_range.mpr (List.getElem?_eq_some_iff.mp hx).1)), I.mx i⟩
  · simp [rankOrder, setRanks]
  · exact ⟨_, by rw [rankOrder]; simp only; rw [setRanks_get, hk]; rfl⟩

/-- The hypothesis is met by a circuit with a loop through a register, and the ranks are as expected. -/
example : Shallow [⟨.and, 1, [4, 6], [5], false, 0⟩, ⟨.not, 1, [5], [7], false, 0⟩, ⟨.wire, 1, [7], [6], true, 0⟩] 1000 (fun i => 2 - i) := by
  intro i k hk
  have : i < 3 := (List.getElem?_eq_some_iff.mp hk).1
  have h3 : i = 0 ∨ i = 1 ∨ i = 2 := by omega
  refine ⟨by show 2 - i < 1000; omega, fun hd n hn j k' hj hr => ?_⟩
  have : j < 3 := (List.getElem?_eq_some_iff.mp hj).1
  have h4 : j = 0 ∨ j = 1 ∨ j = 2 := by omega
  rcases h3 with rfl | rfl | rfl <;> cases hk <;> rcases h4 with rfl | rfl | rfl <;> cases hj <;> simp_all

example : ((rankOrder [⟨.and, 1, [4, 6], [5], false, 0⟩, ⟨.not, 1, [5], [7], false, 0⟩, ⟨.wire, 1, [7], [6], true, 0⟩]).1.map (·.rank)) = [3, 2, 1] := by
  decide +kernel

/-- C69 fails for longer paths: in a chain of 1002 inverters two that follow each other get the same rank. -/
theorem c69_depth_violated : Shallow (chain 1002) 1002 (fun i => 1001 - i) ∧ ¬RankOK (rankOrder (chain 1002)).1 := by
  constructor
  · intro i k hk
    have hi : i < 1002 := by have := (List.getElem?_eq_some_iff.mp hk).1; rwa [chain, List.length_map, List.length_range] at this
    refine ⟨by show 1001 - i < 1002; omega, fun _ n hn j k' hj hr => ?_⟩
    have := (chain_readers hi).mp ((mem_readers hk).mpr ⟨n, hn, k', hj, hr⟩)
    show 1001 - j < 1001 - i
    omega
  · intro h
    have e : ∀ net, (rankOrder net).1 = setRanks net (assignAll net 1000 (List.range net.length) (initRanks net)) := fun _ => rfl
    rw [e] at h
    exact chain_bad 999 1002 1000 (by omega) rfl rfl h

/-! ### From update functions to the verdict -/

/-- C69 with C68: a compiled and ranked leaf is fit for simulation, if its outputs are driven once and are not
constants, and it has neither zero-delay loops nor paths of more than 1000 components. -/
theorem c69_ready_partial {F : Type} (p : Par F) (look : String → List Nat) (acc : Bool) (next : Nat) (us : List Update) (r : Nat × Net)
    (hn : ∀ s, ∀ x ∈ look s, x < next) (h4 : 4 ≤ next) (hu : ∀ u ∈ us, u.OK look) (h : leaf look acc next us = .ok r)
    (hd : (driven look us).Nodup) (hd3 : ∀ x ∈ driven look us, 3 < x) (h3 : ∀ k ∈ r.2, 3 ∉ k.inps)
    (hside : ∀ k ∈ r.2, Side k) {ht : Nat → Nat} (hS : Shallow r.2 1000 ht)
    (hp : p.net = (rankOrder r.2).1) (ho : p.nodes = r.1) (hT : p.top = (rankOrder r.2).2 + 1) :
    Ready p ∧ (∃ level, Acyclic p level) ∧ SameNet p.net r.2 ∧ SameNet r.2 p.net := by
  obtain ⟨g, _⟩ := leaf_ok look acc next hn us next r (Nat.le_refl _) hu h
  obtain ⟨n1, n2, n3, n4, n5⟩ := c68_net_partial look acc next us r hn hu h
  obtain ⟨r1, r2, r3, r4⟩ := c69_ranks_partial r.2 ht hS
  have hget : ∀ (i : Nat) k, p.net[i]? = some k → ∃ k' rk, r.2[i]? = some k' ∧ k = { k' with rank := rk } := by
    intro i k hk
    rw [hp] at hk
    have hlt := (List.getElem?_eq_some_iff.mp hk).1
    rw [r3] at hlt
    obtain ⟨rk, e⟩ := r4 i _ (List.getElem?_eq_getElem hlt)
    rw [hk] at e
    exact ⟨_, rk, List.getElem?_eq_getElem hlt, Option.some.inj e⟩
  have hmem : ∀ k ∈ p.net, ∃ i : Nat, ∃ k' rk, r.2[i]? = some k' ∧ k' ∈ r.2 ∧ k = { k' with rank := rk } := by
    intro k hk
    obtain ⟨i, hi⟩ := List.getElem?_of_mem hk
    obtain ⟨k', rk, a, b⟩ := hget i k hi
    exact ⟨i, k', rk, a, List.mem_of_getElem? a, b⟩
  have hN := n5 hd
  refine ⟨⟨fun k hk => ?_, fun k hk => ?_, by rw [hp]; exact r1, ⟨fun k hk => ?_, fun i j a b ha hb hij n hna hnb => ?_, fun k hk x hx => ?_, fun k hk x hx => ?_, fun k hk => ?_⟩⟩,
    ⟨nodeLevel r.2 1000 ht, fun k hk hdel i hi n hn => ?_, fun k hk => ?_⟩, fun k hk => ?_, fun k hk => ?_⟩
  · obtain ⟨i, k', rk, e1, e2, rfl⟩ := hmem k hk
    obtain ⟨g1, g2, g3, g4⟩ := (n2 k' e2).2.2 (hside k' e2)
    exact ⟨g1, g2, g3, g4⟩
  · obtain ⟨i, k', rk, e1, e2, rfl⟩ := hmem k hk
    exact (n2 k' e2).1
  · obtain ⟨i, k', rk, e1, e2, rfl⟩ := hmem k hk
    exact (List.nodup_flatMap.mp hN).1 k' e2
  · obtain ⟨a', ra, e1, rfl⟩ := hget i a ha
    obtain ⟨b', rb, e2, rfl⟩ := hget j b hb
    have hP := (List.nodup_flatMap.mp hN).2
    obtain ⟨li, ei⟩ := List.getElem?_eq_some_iff.mp e1
    obtain ⟨lj, ej⟩ := List.getElem?_eq_some_iff.mp e2
    rw [List.pairwise_iff_getElem] at hP
    rcases Nat.lt_or_gt_of_ne hij with hlt | hlt
    · have := hP i j li lj hlt
      rw [ei, ej] at this
      exact this hna hnb
    · have := hP j i lj li hlt
      rw [ei, ej] at this
      exact this hnb hna
  · obtain ⟨i, k', rk, e1, e2, rfl⟩ := hmem k hk
    rw [ho]
    exact n3 k' e2 x hx
  · obtain ⟨i, k', rk, e1, e2, rfl⟩ := hmem k hk
    rw [ho]
    rcases n4 k' e2 x hx with hx | hx
    · refine ⟨hd3 x hx, ?_⟩
      have : x < next := g.own x hx
      omega
    · omega
  · rw [hp] at hk
    have := (r2 k hk).2
    omega
  · obtain ⟨j, k', rk, e1, e2, rfl⟩ := hmem k hk
    exact nodeLevel_lt hS e1 hdel hi hn
  · obtain ⟨i, k', rk, e1, e2, rfl⟩ := hmem k hk
    exact h3 k' e2
  · obtain ⟨i, k', rk, e1, e2, rfl⟩ := hmem k hk
    exact ⟨k', e2, rfl, rfl, rfl, rfl, rfl⟩
  · obtain ⟨i, hi⟩ := List.getElem?_of_mem hk
    obtain ⟨rk, e⟩ := r4 i k hi
    rw [← hp] at e
    exact ⟨_, List.mem_of_getElem? e, rfl, rfl, rfl, rfl, rfl⟩

/-- C69 with C68 and C36 (partial, as these): from update functions to the verdict.  Let a leaf be compiled and
ranked and simulated, with an iteration limit of at least two.  Where the verdict says that the antecedents
imply the consequents, every behaviour of the declared nodes that satisfies the update functions and has the
values of the antecedents has those of the consequents. -/
theorem c69_ste_partial {F Env : Type} {p : Par F} {den : F → Env → Bool} {items : List (Item F)} {evs : List (Event F)}
    (look : String → List Nat) (acc : Bool) (next : Nat) (us : List Update) (r : Nat × Net)
    (hn : ∀ s, ∀ x ∈ look s, x < next) (h4 : 4 ≤ next) (hu : ∀ u ∈ us, u.OK look) (h : leaf look acc next us = .ok r)
    (hd : (driven look us).Nodup) (hd3 : ∀ x ∈ driven look us, 3 < x) (h3 : ∀ k ∈ r.2, 3 ∉ k.inps)
    (hside : ∀ k ∈ r.2, Side k) {ht : Nat → Nat} (hS : Shallow r.2 1000 ht)
    (hp : p.net = (rankOrder r.2).1) (ho : p.nodes = r.1) (hT : p.top = (rankOrder r.2).2 + 1)
    (E : Exact p.o den) (hneq : ∀ a b, p.neq a b = false → ∀ ρ, den a ρ = den b ρ) (hs : Sorted p.o items evs) (hf : Fair p items)
    (hl : 2 ≤ p.limit) (hitems : ∀ i ∈ items, i.node < next)
    (chg : Nat → Bool) (res : Result F) (hrun : ste p items evs chg = some (some res)) (ρ : Env)
    (hv : den (res.implies p.o) ρ = true) (σ : Int → Nat → Bool) (hc : ∀ t, σ t 0 = false ∧ σ t 1 = true)
    (hσ : ∀ u ∈ us, u.Holds look σ) (ha : Meets den ρ .ant items σ) : Meets den ρ .cons items σ := by
  obtain ⟨R, ⟨level, A⟩, hsame, _⟩ := c69_ready_partial p look acc next us r hn h4 hu h hd hd3 h3 hside hS hp ho hT
  obtain ⟨τ, t1, t2⟩ := (c68_leaf_partial look acc next us r (by omega) hn hu h σ).mpr ⟨hc, hσ⟩
  have hex : Execution p.net τ := by
    refine ⟨t2.zero, t2.one, fun t k hk hd => ?_, fun t k hk hd => ?_⟩
    · obtain ⟨k', hk', e1, e2, e3, e4, e5⟩ := hsame k hk
      have := t2.comb t k' hk' (by rw [e5, hd])
      rwa [e1, e2, e3, e4] at this
    · obtain ⟨k', hk', e1, e2, e3, e4, e5⟩ := hsame k hk
      have := t2.delay t k' hk' (by rw [e5, hd])
      rwa [e1, e2, e3, e4] at this
  have hm : ∀ kind, Meets den ρ kind items τ ↔ Meets den ρ kind items σ := by
    intro kind
    constructor
    · intro hh i hi hk hd t hf hl
      rw [← t1 t i.node (hitems i hi)]
      exact hh i hi hk hd t hf hl
    · intro hh i hi hk hd t hf hl
      rw [t1 t i.node (hitems i hi)]
      exact hh i hi hk hd t hf hl
  exact (hm _).mp (c36_implies_partial ⟨E, hneq, R.wf, hs, hf⟩ R.good A R.rank hl chg res hrun ρ hv τ hex ((hm _).mpr ha))

/-- The circuit of `exUs`. -/
def exNet : Net :=
  [⟨.ite true, 2, [6, 9, 10, 4, 5], [7, 8], false, 0⟩, ⟨.add, 2, [4, 5, 11, 12], [9, 10], false, 0⟩,
   ⟨.const [1#64], 2, [], [11, 12], false, 0⟩, ⟨.wire, 2, [7, 8], [4, 5], true, 0⟩]

/-- The hypotheses on the circuit are met by the counter of `exUs`. -/
example : ∃ r ht, leaf exLook true 9 exUs = .ok r ∧ Shallow r.2 1000 ht ∧ (∀ k ∈ r.2, 3 ∉ k.inps) ∧ (∀ x ∈ driven exLook exUs, 3 < x) ∧ (∀ k ∈ r.2, Side k) := by
  refine ⟨(13, exNet), fun i => (i + 1) % 4, rfl, ?_, by decide, by decide, ?_⟩
  · intro i k hk
    have h3 : i < 4 := (List.getElem?_eq_some_iff.mp hk).1
    refine ⟨by show (i + 1) % 4 < 1000; omega, fun hd n hn j k' hj hr => ?_⟩
    have h4 : j < 4 := (List.getElem?_eq_some_iff.mp hj).1
    have h3 : i = 0 ∨ i = 1 ∨ i = 2 ∨ i = 3 := by omega
    have h4 : j = 0 ∨ j = 1 ∨ j = 2 ∨ j = 3 := by omega
    rcases h3 with rfl | rfl | rfl | rfl <;> cases hk <;> rcases h4 with rfl | rfl | rfl | rfl <;> cases hj <;> simp_all <;> omega
  · intro k hk
    simp only [exNet, List.mem_cons, List.not_mem_nil, or_false] at hk
    rcases hk with rfl | rfl | rfl | rfl
    · exact ⟨by simp, trivial, trivial⟩
    · exact ⟨by simp, trivial, trivial⟩
    · exact ⟨by simp, trivial, Arbi.norm_single _, by decide⟩
    · exact ⟨by simp, trivial, trivial⟩

end Voss.Comp
