import Verif.Comp.Total
import Verif.Ste.Props
/-
The properties of the circuit compiler (C68).
-/
namespace Voss.Comp
open Voss.Sim
open Voss.Ste

/-! ### C68: compiled update functions have the meaning of their expressions -/

/-- C68 (partial: outside the faults excluded by `Update.OK`, `Fine` and `IsPred`, see the refutations).  The
nodes below `next` are the declared ones, named by `look`; the compiler adds temporaries above.  A behaviour of
the declared nodes extends to an execution of the compiled circuit exactly if it satisfies every update
function of the leaf at all times. -/
theorem c68_leaf_partial (look : String → List Nat) (acc : Bool) (next : Nat) (us : List Update) (r : Nat × Net)
    (h2 : 2 ≤ next) (hn : ∀ s, ∀ x ∈ look s, x < next) (hu : ∀ u ∈ us, u.OK look) (h : leaf look acc next us = .ok r)
    (σ : Int → Nat → Bool) :
    (∃ τ, (∀ t, ∀ x < next, τ t x = σ t x) ∧ Execution r.2 τ) ↔
      (∀ t, σ t 0 = false ∧ σ t 1 = true) ∧ ∀ u ∈ us, u.Holds look σ := by
  obtain ⟨g, _⟩ := leaf_ok look acc next hn us next r (Nat.le_refl _) hu h
  constructor
  · rintro ⟨τ, t1, t2⟩
    obtain ⟨t3, t4⟩ := (execution_iff _ _).mp t2
    refine ⟨fun t => ?_, fun u hm => (holds_agree hn t1).mp (g.sound τ t4 u hm)⟩
    rw [← t1 t 0 (by omega), ← t1 t 1 (by omega)]
    exact t3 t
  · rintro ⟨h0, h1⟩
    obtain ⟨τ, t1, t2⟩ := g.complete σ h1
    refine ⟨τ, t1, (execution_iff _ _).mpr ⟨fun t => ?_, t2⟩⟩
    rw [t1 t 0 (by omega), t1 t 1 (by omega)]
    exact h0 t

/-- C68: update functions with properly sized sides are compiled without error. -/
theorem c68_accepts_partial (look : String → List Nat) (acc : Bool) (next : Nat) (us : List Update)
    (hu : ∀ u ∈ us, u.OK look ∧ Assignable u.lhs) : ∃ r, leaf look acc next us = .ok r :=
  leaf_acc look acc us next hu

/-- C68: the compiled circuit is well-formed.  Every component has the inputs its operation reads and as many
outputs as it yields; the primitives are those for which C35 holds unless the numbers in the expressions
forbid it; if no declared node is driven twice, no node is. -/
theorem c68_net_partial (look : String → List Nat) (acc : Bool) (next : Nat) (us : List Update) (r : Nat × Net)
    (hn : ∀ s, ∀ x ∈ look s, x < next) (hu : ∀ u ∈ us, u.OK look) (h : leaf look acc next us = .ok r) :
    next ≤ r.1 ∧
    (∀ k ∈ r.2, Fits k ∧ k.prim.inputs k.size ≤ k.inps.length ∧ (Side k → GoodComp k)) ∧
    (∀ k ∈ r.2, ∀ x ∈ k.inps, x < r.1) ∧
    (∀ k ∈ r.2, ∀ x ∈ k.outs, x ∈ driven look us ∨ (next ≤ x ∧ x < r.1)) ∧
    ((driven look us).Nodup → (r.2.flatMap (·.outs)).Nodup) := by
  obtain ⟨g, _⟩ := leaf_ok look acc next hn us next r (Nat.le_refl _) hu h
  refine ⟨g.le, fun k hk => ?_, g.inps, g.outs, g.nodup⟩
  obtain ⟨p1, p2, p3⟩ := g.proper k hk
  refine ⟨?_, p1, fun hs => ⟨hs.1, p1, ?_, hs.2.1⟩⟩
  · unfold Fits
    rw [word_length _ _ _ (by simpa using p1) p3, p2]
  · have hs' := hs.2.2
    cases hk' : k.prim <;> rw [hk'] at hs' p3 <;> simp only [Prim.WF, Shape] at hs' p3 ⊢ <;> trivial

/-- C68 with C36 (partial, as both).  Let `p.net` be the compiled leaf, with ranks.  If a run of the simulator
on it ends without a failed relaxation and its verdict holds under an assignment, then every behaviour of the
declared nodes that satisfies the update functions and has the values of the antecedents has those of the
consequents. -/
theorem c68_ste_partial {F Env : Type} {p : Par F} {den : F → Env → Bool} {items : List (Item F)} {evs : List (Event F)}
    (look : String → List Nat) (acc : Bool) (next : Nat) (us : List Update) (r : Nat × Net)
    (h2 : 2 ≤ next) (hn : ∀ s, ∀ x ∈ look s, x < next) (hu : ∀ u ∈ us, u.OK look) (h : leaf look acc next us = .ok r)
    (hsame : SameNet p.net r.2) (hside : ∀ k ∈ p.net, Side k)
    (S : Setting p den items evs) {level} (A : Acyclic p level) (hitems : ∀ i ∈ items, i.node < next)
    (chg : Nat → Bool) (res : Result F) (hrun : ste p items evs chg = some (some res)) (hok : res.ok = true) (ρ : Env)
    (hv : den (res.strong p.o) ρ = true) (σ : Int → Nat → Bool) (hc : ∀ t, σ t 0 = false ∧ σ t 1 = true)
    (hσ : ∀ u ∈ us, u.Holds look σ) (ha : Meets den ρ .ant items σ) : Meets den ρ .cons items σ := by
  obtain ⟨τ, t1, t2⟩ := (c68_leaf_partial look acc next us r h2 hn hu h σ).mpr ⟨hc, hσ⟩
  have hnet := c68_net_partial look acc next us r hn hu h
  have hex : Execution p.net τ := by
    refine ⟨t2.zero, t2.one, fun t k hk hd => ?_, fun t k hk hd => ?_⟩
    · obtain ⟨k', hk', e1, e2, e3, e4, e5⟩ := hsame k hk
      have := t2.comb t k' hk' (by rw [e5, hd])
      rwa [e1, e2, e3, e4] at this
    · obtain ⟨k', hk', e1, e2, e3, e4, e5⟩ := hsame k hk
      have := t2.delay t k' hk' (by rw [e5, hd])
      rwa [e1, e2, e3, e4] at this
  have hg : ∀ k ∈ p.net, GoodComp k := by
    intro k hk
    obtain ⟨k', hk', e1, e2, e3, e4, e5⟩ := hsame k hk
    have hk'' := (hnet.2.1 k' hk').2.2
    have hs := hside k hk
    unfold Side at hs hk''
    rw [e1, e2] at hk''
    obtain ⟨g1, g2, g3, g4⟩ := hk'' hs
    rw [e1, e2] at g2 g3 g4
    rw [e1] at g1
    rw [e3] at g2
    exact ⟨g1, g2, g3, g4⟩
  have hm : ∀ kind, Meets den ρ kind items τ ↔ Meets den ρ kind items σ := by
    intro kind
    constructor
    · intro hh i hi hk hd t hf hl
      rw [← t1 t i.node (hitems i hi)]
      exact hh i hi hk hd t hf hl
    · intro hh i hi hk hd t hf hl
      rw [t1 t i.node (hitems i hi)]
      exact hh i hi hk hd t hf hl
  exact (hm _).mp (c36_strong_partial S hg A chg res hrun hok ρ hv τ hex ((hm _).mpr ha))

/-! The hypotheses are met: a counter bit with enable, `q' := if en then q + 1 else q` with a register, and a
slice of a concatenation on the left. -/

/-- Nodes 4-5 are `q[1:0]`, node 6 is `en`, nodes 7-8 are `d[1:0]`. -/
def exLook (s : String) : List Nat :=
  if s = "q[1:0]" then [4, 5] else if s = "en" then [6] else if s = "d[1:0]" then [7, 8] else []

def exUs : List Update :=
  [⟨false, .var 2 "d", .ite (.var 1 "en") (.bin .add (.var 2 "q") (.const 2 [1#64])) (.var 2 "q")⟩,
   ⟨true, .slice [1, 0] (.cat [.slice [1] (.var 2 "q"), .slice [0] (.var 2 "q")]), .var 2 "d"⟩]

example : (∀ u ∈ exUs, u.OK exLook ∧ Assignable u.lhs) ∧ (∀ s, ∀ x ∈ exLook s, x < 9) := by
  constructor
  · intro u hu
    simp only [exUs, List.mem_cons, List.not_mem_nil, or_false] at hu
    rcases hu with rfl | rfl
    · refine ⟨⟨⟨2, ?_, ?_⟩, ?_, ?_⟩, ?_⟩
      · simp only [Sized]; decide
      · simp only [Sized]; decide
      · simp [Fine]
      · simp
      · simp [Assignable]
    · refine ⟨⟨⟨2, ?_, ?_⟩, ?_, ?_⟩, ?_⟩
      · simp only [Sized, SizedAll]
        refine ⟨rfl, 2, ⟨1, 1, rfl, ⟨rfl, 2, ⟨rfl, rfl⟩, by decide⟩, 1, 0, rfl, ⟨rfl, 2, ⟨rfl, rfl⟩, by decide⟩, rfl⟩, by decide⟩
      · simp only [Sized]; decide
      · simp [Fine]
      · simp [IsPred]
      · simp [Assignable, AssignableAll]
  · intro s x hx
    unfold exLook at hx
    split at hx
    · simp at hx; omega
    split at hx
    · simp at hx; omega
    split at hx
    · simp at hx; omega
    · simp at hx

example : ∃ c, leaf exLook true 9 exUs = .ok (13, c) ∧ c.length = 4 ∧ (driven exLook exUs).Nodup := by
  refine ⟨_, rfl, by decide, by decide⟩

/-! Refutations. -/

/-- Nodes 4-7 are the memory `m[3:0]`, node 8 is the address `a`, nodes 9-12 are `y[3:0]`. -/
def rdLook (s : String) : List Nat :=
  if s = "m[3:0]" then [4, 5, 6, 7] else if s = "a" then [8] else if s = "y[3:0]" then [9, 10, 11, 12] else []

/-- `y := zero extension to 4 bits of m[a]`, a memory of 2 lines of 2 bits. -/
def rdUs : List Update := [⟨false, .var 4 "y", .zx 4 (.memRead 1 2 2 (.var 4 "m") (.var 1 "a"))⟩]

/-- C68 fails for memory reads whose width is needed to compile: the width taken is that of the address.  The
update function is properly sized and is compiled without complaint; a behaviour satisfies it, but the
circuit, in which the two bits read go to one node, has no execution at all. -/
theorem c68_memory_read_violated : ∃ r,
    leaf rdLook true 13 rdUs = .ok r ∧
    (∀ u ∈ rdUs, ∃ n, Sized (fun s => (rdLook s).length) u.lhs n ∧ Sized (fun s => (rdLook s).length) u.rhs n) ∧
    (∃ k ∈ r.2, ¬Fits k) ∧
    (∀ u ∈ rdUs, u.Holds rdLook fun _ x => x == 1) ∧
    ¬∃ τ, Execution r.2 τ := by
  refine ⟨_, rfl, ?_, ?_, ?_, ?_⟩
  · intro u hu
    simp only [rdUs, List.mem_cons, List.not_mem_nil, or_false] at hu
    subst hu
    refine ⟨4, ?_, ?_⟩
    · simp only [Sized]; decide
    · simp only [Sized]; exact ⟨trivial, 2, rfl, by decide, ⟨by decide, by decide⟩, by decide, by decide⟩
  · refine ⟨_, List.mem_cons_of_mem _ (List.mem_singleton_self _), ?_⟩
    unfold Fits
    decide
  · intro u hu
    simp only [rdUs, List.mem_cons, List.not_mem_nil, or_false] at hu
    subst hu
    intro t
    refine ⟨[false, false, false, false], ?_, ?_⟩
    · simp only [Means]; decide
    · simp only [Means]
      exact ⟨[false, false], ⟨_, _, rfl, rfl, by decide, by decide⟩, by decide⟩
  · rintro ⟨τ, hτ⟩
    have := hτ.comb 0 _ (List.mem_cons_of_mem _ (List.mem_singleton_self _)) rfl
    have hl := this.length_eq
    have h2 := word_length (.memRead 1 2 2) 2 (([8] ++ ([4, 5, 6, 7] ++ [])).map (τ 0)) (by simp [Prim.inputs]) rfl
    have h3 := h2.symm.trans hl
    rw [List.length_map] at h3
    exact absurd h3 (by decide)

/-- Node 4 is `a`, node 5 is `y`. -/
def pdLook (s : String) : List Nat := if s = "a" then [4] else if s = "y" then [5] else []

/-- `y` is `a` one time unit later, where `a` has been named as a predicate. -/
def pdUs : List Update := [⟨true, .var 1 "y", .pred "p" (.var 1 "a")⟩]

/-- C68 fails for the delay of a predicate: the delay is lost.  The compiled circuit has an execution in which
`y` changes together with `a`. -/
theorem c68_delayed_predicate_violated : ∃ r τ,
    leaf pdLook true 6 pdUs = .ok r ∧
    (∀ u ∈ pdUs, ∃ n, Sized (fun s => (pdLook s).length) u.lhs n ∧ Sized (fun s => (pdLook s).length) u.rhs n) ∧
    Execution r.2 τ ∧ ¬∀ u ∈ pdUs, u.Holds pdLook τ := by
  refine ⟨_, fun t x => x == 1 || (t == 0 && (x == 4 || x == 5)), rfl, ?_, ?_, ?_⟩
  · intro u hu
    simp only [pdUs, List.mem_cons, List.not_mem_nil, or_false] at hu
    subst hu
    exact ⟨1, by simp only [Sized]; decide, by simp only [Sized]; decide⟩
  · refine ⟨fun t => by simp, fun t => rfl, fun t k hk _ => ?_, fun t k hk hd => ?_⟩
    · rw [List.append_nil, List.mem_singleton] at hk
      subst hk
      simp [wordOp, pdLook, vecName, Possible]
    · rw [List.append_nil, List.mem_singleton] at hk
      subst hk
      simp at hd
  · intro h
    obtain ⟨w, h1, h2⟩ := h _ (List.mem_singleton_self _) 0
    simp only [Means] at h1 h2
    rw [h1] at h2
    exact absurd h2 (by decide)

/-- C68 fails for negative indices of slices: they are not rejected, and evaluating the component reads beyond
its inputs.  (Indices that are too large are rejected.) -/
theorem c68_slice_index_violated :
    (∃ c, leaf pdLook true 6 [⟨false, .var 1 "y", .slice [-1] (.var 1 "a")⟩] = .ok (6, [c]) ∧
      ∀ inps : List (DR Bool), inps.length = c.inps.length → c.prim.eval boolOps c.size inps = none) ∧
    leaf pdLook true 6 [⟨false, .var 1 "y", .slice [1] (.var 1 "a")⟩] = .err := by
  refine ⟨⟨_, rfl, fun inps h => ?_⟩, rfl⟩
  unfold Prim.eval
  rw [if_pos]
  rw [h]
  decide

/-- C68 fails for indices of updates: none is checked.  An index that is too large addresses a bit before the
result, a negative one a bit behind it. -/
theorem c68_update_index_violated :
    leaf pdLook true 6 [⟨false, .var 1 "y", .upd (.var 1 "a") [1] (.var 1 "y")⟩] = .ub ∧
    ∃ c, leaf pdLook true 6 [⟨false, .var 1 "y", .upd (.var 1 "a") [-1] (.var 1 "y")⟩] = .ok (6, [c]) ∧
      ∀ inps : List (DR Bool), c.prim.eval boolOps c.size inps = none := by
  refine ⟨rfl, _, rfl, fun inps => ?_⟩
  unfold Prim.eval
  split
  · rfl
  · rfl

end Voss.Comp
