import Verif.Comp.Correct
/-
Left sides, and the update functions of a leaf.
-/
namespace Voss.Comp
open Voss.Sim
open Voss.Ste (Comp Net Execution)

mutual
theorem lhs_spec (look : String → List Nat) : ∀ (e : WExpr) (n : Nat) (v : List Nat), Sized (wdOf look) e n → lhs look e = .ok v →
    v.length = n ∧ (∀ next, Named look next → ∀ x ∈ v, x < next) ∧ ∀ σ w, Means (val look σ) e w ↔ w = v.map σ
  | .var sz b, n, v, hs, h => by
    simp only [Sized] at hs
    simp only [lhs, Out.ok.injEq] at h
    subst h
    exact ⟨by rw [hs.1]; exact hs.2, fun next hn => hn _, fun σ w => by simp only [Means, val]⟩
  | .evar sz b, n, v, hs, h => by
    simp only [Sized] at hs
    simp only [lhs, Out.ok.injEq] at h
    subst h
    exact ⟨by rw [hs.1]; exact hs.2, fun next hn => hn _, fun σ w => by simp only [Means, val]⟩
  | .slice idxs e, n, v, hs, h => by
    simp only [Sized] at hs
    obtain ⟨rfl, m, hs1, hi⟩ := hs
    rw [lhs] at h
    obtain ⟨u, h1, h2⟩ := bind_ok h
    split at h2
    · exact absurd h2 (by simp)
    cases h2
    obtain ⟨hl, hb, hm⟩ := lhs_spec look e m u hs1 h1
    refine ⟨by simp [fromMsb], fun next hn x hx => ?_, fun σ w => ?_⟩
    · simp only [fromMsb, List.map_map, List.mem_map, Function.comp_apply] at hx
      obtain ⟨i, h3, rfl⟩ := hx
      have := hi i h3
      rw [List.getD_eq_getElem?_getD, List.getElem?_eq_getElem (by omega)]
      exact hb next hn _ (List.getElem_mem _)
    · simp only [Means, hm, exists_eq_left]
      have : idxs.map (bitAt (u.map σ)) = (((fromMsb u.length idxs).map Int.toNat).map fun i => u.getD i 0).map σ := by
        simp only [fromMsb, List.map_map]
        apply List.map_congr_left
        intro i h3
        have := hi i h3
        simp only [Function.comp_apply]
        rw [bitAt_eq _ i this.1 (by simp; omega), List.length_map, List.getD_eq_getElem?_getD, List.getD_eq_getElem?_getD,
          List.getElem?_map, List.getElem?_eq_getElem (by omega)]
        rfl
      rw [this]
  | .cat ps, n, v, hs, h => by
    simp only [Sized] at hs
    rw [lhs] at h
    simpa only [Means] using lhsAll_spec look ps n v hs h
  | .x _, _, _, _, h | .const _ _, _, _, _, h | .bin _ _ _, _, _, _, h | .rel _ _ _, _, _, _, h | .not _, _, _, _, h
  | .pred _ _, _, _, _, h | .sx _ _, _, _, _, h | .zx _ _, _, _, _, h | .ite _ _ _, _, _, _, h | .upd _ _ _, _, _, _, h
  | .memRead _ _ _ _ _, _, _, _, h | .memWrite _ _ _ _ _ _, _, _, _, h | .idelay _ _ _ _ _ _ _, _, _, _, h => by simp [lhs] at h
theorem lhsAll_spec (look : String → List Nat) : ∀ (es : List WExpr) (n : Nat) (v : List Nat), SizedAll (wdOf look) es n → lhsAll look es = .ok v →
    v.length = n ∧ (∀ next, Named look next → ∀ x ∈ v, x < next) ∧ ∀ σ w, (∃ ws, MeansAll (val look σ) es ws ∧ w = ws.flatten) ↔ w = v.map σ
  | [], n, v, hs, h => by
    simp only [SizedAll] at hs
    simp only [lhsAll, Out.ok.injEq] at h
    subst h
    simp [hs, MeansAll]
  | e :: es, n, v, hs, h => by
    simp only [SizedAll] at hs
    obtain ⟨a, b, rfl, hs1, hs2⟩ := hs
    rw [lhsAll] at h
    obtain ⟨u, h1, h2⟩ := bind_ok h
    obtain ⟨u', h3, h4⟩ := bind_ok h2
    cases h4
    obtain ⟨l1, b1, m1⟩ := lhs_spec look e a u hs1 h1
    obtain ⟨l2, b2, m2⟩ := lhsAll_spec look es b u' hs2 h3
    refine ⟨by simp [l1, l2], fun next hn x hx => ?_, fun σ w => ?_⟩
    · rcases List.mem_append.mp hx with hx | hx
      · exact b1 next hn x hx
      · exact b2 next hn x hx
    · simp only [MeansAll, List.map_append]
      constructor
      · rintro ⟨ws, ⟨c, vs, rfl, h5, h6⟩, rfl⟩
        rw [List.flatten_cons, (m1 σ c).mp h5, (m2 σ vs.flatten).mp ⟨vs, h6, rfl⟩]
      · rintro rfl
        obtain ⟨vs, h6, h7⟩ := (m2 σ (u'.map σ)).mpr rfl
        exact ⟨u.map σ :: vs, ⟨_, vs, rfl, (m1 σ _).mpr rfl, h6⟩, by rw [List.flatten_cons, ← h7]⟩
end

/-- The components hold of the behaviour. -/
def OkAll (c : Net) (τ : Int → Nat → Bool) : Prop := ∀ t, ∀ k ∈ c, Ok k (τ t) (τ (if k.delay then t + 1 else t))

theorem execution_iff (c : Net) (τ : Int → Nat → Bool) :
    Execution c τ ↔ (∀ t, τ t 0 = false ∧ τ t 1 = true) ∧ OkAll c τ := by
  constructor
  · rintro ⟨h0, h1, h2, h3⟩
    refine ⟨fun t => ⟨h0 t, h1 t⟩, fun t k hk => ?_⟩
    cases hd : k.delay with
    | false => exact h2 t k hk hd
    | true => exact h3 t k hk hd
  · rintro ⟨h0, h1⟩
    refine ⟨fun t => (h0 t).1, fun t => (h0 t).2, fun t k hk hd => ?_, fun t k hk hd => ?_⟩
    · have := h1 t k hk; rwa [hd] at this
    · have := h1 t k hk; rwa [hd] at this

/-- One update function. -/
structure Upd (look : String → List Nat) (next next' : Nat) (u : Update) (os : List Nat) (c : Net) : Prop where
  le : next ≤ next'
  own : ∀ x ∈ os, x < next
  inps : ∀ k ∈ c, ∀ x ∈ k.inps, x < next'
  outs : ∀ k ∈ c, ∀ x ∈ k.outs, x ∈ os ∨ (next ≤ x ∧ x < next')
  nodup : os.Nodup → (c.flatMap (·.outs)).Nodup
  proper : ∀ k ∈ c, Proper k
  sound : ∀ τ, OkAll c τ → u.Holds look τ
  complete : ∀ σ, u.Holds look σ → ∃ τ, (∀ t, ∀ x < next, τ t x = σ t x) ∧ OkAll c τ

theorem upd_ok {look : String → List Nat} {acc : Bool} {next : Nat} {u : Update} {outs : List Nat} {r : Nat × Net} (hn : Named look next)
    (hu : u.OK look) (h1 : lhs look u.lhs = .ok outs) (h2 : compile look acc next outs u.delay u.rhs = .ok r) :
    Upd look next r.1 u outs r.2 := by
  obtain ⟨⟨n, s1, s2⟩, hf, hp⟩ := hu
  obtain ⟨l1, l2, l3⟩ := lhs_spec look u.lhs n outs s1 h1
  have ht := compile_top look acc u.rhs n next outs u.delay r hn (l2 next hn) s2 hf l1 hp h2
  refine ⟨ht.le, l2 next hn, ht.inps, ht.outs, ht.nodup, ht.proper, fun τ hτ t => ?_, fun σ hσ => ?_⟩
  · refine ⟨outs.map (τ (if u.delay then t + 1 else t)), (l3 _ _).mpr rfl, ?_⟩
    refine ht.sound (τ t) _ (fun hd => by rw [hd]; rfl) (fun k hk => ?_)
    have := hτ t k hk
    cases hd : k.delay with
    | false => rw [hd] at this; exact this
    | true =>
      rw [hd] at this
      rw [(ht.delay k hk hd).1]
      exact this
  · have hex : ∀ t, ∃ τ, (∀ x < next, τ x = σ t x) ∧ ∀ k ∈ r.2, Ok k τ (if k.delay then σ (if u.delay then t + 1 else t) else τ) := by
      intro t
      obtain ⟨w, hw1, hw2⟩ := hσ t
      rw [(l3 _ _).mp hw1] at hw2
      exact ht.complete (σ t) _ (fun hd => by rw [hd]; rfl) hw2
    choose τ t1 t2 using hex
    refine ⟨τ, t1, fun t k hk => ?_⟩
    have := t2 t k hk
    cases hd : k.delay with
    | false => rw [hd] at this; exact this
    | true =>
      rw [hd] at this
      obtain ⟨d1, d2⟩ := ht.delay k hk hd
      rw [if_pos rfl, d1, if_pos rfl] at this
      rw [if_pos rfl]
      unfold Ok at this ⊢
      rwa [map_agree (t1 (t + 1)) (by rw [d2]; exact l2 next hn)]

theorem holds_agree {look : String → List Nat} {next : Nat} (hn : Named look next) {u : Update} {σ τ : Int → Nat → Bool}
    (h : ∀ t, ∀ x < next, τ t x = σ t x) : u.Holds look τ ↔ u.Holds look σ := by
  have : ∀ t, val look (τ t) = val look (σ t) := fun t => val_agree hn (h t)
  unfold Update.Holds
  constructor
  · intro hh t; have h2 := hh t; change ∃ w, Means (val look _) _ w ∧ Means (val look _) _ w at h2; rw [this, this] at h2; exact h2
  · intro hh t; have h2 := hh t; change ∃ w, Means (val look _) _ w ∧ Means (val look _) _ w at h2; rw [← this, ← this] at h2; exact h2

theorem okAll_agree {c : Net} {n : Nat} {σ τ : Int → Nat → Bool} (h : ∀ t, ∀ x < n, τ t x = σ t x) (hi : ∀ k ∈ c, ∀ x ∈ k.inps, x < n)
    (ho : ∀ k ∈ c, ∀ x ∈ k.outs, x < n) (hk : OkAll c σ) : OkAll c τ := by
  intro t k hm
  have := hk t k hm
  unfold Ok at this ⊢
  rwa [map_agree (h _) (hi k hm), map_agree (h _) (ho k hm)]

/-- The nodes driven by the update functions. -/
def driven (look : String → List Nat) (us : List Update) : List Nat :=
  us.flatMap fun u => match lhs look u.lhs with | .ok v => v | _ => []

structure LeafOk (look : String → List Nat) (next next' : Nat) (us : List Update) (c : Net) : Prop where
  le : next ≤ next'
  own : ∀ x ∈ driven look us, x < next
  inps : ∀ k ∈ c, ∀ x ∈ k.inps, x < next'
  outs : ∀ k ∈ c, ∀ x ∈ k.outs, x ∈ driven look us ∨ (next ≤ x ∧ x < next')
  nodup : (driven look us).Nodup → (c.flatMap (·.outs)).Nodup
  proper : ∀ k ∈ c, Proper k
  sound : ∀ τ, OkAll c τ → ∀ u ∈ us, u.Holds look τ
  complete : ∀ σ, (∀ u ∈ us, u.Holds look σ) → ∃ τ, (∀ t, ∀ x < next, τ t x = σ t x) ∧ OkAll c τ

theorem leaf_ok (look : String → List Nat) (acc : Bool) (n0 : Nat) (h0 : Named look n0) : ∀ (us : List Update) (next : Nat) (r : Nat × Net), n0 ≤ next →
    (∀ u ∈ us, u.OK look) → leaf look acc next us = .ok r → LeafOk look next r.1 us r.2 ∧ ∀ x ∈ driven look us, x < n0
  | [], next, r, _, _, h => by
    simp only [leaf, Out.ok.injEq] at h
    subst h
    refine ⟨⟨Nat.le_refl _, by simp [driven], by simp, by simp, by simp, by simp, by simp, fun σ _ => ⟨σ, fun _ _ _ => rfl, by simp [OkAll]⟩⟩, by simp [driven]⟩
  | u :: us, next, r, hle, hu, h => by
    rw [leaf] at h
    obtain ⟨os, h1, h2⟩ := bind_ok h
    obtain ⟨a, h3, h4⟩ := bind_ok h2
    obtain ⟨b, h5, h6⟩ := bind_ok h4
    cases h6
    have hn := h0.mono hle
    have g1 := upd_ok hn (hu u (by simp)) h1 h3
    obtain ⟨g2, g3⟩ := leaf_ok look acc n0 h0 us a.1 b (Nat.le_trans hle g1.le) (fun v hv => hu v (by simp [hv])) h5
    have hdr : driven look (u :: us) = os ++ driven look us := by simp [driven, h1]
    have hos : ∀ x ∈ os, x < n0 := by
      obtain ⟨⟨n, s1, s2⟩, hf, hp⟩ := hu u (by simp)
      exact (lhs_spec look u.lhs n os s1 h1).2.1 n0 h0
    refine ⟨⟨Nat.le_trans g1.le g2.le, ?_, ?_, ?_, ?_, ?_, ?_, ?_⟩, ?_⟩
    · intro x hx
      rw [hdr] at hx
      rcases List.mem_append.mp hx with hx | hx
      · exact g1.own x hx
      · exact Nat.lt_of_lt_of_le (g3 x hx) hle
    · intro k hk x hx
      rcases List.mem_append.mp hk with hk | hk
      · exact Nat.lt_of_lt_of_le (g1.inps k hk x hx) g2.le
      · exact g2.inps k hk x hx
    · intro k hk x hx
      rw [hdr]
      have := g1.le
      have := g2.le
      rcases List.mem_append.mp hk with hk | hk
      · rcases g1.outs k hk x hx with h | h
        · exact .inl (List.mem_append_left _ h)
        · exact .inr ⟨h.1, by omega⟩
      · rcases g2.outs k hk x hx with h | h
        · exact .inl (List.mem_append_right _ h)
        · exact .inr ⟨by omega, h.2⟩
    · rw [hdr]
      intro hd
      rw [List.nodup_append] at hd
      rw [List.flatMap_append, List.nodup_append]
      refine ⟨g1.nodup hd.1, g2.nodup hd.2.1, ?_⟩
      intro x hx y hy hxy
      subst hxy
      obtain ⟨k, hk, hkx⟩ := List.mem_flatMap.mp hx
      obtain ⟨k', hk', hky⟩ := List.mem_flatMap.mp hy
      rcases g1.outs k hk x hkx with h | h <;> rcases g2.outs k' hk' x hky with h' | h'
      · exact hd.2.2 x h x h' rfl
      · have := hos x h; have := g1.le; omega
      · have := g3 x h'; omega
      · omega
    · intro k hk
      rcases List.mem_append.mp hk with hk | hk
      · exact g1.proper k hk
      · exact g2.proper k hk
    · intro τ hτ v hv
      rcases List.mem_cons.mp hv with rfl | hv
      · exact g1.sound τ (fun t k hk => hτ t k (by simp [hk]))
      · exact g2.sound τ (fun t k hk => hτ t k (by simp [hk])) v hv
    · intro σ hσ
      obtain ⟨τ, t1, t2⟩ := g1.complete σ (hσ u (by simp))
      obtain ⟨ρ, r1, r2⟩ := g2.complete τ (fun v hv => (holds_agree hn t1).mpr (hσ v (by simp [hv])))
      refine ⟨ρ, fun t x hx => ?_, fun t k hk => ?_⟩
      · rw [r1 t x (Nat.lt_of_lt_of_le hx g1.le), t1 t x hx]
      · rcases List.mem_append.mp hk with hk | hk
        · refine okAll_agree r1 g1.inps (fun k hk x hx => ?_) t2 t k hk
          rcases g1.outs k hk x hx with h | h
          · exact Nat.lt_of_lt_of_le (g1.own x h) g1.le
          · exact h.2
        · exact r2 t k hk
    · intro x hx
      rw [hdr] at hx
      rcases List.mem_append.mp hx with hx | hx
      · exact hos x hx
      · exact g3 x hx

theorem line_length' (lines dsz k : Nat) (m : List Bool) (hm : lines * dsz ≤ m.length) (hk : k < lines) :
    (line lines dsz k m).length = dsz := by
  have h1 : lines * dsz = (lines - 1 - k) * dsz + dsz + k * dsz := by
    rw [← Nat.succ_mul, ← Nat.add_mul]; congr 1; omega
  simp only [line, List.length_take, List.length_drop]
  omega

/-- The number of outputs of an operation. -/
theorem word_length (p : Prim) (size : Nat) (u : List Bool) (hi : p.inputs size ≤ u.length) (hs : Shape size p) :
    (wordOp p size u).length = size := by
  cases p with
  | memRead asz lines dsz =>
    simp only [Prim.inputs, Shape] at hi hs
    simp only [wordOp]
    split
    · rw [List.length_map, line_length' lines dsz _ _ (by rw [List.length_drop]; omega) (by assumption)]; exact hs
    · rw [List.length_replicate]; exact hs
  | memWrite asz lines dsz =>
    simp only [Prim.inputs, Shape] at hi hs
    simp only [wordOp]
    rw [← List.map_flatMap, List.length_map, flatMap_length _ dsz, List.length_reverse, List.length_range, hs]
    intro k hk
    simp only [List.mem_reverse, List.mem_range] at hk
    split
    · rw [List.length_take, List.length_drop]; omega
    · exact line_length' lines dsz _ _ (by rw [List.length_drop]; omega) hk
  | _ =>
    simp only [Prim.inputs, Shape] at hi hs
    simp only [wordOp, List.length_replicate, List.length_map, intBits_length, natBits_length, List.length_take, List.length_zipWith,
      List.length_drop, List.length_range, List.length_cons, List.length_nil, apply_ite List.length]
    try omega
    try (split <;> omega)

end Voss.Comp
