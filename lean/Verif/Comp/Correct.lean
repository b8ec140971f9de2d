import Verif.Comp.Compile
/-
Correctness of the compiler, by induction on the expression.
-/
namespace Voss.Comp
open Voss.Sim
open Voss.Ste (Comp Net)
open Voss.Bv (uv tc)

theorem inputs_bin (op : Bin) (n : Nat) : op.prim.inputs n = 2 * n := by cases op <;> rfl
theorem inputs_rel (op : Rel) (n : Nat) : (op.prim n).inputs 1 = 2 * n := by cases op <;> rfl

theorem inputs_slice (m : Nat) : ∀ (idxs : List Int), (∀ i ∈ idxs, 0 ≤ i ∧ i < (m : Int)) →
    ((fromMsb m idxs).map Int.toNat).foldr (fun i a => max (i + 1) a) 0 ≤ m
  | [], _ => by simp [fromMsb]
  | i :: idxs, h => by
    have h1 := h i (by simp)
    have ih := inputs_slice m idxs (fun j hj => h j (by simp [hj]))
    simp only [fromMsb, List.map_cons, List.foldr_cons] at ih ⊢
    omega

mutual
theorem compile_top (look : String → List Nat) (acc : Bool) : ∀ (e : WExpr) (n next : Nat) (outs : List Nat) (pdel : Bool) (r : Nat × Net),
    Named look next → (∀ x ∈ outs, x < next) → Sized (wdOf look) e n → Fine e → outs.length = n → (pdel = true → ¬IsPred e) →
    compile look acc next outs pdel e = .ok r → Top look (fun v w => Means v e w) next r.1 outs pdel r.2
  | .var sz b, n, next, outs, pdel, r, hn, ho, hs, _, hl, _, hc => by
    simp only [Sized] at hs
    simp only [compile, Out.ok.injEq] at hc
    subst hc
    refine top_push ho (good_name look (vecName b sz) next sz hn hs.2) (fun σ w => ?_) (Nat.le_refl _) (by omega) trivial
    simp only [Means, exists_eq_left]
    rw [word_wire sz _ (by simp [val, hs.2]), poss_some]
  | .evar sz b, n, next, outs, pdel, r, hn, ho, hs, _, hl, _, hc => by
    simp only [Sized] at hs
    simp only [compile, Out.ok.injEq] at hc
    subst hc
    refine top_push ho (good_name look b next sz hn hs.2) (fun σ w => ?_) (Nat.le_refl _) (by omega) trivial
    simp only [Means, exists_eq_left]
    rw [word_wire sz _ (by simp [val, hs.2]), poss_some]
  | .x sz, n, next, outs, pdel, r, hn, ho, hs, _, hl, _, hc => by
    simp only [Sized] at hs
    simp only [compile, Out.ok.injEq] at hc
    subst hc
    refine top_push ho (good_nil look next) (fun σ w => ?_) (Nat.le_refl _) (by omega) trivial
    simp only [Means, exists_eq_left, wordOp, poss_none]
  | .const sz v, n, next, outs, pdel, r, hn, ho, hs, _, hl, _, hc => by
    simp only [Sized] at hs
    simp only [compile, Out.ok.injEq] at hc
    subst hc
    refine top_push ho (good_nil look next) (fun σ w => ?_) (Nat.le_refl _) (by omega) trivial
    simp only [Means, exists_eq_left, wordOp, poss_some]
  | .bin op l r', n, next, outs, pdel, r, hn, ho, hs, hf, hl, _, hc => by
    simp only [Sized] at hs; simp only [Fine] at hf
    rw [compile] at hc
    obtain ⟨s, h1, rfl⟩ := push_ok hc
    rw [hl] at h1 ⊢
    have g := seq_good2 hn
      (fun r hr => arg_good (fun n nx os r a b c d e => compile_top look acc l n nx os false r a b c hf.1 d (by simp) e) hn hs.1 hr)
      (fun nx r hn hr => arg_good (fun n nx os r a b c d e => compile_top look acc r' n nx os false r a b c hf.2 d (by simp) e) hn hs.2 hr) h1
    refine top_push ho g (fun σ w => ?_) (by rw [inputs_bin]; omega) hl (by cases op <;> trivial)
    simp only [Means, words2]
    constructor
    · rintro ⟨a, b, ha, hb, rfl⟩
      refine ⟨_, ⟨a, b, ha, hb, rfl⟩, ?_⟩
      rw [word_bin op n a b (means_len hs.1 σ a ha) (means_len hs.2 σ b hb), poss_some]
    · rintro ⟨u, ⟨a, b, ha, hb, rfl⟩, h⟩
      rw [word_bin op n a b (means_len hs.1 σ a ha) (means_len hs.2 σ b hb), poss_some] at h
      exact ⟨a, b, ha, hb, h⟩
  | .rel op l r', n, next, outs, pdel, r, hn, ho, hs, hf, hl, _, hc => by
    simp only [Sized] at hs; simp only [Fine] at hf
    obtain ⟨rfl, m, hs1, hs2⟩ := hs
    rw [compile, wsize_eq _ _ _ hs1 hf.1] at hc
    obtain ⟨s, h1, rfl⟩ := push_ok hc
    have g := seq_good2 hn
      (fun r hr => arg_good (fun n nx os r a b c d e => compile_top look acc l n nx os false r a b c hf.2.1 d (by simp) e) hn hs1 hr)
      (fun nx r hn hr => arg_good (fun n nx os r a b c d e => compile_top look acc r' n nx os false r a b c hf.2.2 d (by simp) e) hn hs2 hr) h1
    refine top_push ho g (fun σ w => ?_) (by rw [inputs_rel]; omega) hl (by cases op <;> rfl)
    simp only [Means, words2]
    constructor
    · rintro ⟨a, b, ha, hb, rfl⟩
      refine ⟨_, ⟨a, b, ha, hb, rfl⟩, ?_⟩
      rw [word_rel op m a b (means_len hs1 σ a ha) (means_len hs2 σ b hb), poss_some]
    · rintro ⟨u, ⟨a, b, ha, hb, rfl⟩, h⟩
      rw [word_rel op m a b (means_len hs1 σ a ha) (means_len hs2 σ b hb), poss_some] at h
      exact ⟨a, b, ha, hb, h⟩
  | .not l, n, next, outs, pdel, r, hn, ho, hs, hf, hl, _, hc => by
    simp only [Sized] at hs; simp only [Fine] at hf
    rw [compile] at hc
    obtain ⟨s, h1, rfl⟩ := push_ok hc
    rw [hl] at h1 ⊢
    have g := seq_good1 hn
      (fun r hr => arg_good (fun n nx os r a b c d e => compile_top look acc l n nx os false r a b c hf d (by simp) e) hn hs hr) h1
    refine top_push ho g (fun σ w => ?_) (Nat.le_refl _) hl trivial
    simp only [Means, words1]
    constructor
    · rintro ⟨a, ha, rfl⟩
      exact ⟨a, ha, by rw [word_not n a (means_len hs σ a ha), poss_some]⟩
    · rintro ⟨a, ha, h⟩
      rw [word_not n a (means_len hs σ a ha), poss_some] at h
      exact ⟨a, ha, h⟩
  | .pred _ l, n, next, outs, pdel, r, hn, ho, hs, hf, hl, hp, hc => by
    simp only [Sized] at hs; simp only [Fine] at hf
    rw [compile] at hc
    have hpd : pdel = false := by
      cases pdel with
      | false => rfl
      | true => exact absurd trivial (hp rfl)
    subst hpd
    have := compile_top look acc l n next outs false r hn ho (by rw [hs.1]; exact hs.2) hf hl (by simp) hc
    simpa only [Means] using this
  | .sx sz l, n, next, outs, pdel, r, hn, ho, hs, hf, hl, _, hc => by
    simp only [Sized] at hs; simp only [Fine] at hf
    obtain ⟨rfl, m, hm, hs1⟩ := hs
    rw [compile, wsize_eq _ _ _ hs1 hf.1] at hc
    obtain ⟨s, h1, rfl⟩ := push_ok hc
    have g := seq_good1 hn
      (fun r hr => arg_good (fun n nx os r a b c d e => compile_top look acc l n nx os false r a b c hf.2 d (by simp) e) hn hs1 hr) h1
    refine top_push ho g (fun σ w => ?_) (Nat.le_refl _) hl hm
    simp only [Means, words1]
    constructor
    · rintro ⟨a, ha, rfl⟩
      exact ⟨a, ha, by rw [word_sx m n a (means_len hs1 σ a ha), poss_some]⟩
    · rintro ⟨a, ha, h⟩
      rw [word_sx m n a (means_len hs1 σ a ha), poss_some] at h
      exact ⟨a, ha, h⟩
  | .zx sz l, n, next, outs, pdel, r, hn, ho, hs, hf, hl, _, hc => by
    simp only [Sized] at hs; simp only [Fine] at hf
    obtain ⟨rfl, m, hs1⟩ := hs
    rw [compile, wsize_eq _ _ _ hs1 hf.1] at hc
    obtain ⟨s, h1, rfl⟩ := push_ok hc
    have g := seq_good1 hn
      (fun r hr => arg_good (fun n nx os r a b c d e => compile_top look acc l n nx os false r a b c hf.2 d (by simp) e) hn hs1 hr) h1
    refine top_push ho g (fun σ w => ?_) (Nat.le_refl _) hl trivial
    simp only [Means, words1]
    constructor
    · rintro ⟨a, ha, rfl⟩
      exact ⟨a, ha, by rw [word_zx m n a (means_len hs1 σ a ha), poss_some]⟩
    · rintro ⟨a, ha, h⟩
      rw [word_zx m n a (means_len hs1 σ a ha), poss_some] at h
      exact ⟨a, ha, h⟩
  | .ite c t e, n, next, outs, pdel, r, hn, ho, hs, hf, hl, _, hc => by
    simp only [Sized] at hs; simp only [Fine] at hf
    rw [compile] at hc
    obtain ⟨s, h1, rfl⟩ := push_ok hc
    rw [hl] at h1 ⊢
    have g := seq_good3 hn
      (fun r hr => arg_good (fun n nx os r a b c' d e => compile_top look acc c n nx os false r a b c' hf.1 d (by simp) e) hn hs.1 (nonNull_ok hr))
      (fun nx r hn hr => arg_good (fun n nx os r a b c d e => compile_top look acc t n nx os false r a b c hf.2.1 d (by simp) e) hn hs.2.1 hr)
      (fun nx r hn hr => arg_good (fun n nx os r a b c d e' => compile_top look acc e n nx os false r a b c hf.2.2 d (by simp) e') hn hs.2.2 hr) h1
    refine top_push ho g (fun σ w => ?_) (by simp only [Prim.inputs]; omega) hl trivial
    simp only [Means, words3]
    constructor
    · rintro ⟨x, a, b, hx, ha, hb, rfl⟩
      refine ⟨_, ⟨x, a, b, hx, ha, hb, rfl⟩, ?_⟩
      rw [word_ite acc n x a b (means_len hs.1 σ x hx) (means_len hs.2.1 σ a ha) (means_len hs.2.2 σ b hb), poss_some]
    · rintro ⟨u, ⟨x, a, b, hx, ha, hb, rfl⟩, h⟩
      rw [word_ite acc n x a b (means_len hs.1 σ x hx) (means_len hs.2.1 σ a ha) (means_len hs.2.2 σ b hb), poss_some] at h
      exact ⟨x, a, b, hx, ha, hb, h⟩
  | .slice idxs l, n, next, outs, pdel, r, hn, ho, hs, hf, hl, _, hc => by
    simp only [Sized] at hs; simp only [Fine] at hf
    obtain ⟨rfl, m, hs1, hi⟩ := hs
    rw [compile, wsize_eq _ _ _ hs1 hf.1, if_neg (by omega)] at hc
    obtain ⟨s, h1, h2⟩ := bind_ok hc
    split at h2
    · exact absurd h2 (by simp)
    split at h2
    · exact absurd h2 (by simp)
    cases h2
    have g := seq_good1 hn
      (fun r hr => arg_good (fun n nx os r a b c d e => compile_top look acc l n nx os false r a b c hf.2 d (by simp) e) hn hs1 hr) h1
    refine top_push ho g (fun σ w => ?_) (inputs_slice m idxs hi) rfl (by simp [Shape, fromMsb, hl])
    simp only [Means, words1]
    constructor
    · rintro ⟨a, ha, rfl⟩
      exact ⟨a, ha, by rw [word_slice idxs _ m a (means_len hs1 σ a ha) hi, poss_some]⟩
    · rintro ⟨a, ha, h⟩
      rw [word_slice idxs _ m a (means_len hs1 σ a ha) hi, poss_some] at h
      exact ⟨a, ha, h⟩
  | .upd l idxs r', n, next, outs, pdel, r, hn, ho, hs, hf, hl, _, hc => by
    simp only [Sized] at hs; simp only [Fine] at hf
    rw [compile, wsize_eq _ _ _ hs.1 hf.1, wsize_eq _ _ _ hs.2.1 hf.2.1, if_neg (by omega), if_neg (by omega)] at hc
    split at hc
    · exact absurd hc (by simp)
    obtain ⟨s, h1, rfl⟩ := push_ok hc
    rw [hl] at h1 ⊢
    have g := seq_good2 hn
      (fun r hr => arg_good (fun n nx os r a b c d e => compile_top look acc l n nx os false r a b c hf.2.2.1 d (by simp) e) hn hs.1 hr)
      (fun nx r hn hr => arg_good (fun n nx os r a b c d e => compile_top look acc r' n nx os false r a b c hf.2.2.2 d (by simp) e) hn hs.2.1 hr) h1
    refine top_push ho g (fun σ w => ?_) (by simp [Prim.inputs, fromMsb]) hl ?_
    · simp only [Means, words2]
      constructor
      · rintro ⟨a, b, ha, hb, rfl⟩
        refine ⟨_, ⟨a, b, ha, hb, rfl⟩, ?_⟩
        rw [word_upd idxs n a b (means_len hs.1 σ a ha) hs.2.2, poss_some]
      · rintro ⟨u, ⟨a, b, ha, hb, rfl⟩, h⟩
        rw [word_upd idxs n a b (means_len hs.1 σ a ha) hs.2.2, poss_some] at h
        exact ⟨a, b, ha, hb, h⟩
    · intro i h
      simp only [fromMsb, List.map_map, List.mem_map, Function.comp_apply] at h
      obtain ⟨j, hj, rfl⟩ := h
      have := hs.2.2 j hj
      omega
  | .idelay sz mr Mr mf Mf cur hist, n, next, outs, pdel, r, hn, ho, hs, hf, hl, _, hc => by
    simp only [Sized] at hs; simp only [Fine] at hf
    obtain ⟨rfl, h0, hm, hs1, hs2⟩ := hs
    rw [compile] at hc
    split at hc
    · exact absurd hc (by simp)
    split at hc
    · exact absurd hc (by simp)
    obtain ⟨s, h1, rfl⟩ := push_ok hc
    obtain ⟨s1, t, h2, h3, rfl⟩ := seq_cons h1
    have g1 := arg_good (fun n nx os r a b c d e => compile_top look acc cur n nx os false r a b c hf.2.2.1 d (by simp) e) hn hs1 (nonNull_ok h2)
    have g2 := compileAll_good look acc (fun _ => n) hist s1.2.1 t (hn.mono g1.le) (sizedEach_mem hs2) hf.2.2.2 h3
    refine top_push ho (good_append hn g1 g2) (fun σ w => ?_) ?_ hl h0
    · simp only [Means, Both]
      constructor
      · rintro ⟨c, hs', hc, hh, hw⟩
        refine ⟨_, ⟨c, _, hc, ⟨hs', hh, rfl⟩, rfl⟩, ?_⟩
        rw [word_idelay mr Mr mf Mf n h0 c hs' (means_len hs1 σ c hc) (meansAll_each σ hs2 hh).2]
        exact hw
      · rintro ⟨u, ⟨c, b, hc, ⟨hs', hh, rfl⟩, rfl⟩, h⟩
        rw [word_idelay mr Mr mf Mf n h0 c hs' (means_len hs1 σ c hc) (meansAll_each σ hs2 hh).2] at h
        exact ⟨c, hs', hc, hh, h⟩
    · have hsum : ∀ l : List WExpr, (l.map fun _ => n).sum = l.length * n := by
        intro l
        induction l with
        | nil => simp
        | cons a l ih => rw [List.map_cons, List.sum_cons, ih, List.length_cons]; ring
      simp only [Prim.inputs]
      have := Nat.mul_le_mul_right n hm
      rw [hsum, Nat.add_mul]
      omega
  | .cat ps, n, next, outs, pdel, r, hn, ho, hs, hf, hl, _, hc => by
    simp only [Sized] at hs; simp only [Fine] at hf
    rw [compile] at hc
    obtain ⟨s, h1, rfl⟩ := push_ok hc
    rw [hl]
    have g := compileAll_good look acc wsize ps next s hn (sizedAll_mem hs hf.1) hf.2 h1
    rw [← wsizes_sum, wsizes_eq _ _ _ hs hf.1] at g
    refine top_push ho g (fun σ w => ?_) (Nat.le_refl _) hl trivial
    simp only [Means]
    constructor
    · rintro ⟨ws, hw, rfl⟩
      exact ⟨_, ⟨ws, hw, rfl⟩, by rw [word_wire n _ (meansAll_len hs σ ws hw), poss_some]⟩
    · rintro ⟨u, ⟨ws, hw, rfl⟩, h⟩
      rw [word_wire n _ (meansAll_len hs σ ws hw), poss_some] at h
      exact ⟨ws, hw, h⟩
  | .memRead asz lines dsz mem addr, n, next, outs, pdel, r, hn, ho, hs, hf, hl, _, hc => by
    simp only [Sized] at hs; simp only [Fine] at hf
    obtain ⟨rfl, _, hs1, hs2⟩ := hs
    rw [compile] at hc
    obtain ⟨s, h1, rfl⟩ := push_ok hc
    have g := seq_good2 hn
      (fun r hr => arg_good (fun n nx os r a b c d e => compile_top look acc addr n nx os false r a b c hf.2 d (by simp) e) hn hs2 (nonNull_ok hr))
      (fun nx r hn hr => arg_good (fun n nx os r a b c d e => compile_top look acc mem n nx os false r a b c hf.1 d (by simp) e) hn hs1 hr) h1
    refine top_push ho g (fun σ w => ?_) (Nat.le_refl _) hl rfl
    simp only [Means, words2]
    constructor
    · rintro ⟨m, a, hm, ha, h⟩
      refine ⟨_, ⟨a, m, ha, hm, rfl⟩, ?_⟩
      rw [word_memRead asz lines n a m w (means_len hs2 σ a ha) (means_len hs1 σ m hm)]
      exact h
    · rintro ⟨u, ⟨a, m, ha, hm, rfl⟩, h⟩
      rw [word_memRead asz lines n a m w (means_len hs2 σ a ha) (means_len hs1 σ m hm)] at h
      exact ⟨m, a, hm, ha, h⟩
  | .memWrite asz lines dsz mem addr data, n, next, outs, pdel, r, hn, ho, hs, hf, hl, _, hc => by
    simp only [Sized] at hs; simp only [Fine] at hf
    obtain ⟨rfl, _, hs1, hs2, hs3⟩ := hs
    rw [compile] at hc
    obtain ⟨s, h1, rfl⟩ := push_ok hc
    have g := seq_good3 hn
      (fun r hr => arg_good (fun n nx os r a b c d e => compile_top look acc addr n nx os false r a b c hf.2.1 d (by simp) e) hn hs2 (nonNull_ok hr))
      (fun nx r hn hr => arg_good (fun n nx os r a b c d e => compile_top look acc data n nx os false r a b c hf.2.2 d (by simp) e) hn hs3 hr)
      (fun nx r hn hr => arg_good (fun n nx os r a b c d e => compile_top look acc mem n nx os false r a b c hf.1 d (by simp) e) hn hs1 hr) h1
    refine top_push ho g (fun σ w => ?_) (by simp only [Prim.inputs]; omega) hl rfl
    simp only [Means, words3]
    constructor
    · rintro ⟨m, a, d, hm, ha, hd, rfl⟩
      refine ⟨_, ⟨a, d, m, ha, hd, hm, rfl⟩, ?_⟩
      rw [word_memWrite asz lines dsz a d m (means_len hs2 σ a ha) (means_len hs3 σ d hd), poss_some]
    · rintro ⟨u, ⟨a, d, m, ha, hd, hm, rfl⟩, h⟩
      rw [word_memWrite asz lines dsz a d m (means_len hs2 σ a ha) (means_len hs3 σ d hd), poss_some] at h
      exact ⟨m, a, d, hm, ha, hd, h⟩
theorem compileAll_good (look : String → List Nat) (acc : Bool) (sz : WExpr → Nat) : ∀ (es : List WExpr) (next : Nat) (r : List Nat × Nat × Net),
    Named look next → (∀ e ∈ es, Sized (wdOf look) e (sz e)) → FineAll es → seq (compileAll look acc sz es) next = .ok r →
    Good look (fun v w => ∃ ws, MeansAll v es ws ∧ w = ws.flatten) (es.map sz).sum next r.2.1 r.1 r.2.2
  | [], next, r, hn, hs, hf, hr => by
    rw [compileAll] at hr
    rw [seq_nil hr]
    have := good_nil look next
    simpa [MeansAll] using this
  | e :: es, next, r, hn, hs, hf, hr => by
    rw [compileAll] at hr
    simp only [FineAll] at hf
    obtain ⟨s, t, h1, h2, rfl⟩ := seq_cons hr
    have g1 := arg_good (fun n nx os r a b c d e' => compile_top look acc e n nx os false r a b c hf.1 d (by simp) e') hn (hs e (by simp)) h1
    have g2 := compileAll_good look acc sz es s.2.1 t (hn.mono g1.le) (fun e he => hs e (by simp [he])) hf.2 h2
    have g := good_append hn g1 g2
    rw [List.map_cons, List.sum_cons]
    have hP : (fun (v : String → List Bool) w => ∃ ws, MeansAll v (e :: es) ws ∧ w = ws.flatten) =
        Both (fun v w => Means v e w) (fun v w => ∃ ws, MeansAll v es ws ∧ w = ws.flatten) := by
      funext v w
      simp only [MeansAll, Both, eq_iff_iff]
      constructor
      · rintro ⟨ws, ⟨a, vs, rfl, h3, h4⟩, rfl⟩
        exact ⟨a, _, h3, ⟨vs, h4, rfl⟩, by simp⟩
      · rintro ⟨a, b, h3, ⟨vs, h4, rfl⟩, rfl⟩
        exact ⟨a :: vs, ⟨a, vs, rfl, h3, h4⟩, by simp⟩
    rw [hP]
    exact g
end

end Voss.Comp
