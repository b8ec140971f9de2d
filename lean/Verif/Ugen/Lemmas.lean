import Verif.Ugen.Model
import Verif.Ugen.Spec
import Verif.Gen.DynLemmas
/-
Lemmas about the library of bit-vectors without sign.
-/
namespace Voss.Ugen
open Voss.Pre Voss.Pre.Fn Voss.Gen
open Voss.Bv (uv tc)
variable {o : Order}

theorem clear_cons (b : Fn o) (l : List (Fn o)) (η : Env) : Clear (b :: l) η ↔ b.ev η = false := by
  unfold Clear
  have h := unsigned_cons b l η
  have hlt := unsigned_lt l η
  rw [h, List.length_cons, pow_succ]
  cases b.ev η <;> simp <;> omega

theorem trim_clear (η : Env) : ∀ (l : List (Fn o)), Clear l η → unsigned (bvTrim l) η = unsigned l η ∧ Clear (bvTrim l) η
  | [], _ => by simp [bvTrim, unsigned, uv, Clear, bits]
  | [b], h => by simpa [bvTrim] using h
  | b1 :: b2 :: bs, h => by
    unfold bvTrim
    split
    · rename_i he
      subst he
      have hb := (clear_cons _ _ _).1 h
      obtain ⟨h1, h2⟩ := trim_clear η (b1 :: bs) ((clear_cons _ _ _).2 hb)
      refine ⟨?_, h2⟩
      rw [h1, unsigned_cons b1 (b1 :: bs), hb]
      simp
    · exact ⟨rfl, h⟩

theorem clear_mono {l m : List (Fn o)} {η : Env} (h : Clear l η) (he : unsigned m η = unsigned l η) (hl : l.length ≤ m.length) :
    Clear m η := by
  unfold Clear at *
  rw [he]
  exact lt_of_lt_of_le h (Nat.pow_le_pow_right (by omega) hl)

/-! ### Comparison -/

theorem fbvless_ok {a b : List (Fn o)} (h : a.length = b.length) :
    ∃ c, fbvless a b = .ok c ∧ ∀ η, c.ev η = decide (unsigned a η < unsigned b η) :=
  ⟨_, by simp [fbvless, h], fun η => bvless_ev η a b h⟩

theorem fbveq_ok' {a b : List (Fn o)} (h : a.length = b.length) :
    ∃ c, fbveq a b = .ok c ∧ ∀ η, c.ev η = decide (unsigned a η = unsigned b η) :=
  ⟨eqList a b, by simp [fbveq, h], fun η => by rw [eqList_ev η a b h, decide_eq_decide]; exact bits_eq_unsigned h η⟩

theorem fbvleq_ok {a b : List (Fn o)} (h : a.length = b.length) :
    ∃ c, fbvleq a b = .ok c ∧ ∀ η, c.ev η = decide (unsigned a η ≤ unsigned b η) := by
  obtain ⟨c, h1, h2⟩ := fbveq_ok' h
  obtain ⟨d, g1, g2⟩ := fbvless_ok h
  refine ⟨c.or d, by simp [fbvleq, h1, g1, Out.bind], fun η => ?_⟩
  rw [or_ev, h2, g2, ← Bool.decide_or, decide_eq_decide]
  omega

theorem dbvless_ok (a b : List (Fn o)) :
    ∃ c, dbvless a b = .ok c ∧ ∀ η, c.ev η = decide (unsigned a η < unsigned b η) := by
  obtain ⟨x, y, h1, hx, hy, hv⟩ := zx2_ok a b
  refine ⟨bvless x y, by simp [dbvless, h1, Out.bind], fun η => ?_⟩
  rw [bvless_ev η x y (by omega), (hv η).1, (hv η).2]

theorem dbveq_ok (a b : List (Fn o)) :
    ∃ c, dbveq a b = .ok c ∧ ∀ η, c.ev η = decide (unsigned a η = unsigned b η) := by
  obtain ⟨x, y, h1, hx, hy, hv⟩ := zx2_ok a b
  refine ⟨eqList x y, by simp [dbveq, h1, Out.bind], fun η => ?_⟩
  rw [eqList_ev η x y (by omega), decide_eq_decide, bits_eq_unsigned (by omega), (hv η).1, (hv η).2]

theorem dbvneq_ok (a b : List (Fn o)) :
    ∃ c, dbvneq a b = .ok c ∧ ∀ η, c.ev η = decide (unsigned a η ≠ unsigned b η) := by
  obtain ⟨x, y, h1, hx, hy, hv⟩ := zx2_ok a b
  refine ⟨(eqList x y).not, by simp [dbvneq, h1, Out.bind], fun η => ?_⟩
  rw [not_ev, eqList_ev η x y (by omega)]
  have := bits_eq_unsigned (a := x) (b := y) (by omega) η
  rw [(hv η).1, (hv η).2] at this
  simp [this]

theorem dbvleq_ok (a b : List (Fn o)) :
    ∃ c, dbvleq a b = .ok c ∧ ∀ η, c.ev η = decide (unsigned a η ≤ unsigned b η) := by
  obtain ⟨c, h1, h2⟩ := dbveq_ok a b
  obtain ⟨d, g1, g2⟩ := dbvless_ok a b
  refine ⟨c.or d, by simp [dbvleq, h1, g1, Out.bind], fun η => ?_⟩
  rw [or_ev, h2, g2, ← Bool.decide_or, decide_eq_decide]
  omega

/-! ### Sums and products of any size -/

theorem dbvadd_ok {a b : List (Fn o)} (ha : a ≠ []) :
    ∃ r, dbvadd a b = .ok r ∧ r ≠ [] ∧ ∀ η, Clear a η → Clear b η → unsigned r η = unsigned a η + unsigned b η ∧ Clear r η := by
  obtain ⟨x, y, h1, hx, hy, hv⟩ := zx2_ok a b
  have hl := List.length_pos_iff.2 ha
  obtain ⟨u, us, rfl⟩ := List.exists_cons_of_ne_nil (l := x) (by rintro rfl; simp at hx; omega)
  obtain ⟨v, vs, rfl⟩ := List.exists_cons_of_ne_nil (l := y) (by rintro rfl; simp at hy; omega)
  obtain ⟨h0, t, h2, h3, h4⟩ := extGenBvadd_ok (a := u :: u :: us) (b := v :: v :: vs) (ff o) (by simp at hx hy ⊢; omega)
  refine ⟨bvTrim t, ?_, bvTrim_ne_nil t, fun η hca hcb => ?_⟩
  · simp [dbvadd, h1, Out.bind, hd, h2, tl]
  · have c1 := clear_mono hca (hv η).1 (by omega)
    have c2 := clear_mono hcb (hv η).2 (by omega)
    have e := h4 η
    rw [unsigned_cons u, unsigned_cons v, (clear_cons _ _ _).1 c1, (clear_cons _ _ _).1 c2] at e
    unfold Clear at c1 c2
    rw [hx] at c1
    rw [hy] at c2
    have hn : (u :: u :: us).length = max a.length b.length + 1 := by rw [List.length_cons, hx]
    rw [hn, pow_succ] at e
    have hs : unsigned t η = unsigned (u :: us) η + unsigned (v :: vs) η := by
      cases hh : h0.ev η <;> rw [hh] at e <;> simp at e <;> omega
    have hc : Clear t η := by
      unfold Clear
      rw [h3, hn, pow_succ]
      omega
    obtain ⟨t1, t2⟩ := trim_clear η t hc
    exact ⟨by rw [t1, hs, (hv η).1, (hv η).2], t2⟩

theorem dbvsub_ok {a b : List (Fn o)} (ha : a ≠ []) :
    ∃ r, dbvsub a b = .ok r ∧ r ≠ [] ∧ ∀ η, Clear a η → Clear b η → unsigned b η ≤ unsigned a η →
      unsigned r η = unsigned a η - unsigned b η ∧ Clear r η := by
  obtain ⟨x, y, h1, hx, hy, hv⟩ := zx2_ok a b
  have hl := List.length_pos_iff.2 ha
  obtain ⟨u, us, rfl⟩ := List.exists_cons_of_ne_nil (l := x) (by rintro rfl; simp at hx; omega)
  obtain ⟨v, vs, rfl⟩ := List.exists_cons_of_ne_nil (l := y) (by rintro rfl; simp at hy; omega)
  obtain ⟨h0, t, h2, h3, h4⟩ := extGenBvadd_ok (a := u :: u :: us) (b := (v :: v :: vs).map Fn.not) (tt o)
    (by simp at hx hy ⊢; omega)
  refine ⟨bvTrim t, ?_, bvTrim_ne_nil t, fun η hca hcb hle => ?_⟩
  · simp only [List.map_cons] at h2
    simp [dbvsub, h1, Out.bind, hd, h2, tl]
  · have c1 := clear_mono hca (hv η).1 (by omega)
    have c2 := clear_mono hcb (hv η).2 (by omega)
    have e := h4 η
    have hnt := unsigned_not (v :: v :: vs) η
    rw [unsigned_cons v (v :: vs), (clear_cons _ _ _).1 c2] at hnt
    rw [unsigned_cons u, (clear_cons _ _ _).1 c1] at e
    unfold Clear at c1 c2
    rw [hx] at c1
    rw [hy] at c2
    rw [← (hv η).1, ← (hv η).2] at hle
    have hn : (u :: u :: us).length = max a.length b.length + 1 := by rw [List.length_cons, hx]
    have hn2 : (v :: v :: vs).length = max a.length b.length + 1 := by rw [List.length_cons, hy]
    rw [hn, pow_succ] at e
    rw [hn2, pow_succ] at hnt
    have hs : unsigned t η = unsigned (u :: us) η - unsigned (v :: vs) η := by
      have htl := unsigned_lt t η
      rw [h3, hn, pow_succ] at htl
      cases hh : h0.ev η <;> rw [hh] at e <;> simp at e hnt <;> omega
    have hc : Clear t η := by
      unfold Clear
      rw [h3, hn, pow_succ]
      omega
    obtain ⟨t1, t2⟩ := trim_clear η t hc
    exact ⟨by rw [t1, hs, (hv η).1, (hv η).2], t2⟩

theorem multD_ok (xv : List (Fn o)) : ∀ (ys : List (Fn o)),
    ∃ r, multD xv ys = .ok r ∧ r ≠ [] ∧ ∀ η, unsigned r η = unsigned xv η * unsigned ys η ∧ Clear r η
  | [] => ⟨[ff o], rfl, by simp, fun η => by simp [Clear, unsigned, uv, bits]⟩
  | y :: ys => by
    obtain ⟨r, h1, h2, h3⟩ := multD_ok xv ys
    obtain ⟨s, g1, g2, g3⟩ := dbvadd_ok
      (a := ff o :: (xv ++ List.replicate ys.length (ff o)).map (fun x => y.and x)) (b := r) (by simp)
    refine ⟨s, by simp only [multD, h1, Out.bind, g1], g2, fun η => ?_⟩
    obtain ⟨e1, e2⟩ := g3 η ((clear_cons _ _ _).2 (by simp)) (h3 η).2
    refine ⟨?_, e2⟩
    rw [e1, (h3 η).1, unsigned_cons, unsigned_and, unsigned_append, unsigned_ff, unsigned_cons]
    simp
    ring

theorem dbvmult_ok (a b : List (Fn o)) :
    ∃ r, dbvmult a b = .ok r ∧ r ≠ [] ∧ ∀ η, unsigned r η = unsigned a η * unsigned b η ∧ Clear r η := by
  unfold dbvmult
  split
  · obtain ⟨r, h1, h2, h3⟩ := multD_ok b a
    rename_i x y z he
    split at he <;> cases he
    · exact ⟨r, h1, h2, fun η => ⟨by rw [(h3 η).1, Nat.mul_comm], (h3 η).2⟩⟩
    · exact multD_ok a b

/-! ### Fixed size -/

theorem fbvmult_ok {a b : List (Fn o)} (ha : a ≠ []) (h : a.length = b.length) :
    ∃ r, fbvmult a b = .ok r ∧ r.length = a.length ∧ ∀ η, unsigned r η = unsigned a η * unsigned b η % 2 ^ a.length := by
  have hpos := List.length_pos_iff.2 ha
  have fin : ∀ {r : List (Fn o)} {η : Env}, r.length = a.length →
      (unsigned r η : Int) ≡ unsigned a η * unsigned b η [ZMOD 2 ^ a.length] →
      unsigned r η = unsigned a η * unsigned b η % 2 ^ a.length := by
    intro r η hr hm
    rw [← hr] at hm ⊢
    have := mod_of_modEq hm
    exact_mod_cast this
  unfold fbvmult
  split
  · rename_i hd
    obtain ⟨r, h1, h2, h3⟩ := mulC_ok (n := b.length) (by omega) a.reverse b rfl (isConst_depends hd).reverse
    refine ⟨r, h1, by omega, fun η => fin (by omega) ?_⟩
    have := h3 η
    rw [lv_reverse, ← h, mul_comm] at this
    exact this
  · split
    · rename_i hd
      obtain ⟨r, h1, h2, h3⟩ := mulC_ok (n := a.length) (by omega) b.reverse a rfl (isConst_depends hd).reverse
      refine ⟨r, h1, h2, fun η => fin h2 ?_⟩
      have := h3 η
      rwa [lv_reverse] at this
    · rw [if_neg (by simpa using h)]
      obtain ⟨r, h1, h2, h3⟩ := multF_ok (n := a.length) (xv := a) rfl b
      exact ⟨r, h1, h2, fun η => fin h2 (h3 η)⟩

/-! ### Integers -/

theorem width_le {n i : Nat} (hn : 0 < n) : width i ≤ n ↔ i < 2 ^ n := by
  unfold width
  split
  · rename_i h; subst h
    have : 0 < 2 ^ n := by positivity
    omega
  · rename_i h
    rw [← Nat.log2_lt h]
    omega

theorem lt_width (i : Nat) : i < 2 ^ width i := by
  refine (width_le ?_).1 (Nat.le_refl _)
  unfold width
  split <;> omega

theorem int2fbv_ok (n : Nat) {v : Int} (h : 0 ≤ v) :
    ∃ r, int2fbv o n v = .ok r ∧ IsConst r ∧ r.length = max n (width v.toNat) ∧ ∀ η, (unsigned r η : Int) = v := by
  refine ⟨_, by rw [int2fbv, if_neg (by omega)], isConst_map _, by simp [digits_length], fun η => ?_⟩
  unfold unsigned
  rw [Gen.bits_const, uv_digits, Nat.mod_eq_of_lt, Int.toNat_of_nonneg h]
  exact lt_of_lt_of_le (lt_width _) (Nat.pow_le_pow_right (by omega) (by omega))

theorem int2dbv_ok {v : Int} (h : 0 < v) :
    ∃ r, int2dbv o v = .ok r ∧ r ≠ [] ∧ IsConst r ∧ ∀ η, (unsigned r η : Int) = v ∧ Clear r η := by
  obtain ⟨w, h1, h2, h3, -⟩ := (c91_ubits v).1 (by omega)
  have e : bitsNeeded v = some (w : Int) := by
    rw [← h1, ubitsNeeded, if_neg (by omega), if_neg (by omega)]; rfl
  refine ⟨bvTrim ((digits (w + 1) v.toNat).map (const o)), ?_, bvTrim_ne_nil _, (isConst_map _).bvTrim, fun η => ?_⟩
  · rw [int2dbv, if_neg (by omega), e]
    simp [Out.ofOption, Out.bind]
  · have h3' : v.toNat < 2 ^ w := by
      zify
      rw [Int.toNat_of_nonneg (by omega)]
      exact h3
    have hu : unsigned ((digits (w + 1) v.toNat).map (const o)) η = v.toNat := by
      unfold unsigned
      rw [Gen.bits_const, uv_digits, Nat.mod_eq_of_lt (by rw [pow_succ]; omega)]
    have hc : Clear ((digits (w + 1) v.toNat).map (const o)) η := by
      unfold Clear
      rw [hu, List.length_map, digits_length, pow_succ]
      omega
    obtain ⟨t1, t2⟩ := trim_clear η _ hc
    exact ⟨by rw [t1, hu, Int.toNat_of_nonneg (by omega)], t2⟩

theorem int2dbv_fail {v : Int} (h : v ≤ 0) : int2dbv o v = .fail := by
  unfold int2dbv
  split
  · rfl
  · have : v = 0 := by omega
    subst this
    rfl

theorem bv2num_ok (η : Env) : ∀ (l : List (Fn o)) (cur : Int), IsConst l → bv2num cur l = .ok (cur * 2 ^ l.length + unsigned l η)
  | [], cur, _ => by simp [bv2num, unsigned, uv, bits]
  | b :: l, cur, h => by
    have hl : IsConst l := fun f hf => h f (List.mem_cons_of_mem _ hf)
    rw [bv2num, unsigned_cons]
    rcases h b (by simp) with rfl | rfl
    · rw [if_pos rfl, bv2num_ok η l _ hl]
      simp [pow_succ]; ring
    · rw [if_neg tt_ne_ff.symm, if_pos rfl, bv2num_ok η l _ hl]
      simp [pow_succ]; ring

theorem bv2num_const : ∀ (l : List (Fn o)) (cur v : Int), bv2num cur l = .ok v → IsConst l
  | [], _, _, _ => fun f hf => by simp at hf
  | b :: l, cur, v, h => by
    rw [bv2num] at h
    split at h
    · rename_i hb
      have := bv2num_const l _ _ h
      intro f hf
      rcases List.mem_cons.1 hf with rfl | hf
      · exact .inl hb
      · exact this f hf
    · split at h
      · rename_i hb
        have := bv2num_const l _ _ h
        intro f hf
        rcases List.mem_cons.1 hf with rfl | hf
        · exact .inr hb
        · exact this f hf
      · simp at h

end Voss.Ugen
