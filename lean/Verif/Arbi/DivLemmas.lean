import Verif.Arbi.MulLemmas
/- Helper lemmas: division and remainder. -/
namespace Voss.Arbi

theorem icmp_pos (a b : Int) : 0 < icmp a b ↔ b < a := by
  unfold icmp; split
  · omega
  · split <;> omega

theorem icmp_eq_zero (a b : Int) : icmp a b = 0 ↔ a = b := by
  unfold icmp; split
  · omega
  · split <;> omega

theorem val_drop (x : List W) (j : Nat) (h : j + 1 < x.length) :
    val (x.drop j) = ((x.getD j 0#64).toNat : Int) + 2^64 * val (x.drop (j+1)) := by
  rw [List.drop_eq_getElem_cons (by omega), val_cons _ _ (by simp; omega)]
  simp [List.getD, List.getElem?_eq_getElem (show j < x.length by omega)]

theorem signs_fix (x y q r : Int) (hy : y ≠ 0) (h : x = q * y + r) (hlt : |r| < |y|) :
    if ((r < 0) ≠ (y < 0)) ∧ r ≠ 0 then FloorDiv x y (q - 1) (r + y) else FloorDiv x y q r := by
  split
  · rename_i hc
    obtain ⟨h1, h2⟩ := hc
    rw [ne_eq, eq_iff_iff] at h1
    refine ⟨by rw [h]; ring, ?_, ?_⟩
    · intro hp; rw [abs_of_pos hp, abs_lt] at hlt
      have : r < 0 := by by_contra hcc; apply h1; constructor <;> intro <;> omega
      omega
    · intro hp; rw [abs_of_neg hp, abs_lt] at hlt
      have : 0 < r := by by_contra hcc; apply h1; constructor <;> intro <;> omega
      omega
  · rename_i hc
    have hc' : r ≠ 0 → (r < 0 ↔ y < 0) := by
      intro h0; by_contra hcc; exact hc ⟨by rwa [ne_eq, eq_iff_iff], h0⟩
    refine ⟨h, ?_, ?_⟩
    · intro hp; rw [abs_of_pos hp, abs_lt] at hlt
      by_cases h0 : r = 0
      · omega
      · have := hc' h0; omega
    · intro hp; rw [abs_of_neg hp, abs_lt] at hlt
      by_cases h0 : r = 0
      · omega
      · have := hc' h0; omega

theorem divLoop_partial (g : List W → List W → Res W) (x y : List W) (hy : Norm y) (hy0 : val y ≠ 0) :
    ∀ (fuel j : Nat) (q r : List W), Norm q → Norm r → j < x.length →
      val (x.drop j) = val q * val y + val r →
      ∀ q' r', divLoop g x y fuel j q r = some (.ok (q', r')) →
        Norm q' ∧ Norm r' ∧ FloorDiv (val x) (val y) (val q') (val r') := by
  intro fuel
  induction fuel with
  | zero => intro j q r _ _ _ _ q' r' h; simp [divLoop] at h
  | succ fuel ih =>
    intro j q r hq hr hj hinv q' r' h
    unfold divLoop at h
    have hc := cmpa_spec y r hy hr
    split at h
    · rename_i hgt
      rw [hc, gt_iff_lt, icmp_pos] at hgt
      cases j with
      | zero =>
        simp only at h
        rw [List.drop_zero] at hinv
        have hfix := signs_fix (val x) (val y) (val q) (val r) hy0 hinv hgt
        have e : ((cmp0 r < 0) ≠ (cmp0 y < 0)) ∧ cmp0 r ≠ 0 ↔
            ((val r < 0) ≠ (val y < 0)) ∧ val r ≠ 0 := by
          rw [cmp0_neg_iff r hr, cmp0_neg_iff y hy, cmp0_spec r hr, ne_eq (icmp _ _), icmp_eq_zero]
        split at h
        · rename_i hcc
          rw [if_pos (e.mp hcc)] at hfix
          simp only [Option.some.injEq, Res.ok.injEq, Prod.mk.injEq] at h
          obtain ⟨rfl, rfl⟩ := h
          have s1 := sub_spec q (fromWord 1#64) hq.ne_nil (by simp [fromWord])
          have s2 := add_spec r y hr.ne_nil hy.ne_nil
          refine ⟨s1.2, s2.2, ?_⟩
          rw [s1.1, s2.1]
          exact hfix
        · rename_i hcc
          rw [if_neg (fun hh => hcc (e.mpr hh))] at hfix
          simp only [Option.some.injEq, Res.ok.injEq, Prod.mk.injEq] at h
          obtain ⟨rfl, rfl⟩ := h
          exact ⟨hq, hr, hfix⟩
      | succ j =>
        simp only at h
        refine ih j _ _ (trim_norm _ (by simp)) (trim_norm _ (by simp)) (by omega) ?_ q' r' h
        rw [trim_val, trim_val, val_cons _ _ hq.ne_nil, val_cons _ _ hr.ne_nil, val_drop x j (by omega), hinv]
        simp; ring
    · split at h
      · rename_i z hz
        split at h
        · rename_i t ht
          have htrap : ¬ (fromWord z = [-1#64] ∧ y = [minWord]) := by
            rintro ⟨h1, h2⟩
            simp only [fromWord, List.cons.injEq, and_true] at h1
            subst h1; subst h2
            have : mul (fromWord (-1#64)) [minWord] = .ub := by decide
            rw [this] at ht; cases ht
          obtain ⟨p, p1, p2, p3⟩ := mul_spec (fromWord z) y (norm_single z) hy (by simp [fromWord]) htrap
          rw [p1] at ht; cases ht
          have s1 := add_spec q (fromWord z) hq.ne_nil (by simp [fromWord])
          have s2 := sub_spec r t hr.ne_nil p3.ne_nil
          refine ih j _ _ s1.2 s2.2 hj ?_ q' r' h
          rw [s1.1, s2.1, p2, hinv]; ring
        · simp at h
        · simp at h
      · simp at h
      · simp at h

theorem norm_drop (x : List W) (hx : Norm x) (j : Nat) (hj : j < x.length) : Norm (x.drop j) := by
  obtain ⟨_, h2⟩ := hx
  refine ⟨by simp; omega, ?_⟩
  intro init lo hi h
  apply h2 (x.take j ++ init) lo hi
  rw [List.append_assoc, ← h, List.take_append_drop]

theorem short_div (x y : List W) (hx : Norm x) (hy : Norm y) (hl : x.length < y.length) :
    |val x| ≤ |val y| ∧ (|val x| = |val y| → val x < 0 ∧ 0 < val y) := by
  have h1 := val_bounds x hx.ne_nil
  have lx : 1 ≤ x.length := List.length_pos_iff.mpr hx.ne_nil
  have h2 := norm_abs_lower y hy (by omega)
  have hp := pow_le_pow_int (show 64 * x.length - 1 ≤ 64 * (y.length - 1) - 1 by omega)
  have hpos : (0:Int) < 2^(64 * x.length - 1) := by positivity
  rcases abs_cases (val x) with ⟨e1, e2⟩ | ⟨e1, e2⟩ <;> rcases abs_cases (val y) with ⟨e3, e4⟩ | ⟨e3, e4⟩ <;>
    rw [e1, e3] <;> constructor <;> (try intro) <;> omega

theorem divmodG_partial (g : List W → List W → Res W) (fuel : Nat) (x y : List W) (hx : Norm x) (hy : Norm y)
    (hy0 : val y ≠ 0) (q r : List W) (h : divmodG g fuel x y = some (.ok (q, r))) :
    Norm q ∧ Norm r ∧ FloorDiv (val x) (val y) (val q) (val r) := by
  unfold divmodG at h
  split at h
  · rename_i hl
    have hs := short_div x y hx hy hl
    have ex := cmp0_neg_iff x hx
    have ey := cmp0_neg_iff y hy
    have e0 : cmp0 x = 0 ↔ val x = 0 := by rw [cmp0_spec x hx, icmp_eq_zero]
    simp only [ex, ey, e0] at h
    split at h
    · rename_i hc
      simp only [Option.some.injEq, Res.ok.injEq, Prod.mk.injEq] at h
      obtain ⟨rfl, rfl⟩ := h
      refine ⟨norm_single _, hx, ?_⟩
      have : val (fromWord 0#64) = 0 := by decide
      rw [this]
      refine ⟨by ring, ?_, ?_⟩ <;> intro hp <;>
      rcases abs_cases (val x) with ⟨e1, e2⟩ | ⟨e1, e2⟩ <;> rcases abs_cases (val y) with ⟨e3, e4⟩ | ⟨e3, e4⟩ <;>
        rw [e1, e3] at hs <;> omega
    · rename_i hc
      simp only [Option.some.injEq, Res.ok.injEq, Prod.mk.injEq] at h
      obtain ⟨rfl, rfl⟩ := h
      have s2 := add_spec x y hx.ne_nil hy.ne_nil
      refine ⟨norm_single _, s2.2, ?_⟩
      rw [s2.1]
      have : val (fromWord (-1#64)) = -1 := by decide
      rw [this]
      refine ⟨by ring, ?_, ?_⟩ <;> intro hp <;>
      rcases abs_cases (val x) with ⟨e1, e2⟩ | ⟨e1, e2⟩ <;> rcases abs_cases (val y) with ⟨e3, e4⟩ | ⟨e3, e4⟩ <;>
        rw [e1, e3] at hs <;> omega
  · rename_i hl
    have ly : 1 ≤ y.length := List.length_pos_iff.mpr hy.ne_nil
    refine divLoop_partial g x y hy hy0 fuel _ _ _ (norm_single _) (norm_drop x hx _ (by omega)) (by omega) ?_ q r h
    have : val [0#64] = 0 := by decide
    rw [this]; ring

/-! ### one-word fast paths -/

theorem neg_toInt_of_ne (w : W) (h : w ≠ minWord) : (-w).toInt = -w.toInt := by
  have e : (-w).toNat = (2^64 - w.toNat) % 2^64 := by simp [BitVec.toNat_neg]
  have hm : w.toNat ≠ 2^63 := by
    intro hh; apply h; apply BitVec.eq_of_toNat_eq; rw [hh]; decide
  rcases toInt_cases w with ⟨a1, a2, a3⟩ | ⟨a1, a2, a3⟩ <;>
  rcases toInt_cases (-w) with ⟨s1, s2, s3⟩ | ⟨s1, s2, s3⟩ <;> omega

theorem isNeg_iff (w : W) : isNeg w = true ↔ w.toInt < 0 := by
  unfold isNeg
  rcases toInt_cases w with ⟨a1, a2, a3⟩ | ⟨a1, a2, a3⟩ <;> simp [a1] <;> omega

theorem nonneg_div_mod (a b : W) (ha : 0 ≤ a.toInt) (hb : 0 < b.toInt) :
    (wdiv a b).toInt = a.toInt / b.toInt ∧ (wmod a b).toInt = a.toInt % b.toInt := by
  have hno : ¬ (a = minWord ∧ b = -1#64) := by
    rintro ⟨rfl, rfl⟩; exact absurd ha (by decide)
  constructor
  · unfold wdiv; rw [sdiv_toInt _ _ hno, Int.tdiv_eq_ediv_of_nonneg ha]
  · unfold wmod; rw [BitVec.toInt_srem, Int.tmod_eq_emod_of_nonneg ha]

theorem ofInt_toInt (w : W) (z : Int) (h1 : -2^63 ≤ z) (h2 : z < 2^63) (h : w.toInt = z.bmod (2^64)) : w.toInt = z := by
  rw [h]; apply Int.bmod_eq_of_le <;> norm_num <;> omega

theorem neg_toInt' (w : W) (h : -2^63 < w.toInt) : (-w).toInt = - w.toInt := by
  apply neg_toInt_of_ne
  rintro rfl
  exact absurd h (by decide)

theorem sub_toInt' (a b : W) (h1 : -2^63 ≤ a.toInt - b.toInt) (h2 : a.toInt - b.toInt < 2^63) :
    (a - b).toInt = a.toInt - b.toInt := ofInt_toInt _ _ h1 h2 (by simp [BitVec.toInt_sub])

theorem add_toInt' (a b : W) (h1 : -2^63 ≤ a.toInt + b.toInt) (h2 : a.toInt + b.toInt < 2^63) :
    (a + b).toInt = a.toInt + b.toInt := ofInt_toInt _ _ h1 h2 (by simp [BitVec.toInt_add])

theorem ediv_bounds (a b : Int) (ha : 0 ≤ a) (hb : 0 < b) :
    a = b * (a / b) + a % b ∧ 0 ≤ a % b ∧ a % b < b ∧ 0 ≤ a / b ∧ a / b ≤ a :=
  ⟨(Int.mul_ediv_add_emod a b).symm, Int.emod_nonneg _ (by omega), Int.emod_lt_of_pos _ hb,
   Int.ediv_nonneg ha hb.le, Int.ediv_le_self b ha⟩

theorem fast_spec (wx wy : W) (hx : wx ≠ minWord) (hy : wy ≠ minWord) (h0 : wy ≠ 0#64) :
    FloorDiv wx.toInt wy.toInt (divFast wx wy).toInt (modFast wx wy).toInt := by
  have nx := neg_toInt_of_ne wx hx
  have ny := neg_toInt_of_ne wy hy
  have bx := toInt_bounds wx
  have bY := toInt_bounds wy
  have hy0 : wy.toInt ≠ 0 := mt (toInt_zero_iff wy).mpr h0
  have hmx : wx.toInt ≠ -2^63 := by
    intro hh; apply hx; apply BitVec.eq_of_toInt_eq; rw [hh]; decide
  have hmy : wy.toInt ≠ -2^63 := by
    intro hh; apply hy; apply BitVec.eq_of_toInt_eq; rw [hh]; decide
  have one : (1#64).toInt = 1 := by decide
  have sx := isNeg_iff wx
  have sy := isNeg_iff wy
  have hsrem : (wmod wx wy).toInt = wx.toInt.tmod wy.toInt := by unfold wmod; rw [BitVec.toInt_srem]
  by_cases cx : wx.toInt < 0 <;> by_cases cy : wy.toInt < 0
  · have e1 : isNeg wx = true := sx.mpr cx
    have e2 : isNeg wy = true := sy.mpr cy
    obtain ⟨d1, d2⟩ := nonneg_div_mod (-wx) (-wy) (by omega) (by omega)
    have hb := ediv_bounds (-wx).toInt (-wy).toInt (by omega) (by omega)
    rw [← d1, ← d2] at hb
    unfold divFast modFast
    simp only [e1, e2, Bool.not_true, Bool.false_and, Bool.and_false, Bool.false_eq_true, if_false]
    have ht : wx.toInt.tmod wy.toInt = -((wmod (-wx) (-wy)).toInt) := by
      rw [d2, nx, ny, ← Int.tmod_eq_emod_of_nonneg (by omega), Int.tmod_neg, Int.neg_tmod]; ring
    split
    · rename_i hz
      have hz' := (toInt_zero_iff _).mp hz
      rw [hsrem, ht] at hz'
      rw [show (0#64).toInt = 0 by decide]
      have : (wmod (-wx) (-wy)).toInt = 0 := by omega
      rw [this, nx, ny] at hb
      refine ⟨?_, by omega, by omega⟩
      have := hb.1
      linarith [mul_comm (wy.toInt) (wdiv (-wx) (-wy)).toInt]
    · rw [neg_toInt' _ (by omega)]
      have := hb.1
      rw [nx, ny] at this
      refine ⟨?_, by omega, ?_⟩
      · linarith [mul_comm (wy.toInt) (wdiv (-wx) (-wy)).toInt]
      · intro; omega
  · have e1 : isNeg wx = true := sx.mpr cx
    have e2 : isNeg wy = false := by rw [← Bool.not_eq_true, sy]; exact cy
    obtain ⟨d1, d2⟩ := nonneg_div_mod (-wx) wy (by omega) (by omega)
    have hb := ediv_bounds (-wx).toInt wy.toInt (by omega) (by omega)
    rw [← d1, ← d2] at hb
    have hz : (wmod (-wx) wy = 0#64) ↔ (wmod wx wy = 0#64) := by
      rw [toInt_zero_iff, toInt_zero_iff, hsrem, d2, nx, ← Int.tmod_eq_emod_of_nonneg (by omega), Int.neg_tmod]; omega
    have hz0 := toInt_zero_iff (wmod (-wx) wy)
    unfold divFast modFast
    simp only [e1, e2, Bool.not_true, Bool.not_false, Bool.false_and, Bool.true_and, Bool.false_eq_true, if_false, if_true]
    simp only [hz]
    have hbig := hb.1
    rw [nx] at hbig
    split
    · rename_i hzz
      have h4 := hz0.mp (hz.mpr hzz)
      rw [show (0#64).toInt = 0 by decide, neg_toInt' _ (by omega)]
      rw [h4] at hbig
      refine ⟨?_, by omega, by omega⟩
      linarith [mul_comm (wy.toInt) (wdiv (-wx) wy).toInt]
    · rename_i hzz
      have h4 : ¬ (wmod (-wx) wy).toInt = 0 := mt hz0.mpr (mt hz.mp hzz)
      have e3 : (-wdiv (-wx) wy).toInt = -(wdiv (-wx) wy).toInt := neg_toInt' _ (by omega)
      rw [sub_toInt' _ _ (by omega) (by omega), sub_toInt' _ _ (by omega) (by omega), e3, one]
      refine ⟨?_, by omega, by omega⟩
      linarith [mul_comm (wy.toInt) (wdiv (-wx) wy).toInt]
  · have e1 : isNeg wx = false := by rw [← Bool.not_eq_true, sx]; exact cx
    have e2 : isNeg wy = true := sy.mpr cy
    obtain ⟨d1, d2⟩ := nonneg_div_mod wx (-wy) (by omega) (by omega)
    have hb := ediv_bounds wx.toInt (-wy).toInt (by omega) (by omega)
    rw [← d1, ← d2] at hb
    have hz : (wmod wx (-wy) = 0#64) ↔ (wmod wx wy = 0#64) := by
      rw [toInt_zero_iff, toInt_zero_iff, hsrem, d2, ny, ← Int.tmod_eq_emod_of_nonneg (by omega), Int.tmod_neg]
    have hz0 := toInt_zero_iff (wmod wx (-wy))
    unfold divFast modFast
    simp only [e1, e2, Bool.not_true, Bool.not_false, Bool.false_and, Bool.true_and, Bool.and_false, Bool.false_eq_true, if_false, if_true]
    simp only [hz]
    have hbig := hb.1
    rw [ny] at hbig
    split
    · rename_i hzz
      have h4 := hz0.mp (hz.mpr hzz)
      rw [show (0#64).toInt = 0 by decide, neg_toInt' _ (by omega)]
      rw [h4] at hbig
      refine ⟨?_, by omega, by omega⟩
      linarith [mul_comm (wy.toInt) (wdiv wx (-wy)).toInt]
    · rename_i hzz
      have h4 : ¬ (wmod wx (-wy)).toInt = 0 := mt hz0.mpr (mt hz.mp hzz)
      have e3 : (-wdiv wx (-wy)).toInt = -(wdiv wx (-wy)).toInt := neg_toInt' _ (by omega)
      rw [sub_toInt' _ _ (by omega) (by omega), add_toInt' _ _ (by omega) (by omega), e3, one]
      refine ⟨?_, by omega, by omega⟩
      linarith [mul_comm (wy.toInt) (wdiv wx (-wy)).toInt]
  · have e1 : isNeg wx = false := by rw [← Bool.not_eq_true, sx]; exact cx
    have e2 : isNeg wy = false := by rw [← Bool.not_eq_true, sy]; exact cy
    obtain ⟨d1, d2⟩ := nonneg_div_mod wx wy (by omega) (by omega)
    have hb := ediv_bounds wx.toInt wy.toInt (by omega) (by omega)
    unfold divFast modFast
    simp only [e1, e2, Bool.not_false, Bool.and_self, if_true]
    rw [d1, d2]
    refine ⟨?_, by omega, by omega⟩
    linarith [mul_comm (wy.toInt) (wx.toInt / wy.toInt)]

theorem FloorDiv.unique {x y q r q' r' : Int} (hy : y ≠ 0) (h : FloorDiv x y q r) (h' : FloorDiv x y q' r') :
    q = q' ∧ r = r' := by
  obtain ⟨a1, a2, a3⟩ := h
  obtain ⟨b1, b2, b3⟩ := h'
  have e : (q - q') * y = r' - r := by linarith [a1.symm.trans b1, sub_mul q q' y]
  have : q - q' = 0 := by
    by_contra hne
    have h1 : 1 ≤ |q - q'| := Int.one_le_abs hne
    have h2 : |r' - r| = |q - q'| * |y| := by rw [← e, abs_mul]
    have h3 : |y| ≤ |q - q'| * |y| := by nlinarith [abs_nonneg y]
    rcases lt_or_gt_of_ne hy with hn | hp
    · have c1 := a3 hn; have c2 := b3 hn
      rw [abs_of_neg hn] at h3 h2
      have : |r' - r| < -y := by rw [abs_lt]; omega
      omega
    · have c1 := a2 hp; have c2 := b2 hp
      rw [abs_of_pos hp] at h3 h2
      have : |r' - r| < y := by rw [abs_lt]; omega
      omega
  rw [this] at e
  constructor <;> omega

end Voss.Arbi
