import Verif.Arbi.GuessLemmas2
/- Helper lemmas: the guess shrinks the remainder; division terminates. -/
namespace Voss.Arbi

theorem wabs_toInt (w : W) (h : w ≠ minWord) : (wabs w).toInt = |w.toInt| := by
  unfold wabs
  have := isNeg_iff w
  split
  · rename_i hh; rw [neg_toInt_of_ne w h, abs_of_neg (this.mp hh)]
  · rename_i hh; rw [abs_of_nonneg]; by_contra hc; exact hh (this.mpr (by omega))

theorem round_spec (gg : W) (gs : Nat) (h1 : 1 ≤ gs) (h2 : gs ≤ 63) :
    let z := gg.sshiftRight gs + ((gg.sshiftRight (gs - 1)) &&& 1#64)
    |gg.toInt - z.toInt * 2^gs| * 2 ≤ 2^gs := by
  obtain ⟨k, rfl⟩ : ∃ k, gs = k + 1 := ⟨gs - 1, by omega⟩
  simp only [Nat.add_sub_cancel]
  have e1 := sshr_toInt gg (k+1)
  have e2 := sshr_toInt gg k
  have hb := toInt_bounds gg
  have e3 : ((gg.sshiftRight k &&& 1#64).toInt) = gg.toInt / 2^k % 2 := by
    rw [← e2]
    have : (gg.sshiftRight k &&& 1#64).toNat = (gg.sshiftRight k).toNat % 2 := by
      rw [BitVec.toNat_and]
      have : (1#64).toNat = 1 := by decide
      rw [this, Nat.and_one_is_mod]
    rcases toInt_cases (gg.sshiftRight k) with ⟨a, b, c⟩ | ⟨a, b, c⟩ <;>
    rcases toInt_cases (gg.sshiftRight k &&& 1#64) with ⟨a', b', c'⟩ | ⟨a', b', c'⟩ <;> omega
  have hpk : (0:Int) < 2^k := by positivity
  have hdd : gg.toInt / 2^(k+1) = gg.toInt / 2^k / 2 := by
    rw [pow_succ, Int.ediv_ediv_of_nonneg hpk.le]
  have f1 := floor_facts gg.toInt (2^k) _ hpk rfl
  have hq : -2^63 ≤ gg.toInt / 2^k ∧ gg.toInt / 2^k < 2^63 := by
    rw [← e2]; exact toInt_bounds _
  rw [add_toInt' _ _ (by rw [e1, e3, hdd]; omega) (by rw [e1, e3, hdd]; omega), e1, e3, hdd, pow_succ]
  generalize gg.toInt / 2^k = q at *
  have hround : q / 2 + q % 2 = (q + 1) / 2 := by omega
  rw [hround]
  obtain ⟨t, ht⟩ : ∃ t, t = (q + 1) / 2 := ⟨_, rfl⟩
  rw [← ht]
  have ht2 : 2 * t = q ∨ 2 * t = q + 1 := by omega
  have e5 : t * (2^k * 2) = (2 * t) * 2^k := by ring
  rw [e5]
  generalize (2:Int)^k = P at *
  rcases ht2 with h | h <;> rw [h]
  · rw [abs_of_nonneg (by linarith)]; linarith [add_mul q 1 P]
  · rw [abs_of_nonpos (by linarith)]; linarith [add_mul q 1 P]

/-- Conclusion of the guess when the estimate is shifted right. -/
theorem guess_right (G X Y z P : Int) (hP : 0 < P) (hXY : |Y| ≤ |X|) (hX : 0 < |X|)
    (he : |G * Y - P * X| * 2^20 ≤ P * |X|) (hr : |G - z * P| * 2 ≤ P) : |X - z * Y| < |X| := by
  have e : P * (X - z * Y) = (G - z * P) * Y - (G * Y - P * X) := by ring
  have h1 : P * |X - z * Y| ≤ |G - z * P| * |Y| + |G * Y - P * X| := by
    have : P * |X - z * Y| = |P * (X - z * Y)| := by rw [abs_mul, abs_of_pos hP]
    rw [this, e, ← abs_mul]; exact abs_sub _ _
  have h2 : |G - z * P| * |Y| * 2 ≤ P * |X| := by
    calc |G - z * P| * |Y| * 2 = (|G - z * P| * 2) * |Y| := by ring
      _ ≤ P * |X| := mul_le_mul hr hXY (abs_nonneg _) hP.le
  have h3 : 0 < P * |X| := mul_pos hP hX
  have h4 : P * |X - z * Y| < P * |X| := by nlinarith
  exact lt_of_mul_lt_mul_left h4 hP.le

theorem abs_sub_lt_sign (X V Y : Int) (h : |V * Y - X| * 2^20 ≤ |X|) (u : Int) (hu : 0 < u) (v : Int) (hv : u ≤ v)
    (z : Int) (hz : z * v = V * u) (hX : 0 < |X|) : |X - z * Y| < |X| := by
  have hvp : 0 < v := by omega
  have e : v * (X - z * Y) = (v - u) * X - u * (V * Y - X) := by
    have : v * (z * Y) = V * u * Y := by rw [← hz]; ring
    linarith
  have h1 : v * |X - z * Y| ≤ (v - u) * |X| + u * |V * Y - X| := by
    have h2 : v * |X - z * Y| = |v * (X - z * Y)| := by rw [abs_mul, abs_of_pos hvp]
    have h3 := abs_sub ((v - u) * X) (u * (V * Y - X))
    rw [h2, e]
    rw [abs_mul, abs_mul u, abs_of_nonneg (show 0 ≤ v - u by omega), abs_of_pos hu] at h3
    exact h3
  have h2 : u * |V * Y - X| < u * |X| := by
    apply mul_lt_mul_of_pos_left _ hu
    nlinarith [abs_nonneg (V * Y - X)]
  have h4 : v * |X - z * Y| < v * |X| := by
    have : (v - u) * |X| = v * |X| - u * |X| := by ring
    linarith
  exact lt_of_mul_lt_mul_left h4 hvp.le

theorem shl_cong (gg : W) (k : Nat) : ∃ q : Int, (gg <<< k).toInt = gg.toInt * 2^k + 2^64 * q := by
  rw [BitVec.toInt_shiftLeft, Nat.shiftLeft_eq]
  have e1 : ((gg.toNat * 2^k : Nat) : Int) = gg.toInt * 2^k + 2^64 * (if gg.msb then 2^k else 0) := by
    push_cast
    rcases toInt_cases gg with ⟨a, b, c⟩ | ⟨a, b, c⟩ <;> simp [a, b]; ring
  rw [e1]
  obtain ⟨q, hq⟩ : ∃ q, (gg.toInt * 2^k + 2^64 * (if gg.msb then 2^k else 0)) = (gg.toInt * 2^k + 2^64 * (if gg.msb then 2^k else 0)).bmod (2^64) + 2^64 * q :=
    ⟨_, (Int.bmod_add_bdiv _ (2^64)).symm⟩
  refine ⟨(if gg.msb then 2^k else 0) - q, ?_⟩
  linarith

theorem guess_left (gg : W) (k : Nat) (X Y : Int) (hkp : 1 ≤ k)
    (hG59 : 2^59 ≤ |gg.toInt|) (hVle : |gg.toInt * 2^k| ≤ 2^64 + 2^44)
    (hV : |gg.toInt * 2^k * Y - X| * 2^20 ≤ |X|) (hX : 0 < |X|) :
    ∃ z, (if (isNeg (gg <<< k) != isNeg gg || decide ((wabs (gg <<< k)).toInt < (wabs gg).toInt)) = true then
        (.ok (if isNeg gg then minWord else maxWord) : Res W) else .ok (gg <<< k)) = .ok z ∧ |X - z.toInt * Y| < |X| := by
  have hGb := toInt_bounds gg
  have hVabs : |gg.toInt * 2^k| = |gg.toInt| * 2^k := by
    rw [abs_mul, abs_of_pos (show (0:Int) < 2^k by positivity)]
  obtain ⟨q, hq⟩ := shl_cong gg k
  have hzb := toInt_bounds (gg <<< k)
  generalize hzz : gg <<< k = zz at *
  have hVrange : -(2^64 + 2^44) ≤ gg.toInt * 2^k ∧ gg.toInt * 2^k ≤ 2^64 + 2^44 := by
    have : |gg.toInt * 2^k| ≤ 2^64 + 2^44 := by omega
    exact abs_le.mp this
  have sgn := isNeg_iff gg
  have sgz := isNeg_iff zz
  have hGV : (gg.toInt < 0 → gg.toInt * 2^k ≤ gg.toInt * 2) ∧ (0 ≤ gg.toInt → gg.toInt * 2 ≤ gg.toInt * 2^k) := by
    have h2 : (2:Int) ≤ 2^k := by simpa using pow_le_pow_int hkp
    constructor <;> intro <;> nlinarith
  have hG59' : gg.toInt ≤ -2^59 ∨ 2^59 ≤ gg.toInt := by
    rcases abs_cases gg.toInt with ⟨q1, q2⟩ | ⟨q1, q2⟩ <;> rw [q1] at hG59 <;> omega
  have hggmin : gg ≠ minWord ∨ gg = minWord := (em _).symm
  have hwg : (wabs gg).toInt = |gg.toInt| ∨ (wabs gg).toInt = -2^63 := by
    rcases hggmin with h | h
    · left; exact wabs_toInt gg h
    · right; rw [h]; decide
  by_cases hin : -2^63 ≤ gg.toInt * 2^k ∧ gg.toInt * 2^k < 2^63
  · -- exact
    have hq0 : q = 0 := by omega
    rw [hq0, mul_zero, add_zero] at hq
    split
    · rename_i hsat
      have hzmin : zz = minWord := by
        by_contra hne
        have hz' := wabs_toInt zz hne
        simp only [Bool.or_eq_true, bne_iff_ne, ne_eq, decide_eq_true_eq] at hsat
        rcases hsat with h | h
        · apply h
          by_cases hs : gg.toInt < 0
          · rw [sgn.mpr hs, sgz.mpr (by have := hGV.1 hs; omega)]
          · have h1 : isNeg gg = false := by rw [← Bool.not_eq_true, sgn]; exact hs
            have h2 : isNeg zz = false := by rw [← Bool.not_eq_true, sgz]; have := hGV.2 (by omega); omega
            rw [h1, h2]
        · rw [hz'] at h
          have : |gg.toInt| ≤ |zz.toInt| := by
            rw [hq, hVabs]
            have : (1:Int) ≤ 2^k := by simpa using pow_le_pow_int (Nat.zero_le k)
            nlinarith
          rcases hwg with h' | h' <;> rw [h'] at h
          · omega
          · have := abs_nonneg zz.toInt; omega
      have hz63 : zz.toInt = -2^63 := by rw [hzmin]; decide
      have hgneg : gg.toInt < 0 := by
        by_contra hc
        have := hGV.2 (by omega); omega
      rw [sgn.mpr hgneg, if_pos rfl]
      refine ⟨_, rfl, ?_⟩
      rw [← hzmin, hq, abs_sub_comm]
      have := abs_nonneg (gg.toInt * 2^k * Y - X)
      nlinarith
    · refine ⟨_, rfl, ?_⟩
      rw [hq, abs_sub_comm]
      have := abs_nonneg (gg.toInt * 2^k * Y - X)
      nlinarith
  · -- saturated
    have hsat : (isNeg zz != isNeg gg || decide ((wabs zz).toInt < (wabs gg).toInt)) = true := by
      simp only [Bool.or_eq_true, bne_iff_ne, ne_eq, decide_eq_true_eq]
      rcases hG59' with hs | hs
      · have h1 := hGV.1 (by omega)
        have e1 : isNeg gg = true := sgn.mpr (by omega)
        have hq12 : q = 1 := by omega
        by_cases hzn : zz.toInt < 0
        · right
          have hzne : zz ≠ minWord := by
            rintro rfl
            have : minWord.toInt = -2^63 := by decide
            omega
          have hgne : gg ≠ minWord := by
            rintro rfl
            have h63 : minWord.toInt = -2^63 := by decide
            rw [h63] at hVrange hq
            have h2 : (2:Int) ≤ 2^k := by simpa using pow_le_pow_int hkp
            have h4 : (2:Int)^k < 4 := by
              by_contra hcc; nlinarith
            have : k = 1 := by
              by_contra hcc
              have : (2:Int)^2 ≤ 2^k := pow_le_pow_int (by omega)
              omega
            subst this
            omega
          rw [wabs_toInt zz hzne, wabs_toInt gg hgne, abs_of_neg hzn, abs_of_neg (by omega)]
          omega
        · left
          have : isNeg zz = false := by rw [← Bool.not_eq_true, sgz]; exact hzn
          rw [e1, this]; decide
      · have h1 := hGV.2 (by omega)
        have e1 : isNeg gg = false := by rw [← Bool.not_eq_true, sgn]; omega
        have hq12 : q = -1 := by omega
        by_cases hzn : zz.toInt < 0
        · left; rw [e1, sgz.mpr hzn]; decide
        · right
          have hzne : zz ≠ minWord := by rintro rfl; exact hzn (by decide)
          have hgne : gg ≠ minWord := by
            rintro rfl
            have h63 : minWord.toInt = -2^63 := by decide
            omega
          rw [wabs_toInt zz hzne, wabs_toInt gg hgne, abs_of_nonneg (by omega), abs_of_nonneg (by omega)]
          omega
    rw [if_pos hsat]
    refine ⟨_, rfl, ?_⟩
    rcases hG59' with hs | hs
    · rw [sgn.mpr (by omega), if_pos rfl]
      have h1 := hGV.1 (by omega)
      have h63 : minWord.toInt = -2^63 := by decide
      rw [h63]
      exact abs_sub_lt_sign (X) (gg.toInt * 2^k) (Y) hV (2^63) (by norm_num) (-(gg.toInt * 2^k)) (by omega)
        (-2^63) (by ring) hX
    · have e1 : isNeg gg = false := by rw [← Bool.not_eq_true, sgn]; omega
      rw [e1]
      have h1 := hGV.2 (by omega)
      have h63 : maxWord.toInt = 2^63 - 1 := by decide
      simp only [Bool.false_eq_true, if_false]
      rw [h63]
      exact abs_sub_lt_sign (X) (gg.toInt * 2^k) (Y) hV (2^63 - 1) (by norm_num) (gg.toInt * 2^k) (by omega)
        (2^63 - 1) (by ring) hX


set_option maxHeartbeats 2000000 in
theorem guess_spec (r y : List W) (hr : Norm r) (hy : Norm y) (hy2 : 2 ≤ |val y|)
    (hge : |val y| ≤ |val r|) (hle : |val r| ≤ 2^64 * |val y|) :
    ∃ z, guess r y = .ok z ∧ |val r - z.toInt * val y| < |val r| := by
  have hr0 : val r ≠ 0 := by intro h; rw [h, abs_zero] at hge; omega
  have hy0 : val y ≠ 0 := by intro h; rw [h] at hy2; simp at hy2
  have hr1 : val r ≠ -1 := by intro h; rw [h] at hge; norm_num at hge; omega
  have hy1 : val y ≠ -1 := by intro h; rw [h] at hy2; simp at hy2
  have hX : 0 < |val r| := abs_pos.mpr hr0
  obtain ⟨w, ys, cw, sw⟩ := scale_spec 2 (Or.inl rfl) (top y) (top2 y) (norm_top_zero y hy hy0) (norm_top_neg1 y hy hy1)
  obtain ⟨z, rs, cz, sz⟩ := scale_spec 3 (Or.inr rfl) (top r) (top2 r) (norm_top_zero r hr hr0) (norm_top_neg1 r hr hr1)
  obtain ⟨bx1, bx2⟩ := scale_bracket 3 r hr.ne_nil z rs sz
  obtain ⟨by1, by2⟩ := scale_bracket 2 y hy.ne_nil w ys sw
  have zr : (2^60 ≤ z.toInt ∧ z.toInt < 2^61) ∨ (-2^61 ≤ z.toInt ∧ z.toInt < -2^60) := by
    have := sz.range; norm_num at this ⊢; omega
  have wr : (2^61 ≤ w.toInt ∧ w.toInt < 2^62) ∨ (-2^62 ≤ w.toInt ∧ w.toInt < -2^60) := by
    have := sw.range; norm_num at this ⊢; omega
  obtain ⟨gh, zm, gl, c1, c2, c3, herr⟩ := gg_spec z w wr zr
  have lr : 1 ≤ r.length := List.length_pos_iff.mpr hr.ne_nil
  have ly : 1 ≤ y.length := List.length_pos_iff.mpr hy.ne_nil
  have s1 := sw.lo_s; have s2 := sw.hi_s; have s3 := sz.lo_s; have s4 := sz.hi_s
  unfold guess
  simp only [cw, cz, Res.bind, c1, c2, c3]
  generalize hgg : gl + gh <<< 31 = gg at *
  have hGb := toInt_bounds gg
  have hG63 : |gg.toInt| ≤ 2^63 := by rw [abs_le]; omega
  have hz60 : 2^60 ≤ |z.toInt| := by
    rcases abs_cases z.toInt with ⟨q1, q2⟩ | ⟨q1, q2⟩ <;> rw [q1] <;> omega
  -- lower bound on the estimate
  have hG59 : 2^59 ≤ |gg.toInt| := by
    by_contra hcon
    have hw62 : |w.toInt| ≤ 2^62 := by rw [abs_le]; omega
    have h1 : |gg.toInt * w.toInt| ≤ 2^59 * 2^62 := by
      rw [abs_mul]; exact mul_le_mul (by omega) hw62 (abs_nonneg _) (by norm_num)
    have h2 : 2^60 * 2^62 ≤ |z.toInt * 2^62| := by
      rw [abs_mul, abs_of_pos (show (0:Int) < 2^62 by norm_num)]; omega
    have h3 := abs_sub_abs_le_abs_sub (z.toInt * 2^62) (gg.toInt * w.toInt)
    rw [abs_sub_comm] at h3
    omega
  obtain ⟨Dr, hDr⟩ : ∃ Dr, Dr = (2:Int)^(64 - rs).toNat * 2^(64 * (r.length - 1)) := ⟨_, rfl⟩
  obtain ⟨Dy, hDy⟩ : ∃ Dy, Dy = (2:Int)^(64 - ys).toNat * 2^(64 * (y.length - 1)) := ⟨_, rfl⟩
  have hDrp : 0 < Dr := by rw [hDr]; positivity
  have hDyp : 0 < Dy := by rw [hDy]; positivity
  rw [← hDr] at bx1 bx2
  rw [← hDy] at by1 by2
  have hrel := rel_error gg.toInt (val r) (val y) z.toInt w.toInt Dr Dy hDrp hDyp hG63 hz60 herr bx1 bx2 by1 by2
  generalize hgs : (62 - 64 * ((r.length : Int) - y.length) + (rs - ys)) = gs at *
  by_cases hneg : gs < 0
  · -- shift left by k
    simp only [hneg, if_true]
    obtain ⟨k, hk⟩ : ∃ k : Nat, gs = -(k : Int) := ⟨(-gs).toNat, by omega⟩
    have hkp : 1 ≤ k := by omega
    have hD : Dr = 2^62 * Dy * 2^k := by
      rw [hDr, hDy]
      have : (2:Int)^62 * (2^(64 - ys).toNat * 2^(64 * (y.length - 1))) * 2^k
          = 2^(62 + ((64 - ys).toNat + 64 * (y.length - 1)) + k) := by
        rw [pow_add, pow_add, pow_add]
      rw [this, ← pow_add]; congr 1; omega
    have hV : |gg.toInt * 2^k * val y - val r| * 2^20 ≤ |val r| := by
      have e1 : gg.toInt * val y * Dr - 2^62 * val r * Dy = (2^62 * Dy) * (gg.toInt * 2^k * val y - val r) := by
        rw [hD]; ring
      have hpos : 0 < 2^62 * Dy := by positivity
      rw [e1, abs_mul, abs_of_pos hpos] at hrel
      have : (2^62 * Dy) * (|gg.toInt * 2^k * val y - val r| * 2^20) ≤ (2^62 * Dy) * |val r| := by
        calc _ = (2^62 * Dy) * |gg.toInt * 2^k * val y - val r| * 2^20 := by ring
          _ ≤ 2^62 * |val r| * Dy := hrel
          _ = _ := by ring
      exact le_of_mul_le_mul_left this hpos
    -- size of the shifted estimate
    have hVb : |gg.toInt * 2^k| * 2^20 ≤ 2^64 * (2^20 + 1) := by
      have h1 := abs_sub_abs_le_abs_sub (gg.toInt * 2^k * val y) (val r)
      rw [abs_mul (gg.toInt * 2^k)] at h1
      have h2 : |gg.toInt * 2^k| * |val y| * 2^20 ≤ |val r| * (2^20 + 1) := by nlinarith
      have h3 : |gg.toInt * 2^k| * 2^20 * |val y| ≤ 2^64 * (2^20 + 1) * |val y| := by nlinarith
      exact le_of_mul_le_mul_right h3 (by omega)
    have hVabs : |gg.toInt * 2^k| = |gg.toInt| * 2^k := by
      rw [abs_mul, abs_of_pos (show (0:Int) < 2^k by positivity)]
    have hk5 : k ≤ 5 := by
      by_contra hcon
      have : (2:Int)^6 ≤ 2^k := pow_le_pow_int (by omega)
      have : 2^59 * 2^6 ≤ |gg.toInt| * 2^k := mul_le_mul hG59 this (by norm_num) (abs_nonneg _)
      omega
    have hkk : (-gs).toNat = k := by omega
    rw [if_neg (by omega), hkk]
    exact guess_left gg k (val r) (val y) hkp hG59 (by omega) hV hX
  · -- gs ≥ 0
    rw [if_neg hneg]
    obtain ⟨k, hk⟩ : ∃ k : Nat, gs = k := ⟨gs.toNat, by omega⟩
    have hD : 2^62 * Dy = 2^k * Dr := by
      rw [hDr, hDy, ← pow_add, ← pow_add, ← pow_add, ← pow_add]; congr 1; omega
    have hV : |gg.toInt * val y - 2^k * val r| * 2^20 ≤ 2^k * |val r| := by
      have e1 : gg.toInt * val y * Dr - 2^62 * val r * Dy = Dr * (gg.toInt * val y - 2^k * val r) := by
        have : 2^62 * val r * Dy = val r * (2^62 * Dy) := by ring
        rw [this, hD]; ring
      rw [e1, abs_mul, abs_of_pos hDrp] at hrel
      have : Dr * (|gg.toInt * val y - 2^k * val r| * 2^20) ≤ Dr * (2^k * |val r|) := by
        calc _ = Dr * |gg.toInt * val y - 2^k * val r| * 2^20 := by ring
          _ ≤ 2^62 * |val r| * Dy := hrel
          _ = |val r| * (2^62 * Dy) := by ring
          _ = _ := by rw [hD]; ring
      exact le_of_mul_le_mul_left this hDrp
    have hpk : (0:Int) < 2^k := by positivity
    have hk63 : k ≤ 63 := by
      by_contra hcon
      have h64 : (2:Int)^64 ≤ 2^k := pow_le_pow_int (by omega)
      have h1 := abs_sub_abs_le_abs_sub (2^k * val r) (gg.toInt * val y)
      rw [abs_sub_comm, abs_mul, abs_mul, abs_of_pos hpk] at h1
      have h2 : |gg.toInt| * |val y| ≤ 2^63 * |val r| := mul_le_mul hG63 hge (abs_nonneg _) (by norm_num)
      have h3 : 2^64 * |val r| ≤ 2^k * |val r| := mul_le_mul_of_nonneg_right h64 (abs_nonneg _)
      nlinarith
    by_cases hk0 : gs = 0
    · rw [if_pos hk0]
      have : k = 0 := by omega
      subst this
      refine ⟨_, rfl, ?_⟩
      exact guess_right gg.toInt (val r) (val y) gg.toInt (2^0) hpk hge hX hV (by simp)
    · rw [if_neg hk0, if_neg (by omega)]
      have hkk : gs.toNat = k := by omega
      rw [hkk]
      have hround := round_spec gg k (by omega) hk63
      simp only at hround
      generalize gg.sshiftRight k + (gg.sshiftRight (k - 1) &&& 1#64) = zf at *
      have hfin := guess_right gg.toInt (val r) (val y) zf.toInt (2^k) hpk hge hX hV hround
      have hzf : zf ≠ 0#64 := by
        rintro rfl
        have : (0#64).toInt = 0 := by decide
        rw [this] at hfin; simp at hfin
      rw [if_neg hzf]
      exact ⟨_, rfl, hfin⟩

end Voss.Arbi
