import Verif.Arbi.DivTotal
import Verif.Arbi.StrModel
/- Helper lemmas for gcd. -/
namespace Voss.Arbi

theorem cmod_pos (a b : W) (ha : 0 ≤ a.toInt) (hb : 0 < b.toInt) :
    ∃ c, cmod a b = .ok c ∧ c.toInt = a.toInt % b.toInt := by
  have hb0 : b ≠ 0#64 := by rintro rfl; simp at hb
  have hbm : ¬ (a = minWord ∧ b = -1#64) := by
    rintro ⟨_, rfl⟩; revert hb; decide
  refine ⟨a.srem b, ?_, ?_⟩
  · simp only [cmod, hb0, if_false]; rw [if_neg hbm]
  · rw [BitVec.toInt_srem, Int.tmod_eq_emod_of_nonneg ha]

theorem gcdWord_spec : ∀ (n : Nat) (wx wy : W), 0 ≤ wx.toInt → 0 ≤ wy.toInt → wy.toInt ≤ n →
    ∃ g, (∀ fuel, n + 1 ≤ fuel → gcdWord fuel wx wy = some (.ok g)) ∧ Norm g ∧ val g = Int.gcd wx.toInt wy.toInt := by
  intro n
  induction n with
  | zero =>
    intro wx wy hx hy hn
    have h0 : wy = 0#64 := by apply BitVec.eq_of_toInt_eq; simp; omega
    subst h0
    refine ⟨fromWord wx, fun fuel hf => ?_, norm_single _, ?_⟩
    · obtain ⟨f, rfl⟩ : ∃ f, fuel = f + 1 := ⟨fuel - 1, by omega⟩
      simp [gcdWord]
    · simp [fromWord, abs_of_nonneg hx]
  | succ n ih =>
    intro wx wy hx hy hn
    by_cases h0 : wy = 0#64
    · subst h0
      refine ⟨fromWord wx, fun fuel hf => ?_, norm_single _, ?_⟩
      · obtain ⟨f, rfl⟩ : ∃ f, fuel = f + 1 := ⟨fuel - 1, by omega⟩
        simp [gcdWord]
      · simp [fromWord, abs_of_nonneg hx]
    · have hp : 0 < wy.toInt := by
        have := mt (toInt_zero_iff wy).mpr h0; omega
      obtain ⟨c, hc, hcv⟩ := cmod_pos wx wy hx hp
      have hc0 := Int.emod_nonneg wx.toInt hp.ne'
      have hc1 := Int.emod_lt_of_pos wx.toInt hp
      have hg : Int.gcd wx.toInt wy.toInt = Int.gcd c.toInt wy.toInt := by
        rw [hcv, Int.gcd_emod]
      by_cases hcz : c = 0#64
      · refine ⟨fromWord wy, fun fuel hf => ?_, norm_single _, ?_⟩
        · obtain ⟨f, rfl⟩ : ∃ f, fuel = f + 1 := ⟨fuel - 1, by omega⟩
          simp [gcdWord, h0, hc, hcz]
        · rw [hg, hcz]; simp [fromWord, abs_of_nonneg hy]
      · have hcp : 0 < c.toInt := by
          have := mt (toInt_zero_iff c).mpr hcz; omega
        obtain ⟨d, hd, hdv⟩ := cmod_pos wy c hy hcp
        have hd0 := Int.emod_nonneg wy.toInt hcp.ne'
        have hd1 := Int.emod_lt_of_pos wy.toInt hcp
        obtain ⟨g, h1, h2, h3⟩ := ih c d (by omega) (by omega) (by omega)
        refine ⟨g, fun fuel hf => ?_, h2, ?_⟩
        · obtain ⟨f, rfl⟩ : ∃ f, fuel = f + 1 := ⟨fuel - 1, by omega⟩
          simp only [gcdWord, h0, hc, hcz, hd, if_false]
          exact h1 f (by omega)
        · rw [h3, hg, hdv, Int.gcd_comm, Int.gcd_emod, Int.gcd_comm]

theorem nonneg_ne_min (y : List W) (h : 0 ≤ val y) : y ≠ [minWord] := by
  rintro rfl; revert h; decide

theorem gcdLoop_spec : ∀ (n : Nat) (ax ay : List W), Norm ax → Norm ay → 0 ≤ val ay → val ay ≤ val ax → val ay ≤ n →
    ∃ N g, (∀ mfuel fuel, N ≤ mfuel → N ≤ fuel → gcdLoop mfuel fuel ax ay = some (.ok g)) ∧ Norm g ∧
      val g = Int.gcd (val ax) (val ay) := by
  intro n
  induction n with
  | zero =>
    intro ax ay hx hy h0 hle hn
    have hz : val ay = 0 := by omega
    refine ⟨1, ax, fun mfuel fuel _ hf => ?_, hx, ?_⟩
    · obtain ⟨f, rfl⟩ : ∃ f, fuel = f + 1 := ⟨fuel - 1, by omega⟩
      have : cmp0 ay = 0 := by rw [cmp0_spec ay hy, hz]; rfl
      simp [gcdLoop, this]
    · rw [hz]; simp; rw [abs_of_nonneg (by omega)]
  | succ n ih =>
    intro ax ay hx hy h0 hle hn
    by_cases hz : val ay = 0
    · refine ⟨1, ax, fun mfuel fuel _ hf => ?_, hx, ?_⟩
      · obtain ⟨f, rfl⟩ : ∃ f, fuel = f + 1 := ⟨fuel - 1, by omega⟩
        have : cmp0 ay = 0 := by rw [cmp0_spec ay hy, hz]; rfl
        simp [gcdLoop, this]
      · rw [hz]; simp; rw [abs_of_nonneg (by omega)]
    · have hc : cmp0 ay ≠ 0 := by
        rw [cmp0_spec ay hy, ne_eq, icmp_eq_zero]; exact hz
      by_cases hs : ∃ wx, ax = [wx]
      · obtain ⟨wx, rfl⟩ := hs
        have hb := val_bounds [wx] (by simp)
        have ly : ay.length = 1 := by
          by_contra hne
          have := List.length_pos_iff.mpr hy.ne_nil
          have hl := norm_abs_lower ay hy (by omega)
          have hp := pow_le_pow_int (show 63 ≤ 64 * (ay.length - 1) - 1 by omega)
          simp only [List.length_singleton] at hb
          norm_num at hp
          omega
        obtain ⟨wy, rfl⟩ := List.length_eq_one_iff.mp ly
        have e1 : val [wx] = wx.toInt := by simp
        have e2 : val [wy] = wy.toInt := by simp
        rw [e1, e2] at hle
        rw [e2] at h0 hn
        obtain ⟨g, h1, h2, h3⟩ := gcdWord_spec (n+1) wx wy (by omega) (by omega) hn
        refine ⟨n + 2, g, fun mfuel fuel hm hf => ?_, h2, ?_⟩
        · obtain ⟨f, rfl⟩ : ∃ f, fuel = f + 1 := ⟨fuel - 1, by omega⟩
          simp only [gcdLoop, hc, if_false, List.headD_cons]
          exact h1 mfuel (by omega)
        · rw [h3, e1, e2]
      · obtain ⟨N, q, r, _, hm, _, hr, hf⟩ := div_mod_total ax ay hx hy hz (nonneg_ne_min ay h0)
        have hp : 0 < val ay := by omega
        obtain ⟨f1, f2, _⟩ := hf
        have f2 := f2 hp
        obtain ⟨N', g, g1, g2, g3⟩ := ih ay r hy hr f2.1 (by omega) (by omega)
        refine ⟨max N N' + 1, g, fun mfuel fuel hmf hfu => ?_, g2, ?_⟩
        · obtain ⟨f, rfl⟩ : ∃ f, fuel = f + 1 := ⟨fuel - 1, by omega⟩
          have hx1 : gcdLoop mfuel (f+1) ax ay = match mod mfuel ax ay with
              | none => none
              | some (.ok t) => gcdLoop mfuel f ay t
              | some _ => some .ub := by
            conv_lhs => unfold gcdLoop
            rw [if_neg hc]
            split
            · exact absurd ⟨_, rfl⟩ hs
            · rfl
          rw [hx1, hm mfuel (by omega)]
          exact g1 mfuel f (by omega) (by omega)
        · rw [g3, f1, mul_comm]
          congr 1
          rw [Int.gcd_comm (val ay * val q + val r), add_comm, Int.gcd_add_mul_left_right]

theorem gcd_spec (x y : List W) (hx : Norm x) (hy : Norm y) :
    ∃ N g, (∀ fuel, N ≤ fuel → gcd fuel x y = some (.ok g)) ∧ Norm g ∧ val g = Int.gcd (val x) (val y) := by
  have a1 := abs_spec x hx
  have a2 := abs_spec y hy
  unfold gcd
  by_cases h : cmp (abs x) (abs y) < 0
  · have hlt : |val x| < |val y| := by
      rw [cmp_spec _ _ a1.2 a2.2, a1.1, a2.1] at h
      unfold icmp at h; split at h
      · assumption
      · split at h <;> omega
    obtain ⟨N, g, g1, g2, g3⟩ := gcdLoop_spec (val x).natAbs (abs y) (abs x) a2.2 a1.2 (by rw [a1.1]; exact abs_nonneg _)
      (by rw [a1.1, a2.1]; omega) (by rw [a1.1, Int.abs_eq_natAbs])
    refine ⟨N, g, fun fuel hf => ?_, g2, ?_⟩
    · simp only [h, if_true]; exact g1 _ _ hf hf
    · rw [g3, a1.1, a2.1, Int.gcd_comm]; simp [Int.gcd, Int.natAbs_abs]
  · have hle : |val y| ≤ |val x| := by
      rw [cmp_spec _ _ a1.2 a2.2, a1.1, a2.1] at h
      by_contra hc
      apply h; unfold icmp; rw [if_pos (by omega)]; decide
    obtain ⟨N, g, g1, g2, g3⟩ := gcdLoop_spec (val y).natAbs (abs x) (abs y) a1.2 a2.2 (by rw [a2.1]; exact abs_nonneg _)
      (by rw [a1.1, a2.1]; omega) (by rw [a2.1, Int.abs_eq_natAbs])
    refine ⟨N, g, fun fuel hf => ?_, g2, ?_⟩
    · simp only [h, if_false]; exact g1 _ _ hf hf
    · rw [g3, a1.1, a2.1]; simp [Int.gcd, Int.natAbs_abs]

end Voss.Arbi
