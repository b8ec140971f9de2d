import Verif.Arbi.DivLemmas
import Mathlib.Algebra.Order.Field.Rat
import Mathlib.Tactic.FieldSimp
import Mathlib.Tactic.NormNum
/- Helper lemmas: the quotient guess of `divmod` always makes progress. -/
namespace Voss.Arbi

theorem shl_toNat (w : W) (k : Nat) : (w <<< k).toNat = w.toNat * 2^k % 2^64 := by
  rw [BitVec.toNat_shiftLeft, Nat.shiftLeft_eq]

/-- Sign bit of a left shift when no significant bit is lost. -/
theorem shl_msb_pos (w : W) (k : Nat) (hk : k ≤ 63) (h0 : 0 ≤ w.toInt) (h : w.toInt < 2^(64-k)) :
    (isNeg (w <<< k) = true ↔ 2^(63-k) ≤ w.toInt) := by
  have hw : w.toInt = w.toNat := by
    rcases toInt_cases w with ⟨a, b, c⟩ | ⟨a, b, c⟩ <;> omega
  rw [hw] at h ⊢
  have hpk : 2^(64-k) * 2^k = 2^64 := by rw [← pow_add]; congr 1; omega
  have hpk3 : 2^(63-k) * 2^k = 2^63 := by rw [← pow_add]; congr 1; omega
  have h' : w.toNat < 2^(64-k) := by exact_mod_cast h
  have hlt : w.toNat * 2^k < 2^64 := by
    rw [← hpk]; exact Nat.mul_lt_mul_of_pos_right h' (by positivity)
  have e := shl_toNat w k
  rw [Nat.mod_eq_of_lt hlt] at e
  have h3 : (2^(63-k) ≤ w.toNat) ↔ 2^63 ≤ w.toNat * 2^k := by
    rw [← hpk3]; exact (Nat.mul_le_mul_right_iff (by positivity)).symm
  have : ((2:Int)^(63-k) ≤ w.toNat) ↔ 2^63 ≤ w.toNat * 2^k := by
    rw [← h3]; constructor <;> intro hh <;> exact_mod_cast hh
  rw [this, ← e]
  unfold isNeg
  rcases toInt_cases (w <<< k) with ⟨a, b, c⟩ | ⟨a, b, c⟩ <;> simp [a] <;> omega

theorem shl_msb_neg (w : W) (k : Nat) (hk : k ≤ 63) (h0 : w.toInt < 0) (h : -2^(64-k) ≤ w.toInt) :
    (isNeg (w <<< k) = false ↔ w.toInt < -2^(63-k)) := by
  have hw : w.toInt = w.toNat - 2^64 ∧ 2^63 ≤ w.toNat ∧ w.toNat < 2^64 := by
    rcases toInt_cases w with ⟨a, b, c⟩ | ⟨a, b, c⟩ <;> omega
  obtain ⟨m, hm⟩ : ∃ m : Nat, m + w.toNat = 2^64 := ⟨2^64 - w.toNat, by omega⟩
  have hwm : w.toInt = -(m:Int) := by omega
  rw [hwm] at h ⊢
  have hpk : 2^(64-k) * 2^k = 2^64 := by rw [← pow_add]; congr 1; omega
  have hpk3 : 2^(63-k) * 2^k = 2^63 := by rw [← pow_add]; congr 1; omega
  have h' : m ≤ 2^(64-k) := by
    have : (m:Int) ≤ 2^(64-k) := by omega
    exact_mod_cast this
  have hle : m * 2^k ≤ 2^64 := by
    rw [← hpk]; exact Nat.mul_le_mul_right _ h'
  have hkk : 2^64 ≤ 2^64 * 2^k := Nat.le_mul_of_pos_right _ (by positivity)
  have e := shl_toNat w k
  have e2 : w.toNat * 2^k + m * 2^k = 2^64 * 2^k := by rw [← Nat.add_mul]; congr 1; omega
  have h3 : (2^(63-k) < m) ↔ 2^63 < m * 2^k := by
    rw [← hpk3]; exact (Nat.mul_lt_mul_right (by positivity)).symm
  have hgoal : (-(m:Int) < -2^(63-k)) ↔ 2^63 < m * 2^k := by
    rw [← h3]
    have : (-(m:Int) < -2^(63-k)) ↔ (2:Int)^(63-k) < m := by omega
    rw [this]; constructor <;> intro hh <;> exact_mod_cast hh
  rw [hgoal]
  have hm1 : 1 ≤ m * 2^k := Nat.mul_pos (by omega) (by positivity)
  have e3 : w.toNat * 2^k % 2^64 = (2^64 - m * 2^k) % 2^64 := by
    obtain ⟨q, hq⟩ : ∃ q, 2^64 * 2^k = 2^64 * q + 2^64 := ⟨2^k - 1, by rw [← Nat.mul_succ]; congr 1; have : 0 < 2^k := by positivity
                                                                       omega⟩
    have : w.toNat * 2^k = (2^64 - m*2^k) + 2^64 * q := by omega
    rw [this, Nat.add_mul_mod_self_left]
  rw [e3] at e
  unfold isNeg
  generalize m * 2^k = M at *
  rcases toInt_cases (w <<< k) with ⟨a, b, c⟩ | ⟨a, b, c⟩ <;> simp [a] <;> omega

/-- What the normalising loops compute. -/
theorem signShift_spec (w : W) (h0 : w ≠ 0#64) (h1 : w ≠ -1#64) :
    ∀ (n k : Nat), 1 ≤ k → n + k = 65 → 
      (0 ≤ w.toInt → w.toInt < 2^(64-k)) → (w.toInt < 0 → -2^(64-k) ≤ w.toInt) →
      1 ≤ signShift w n k ∧ signShift w n k ≤ 63 ∧
      (0 ≤ w.toInt → 2^(63 - signShift w n k) ≤ w.toInt ∧ w.toInt < 2^(64 - signShift w n k)) ∧
      (w.toInt < 0 → -2^(64 - signShift w n k) ≤ w.toInt ∧ w.toInt < -2^(63 - signShift w n k)) := by
  have hw0 : w.toInt ≠ 0 := mt (toInt_zero_iff w).mpr h0
  have hw1 : w.toInt ≠ -1 := by
    intro hh; apply h1; apply BitVec.eq_of_toInt_eq; rw [hh]; decide
  intro n
  induction n with
  | zero => intro k hk1 hk2 hp hn; exfalso
            have : k = 65 := by omega
            subst this
            simp at hp hn; omega
  | succ n ih =>
    intro k hk1 hk2 hp hn
    have hk63 : k ≤ 63 := by
      by_contra hc
      have : k = 64 := by omega
      subst this
      simp at hp hn; omega
    rw [signShift]
    have hs := isNeg_iff w
    by_cases hneg : w.toInt < 0
    · have hsh := shl_msb_neg w k hk63 hneg (hn hneg)
      have e1 : isNeg w = true := hs.mpr hneg
      rw [e1]
      rcases hb : isNeg (w <<< k) with _ | _
      · simp only [hb, true_iff] at hsh
        simp only [beq_iff_eq, Bool.true_eq_false, if_false]
        refine ⟨hk1, hk63, by omega, fun _ => ⟨hn hneg, hsh⟩⟩
      · simp only [hb, Bool.true_eq_false, false_iff] at hsh
        simp only [beq_self_eq_true, if_true]
        refine ih (k+1) (by omega) (by omega) (by omega) ?_
        intro _
        rw [show 64 - (k+1) = 63 - k by omega]; omega
    · have hsh := shl_msb_pos w k hk63 (by omega) (hp (by omega))
      have e1 : isNeg w = false := by rw [← Bool.not_eq_true, hs]; exact hneg
      rw [e1]
      rcases hb : isNeg (w <<< k) with _ | _
      · simp only [hb, Bool.false_eq_true, false_iff] at hsh
        simp only [beq_self_eq_true, if_true]
        refine ih (k+1) (by omega) (by omega) ?_ (by omega)
        intro _
        rw [show 64 - (k+1) = 63 - k by omega]; omega
      · simp only [hb, true_iff] at hsh
        simp only [beq_iff_eq, Bool.false_eq_true, if_false]
        refine ⟨hk1, hk63, fun _ => ⟨hsh, hp (by omega)⟩, by omega⟩

theorem sshr_toInt (w : W) (n : Nat) : (w.sshiftRight n).toInt = w.toInt / 2^n := by
  rw [BitVec.toInt_sshiftRight, Int.shiftRight_eq_div_pow]; norm_cast

theorem shr_toNat (w : W) (n : Nat) : (w >>> n).toNat = w.toNat / 2^n := by
  rw [BitVec.toNat_ushiftRight, Nat.shiftRight_eq_div_pow]

theorem shl_toInt (w : W) (s : Nat) (h1 : -2^63 ≤ w.toInt * 2^s) (h2 : w.toInt * 2^s < 2^63) :
    (w <<< s).toInt = w.toInt * 2^s := by
  apply ofInt_toInt _ _ h1 h2
  rw [BitVec.toInt_shiftLeft, Nat.shiftLeft_eq]
  have : ((w.toNat * 2^s : Nat) : Int) = w.toInt * 2^s + (if w.msb then 2^64 * 2^s else 0) := by
    push_cast
    rcases toInt_cases w with ⟨a, b, c⟩ | ⟨a, b, c⟩ <;> simp [a, b] <;> ring
  rw [this]
  split
  · have : ((2:Int)^64 * 2^s) = ((2^64 : Nat) : Int) * 2^s := by norm_cast
    rw [this, Int.add_mul_bmod_self_left]
  · rw [Int.add_zero]

/-- `or` of a number without low bits and a small number is their sum. -/
theorem or_add (a b : W) (s : Nat) (ha : 2^s ∣ a.toNat) (hb : b.toNat < 2^s) :
    (a ||| b).toNat = a.toNat + b.toNat := by
  rw [BitVec.toNat_or]
  obtain ⟨q, hq⟩ := ha
  rw [hq, ← Nat.two_pow_add_eq_or_of_lt hb]

/-- What `scale` computes from the two leading digits. -/
structure ScaleSpec (c : Nat) (t : W) (lo : Option W) (z : W) (s : Int) : Prop where
  lo_s : -(c:Int) + 1 ≤ s
  hi_s : s ≤ 64 - c
  floor : z.toInt = (t.toInt * 2^64 + (lo.getD 0#64).toNat) / 2^(64 - s).toNat
  range : (0 ≤ t.toInt ∧ 2^(63-c) ≤ z.toInt ∧ z.toInt < 2^(64-c)) ∨
          (t.toInt < 0 ∧ -2^(64-c) ≤ z.toInt ∧ z.toInt < -2^60)

theorem scale_spec (c : Nat) (hc : c = 2 ∨ c = 3) (t : W) (lo : Option W)
    (h0 : t = 0#64 → ∃ l, lo = some l ∧ l.toInt < 0) (h1 : t = -1#64 → ∃ l, lo = some l ∧ 0 ≤ l.toInt) :
    ∃ z s, scale c t lo = .ok (z, s) ∧ ScaleSpec c t lo z s := by
  unfold scale
  by_cases ht0 : t = 0#64
  · obtain ⟨l, rfl, hl⟩ := h0 ht0
    subst ht0
    simp only [if_true]
    refine ⟨_, _, rfl, ?_⟩
    have hln : 2^63 ≤ l.toNat ∧ l.toNat < 2^64 := by
      rcases toInt_cases l with ⟨a, b, c⟩ | ⟨a, b, c⟩ <;> omega
    have e := shr_toNat l c
    have e0 : (0#64).toInt = 0 := by decide
    rcases hc with rfl | rfl
    · have : (l >>> 2).toInt = l.toNat / 4 := by
        rcases toInt_cases (l >>> 2) with ⟨a, b, c⟩ | ⟨a, b, c⟩ <;> omega
      refine ⟨by norm_num, by norm_num, ?_, Or.inl ⟨by rw [e0], ?_⟩⟩
      · rw [this, e0]; simp
      · rw [this]; omega
    · have : (l >>> 3).toInt = l.toNat / 8 := by
        rcases toInt_cases (l >>> 3) with ⟨a, b, c⟩ | ⟨a, b, c⟩ <;> omega
      refine ⟨by norm_num, by norm_num, ?_, Or.inl ⟨by rw [e0], ?_⟩⟩
      · rw [this, e0]; simp
      · rw [this]; omega
  · rw [if_neg ht0]
    by_cases ht1 : t = -1#64
    · obtain ⟨l, rfl, hl⟩ := h1 ht1
      subst ht1
      simp only [if_true]
      refine ⟨_, _, rfl, ?_⟩
      have e1 : (-1#64).toInt = -1 := by decide
      have hln : l.toInt = l.toNat ∧ l.toNat < 2^63 := by
        rcases toInt_cases l with ⟨a, b, c⟩ | ⟨a, b, c⟩ <;> omega
      have ea : (l.sshiftRight 1).toNat = l.toNat / 2 := by
        have := sshr_toInt l 1
        rcases toInt_cases (l.sshiftRight 1) with ⟨a, b, c⟩ | ⟨a, b, c⟩ <;> omega
      have emin : minWord.toNat = 2^63 := by decide
      have eor : (l.sshiftRight 1 ||| minWord).toNat = 2^63 + l.toNat / 2 := by
        rw [BitVec.or_comm, or_add _ _ 63 (by rw [emin]) (by rw [ea]; omega), ea, emin]
      have eoi : (l.sshiftRight 1 ||| minWord).toInt = (l.toNat / 2 : Int) - 2^63 := by
        rcases toInt_cases (l.sshiftRight 1 ||| minWord) with ⟨a, b, c⟩ | ⟨a, b, c⟩ <;> omega
      have ez := sshr_toInt (l.sshiftRight 1 ||| minWord) 2
      rw [eoi] at ez
      refine ⟨by rcases hc with rfl | rfl <;> norm_num, by rcases hc with rfl | rfl <;> norm_num, ?_, Or.inr ⟨by rw [e1]; norm_num, ?_⟩⟩
      · rw [ez, e1]; simp; omega
      · rcases hc with rfl | rfl <;> omega
    · rw [if_neg ht1]
      have hb := toInt_bounds t
      obtain ⟨k1, k2, k3, k4⟩ := signShift_spec t ht0 ht1 64 1 (by omega) (by omega) (by norm_num; omega) (by norm_num; omega)
      generalize signShift t 64 1 = k at *
      simp only
      have hk : ∃ d, c + d = k ∨ k + d + 1 = c := by
        by_cases h : c ≤ k
        · exact ⟨k - c, Or.inl (by omega)⟩
        · exact ⟨c - k - 1, Or.inr (by omega)⟩
      split
      · -- negative scale
        rename_i hneg
        refine ⟨_, _, rfl, ?_⟩
        have hcase : (c = 2 ∧ k = 1) ∨ (c = 3 ∧ k = 1) ∨ (c = 3 ∧ k = 2) := by omega
        have hl := (lo.getD 0#64).isLt
        rcases hcase with ⟨rfl, rfl⟩ | ⟨rfl, rfl⟩ | ⟨rfl, rfl⟩
        · have ez := sshr_toInt t 1
          refine ⟨by norm_num, by norm_num, ?_, ?_⟩
          · change (t.sshiftRight 1).toInt = (t.toInt * 2^64 + ((lo.getD 0#64).toNat : Int)) / 2^65
            rw [ez]; omega
          · change (0 ≤ t.toInt ∧ _ ≤ (t.sshiftRight 1).toInt ∧ (t.sshiftRight 1).toInt < _) ∨ (t.toInt < 0 ∧ _ ≤ (t.sshiftRight 1).toInt ∧ (t.sshiftRight 1).toInt < _)
            rw [ez]; norm_num at k3 k4 ⊢; omega
        · have ez := sshr_toInt t 2
          refine ⟨by norm_num, by norm_num, ?_, ?_⟩
          · change (t.sshiftRight 2).toInt = (t.toInt * 2^64 + ((lo.getD 0#64).toNat : Int)) / 2^66
            rw [ez]; omega
          · change (0 ≤ t.toInt ∧ _ ≤ (t.sshiftRight 2).toInt ∧ (t.sshiftRight 2).toInt < _) ∨ (t.toInt < 0 ∧ _ ≤ (t.sshiftRight 2).toInt ∧ (t.sshiftRight 2).toInt < _)
            rw [ez]; norm_num at k3 k4 ⊢; omega
        · have ez := sshr_toInt t 1
          refine ⟨by norm_num, by norm_num, ?_, ?_⟩
          · change (t.sshiftRight 1).toInt = (t.toInt * 2^64 + ((lo.getD 0#64).toNat : Int)) / 2^65
            rw [ez]; omega
          · change (0 ≤ t.toInt ∧ _ ≤ (t.sshiftRight 1).toInt ∧ (t.sshiftRight 1).toInt < _) ∨ (t.toInt < 0 ∧ _ ≤ (t.sshiftRight 1).toInt ∧ (t.sshiftRight 1).toInt < _)
            rw [ez]; norm_num at k3 k4 ⊢; omega
      · rename_i hnn
        -- scale s = k - c ≥ 0
        obtain ⟨s, hs⟩ : ∃ s : Nat, k = c + s := ⟨k - c, by omega⟩
        have hsi : (k:Int) - c = s := by omega
        rw [hsi]
        have hs61 : s ≤ 61 := by omega
        have hpw : ((2:Int)^(63-k)) * 2^s = 2^(63-c) := by rw [← pow_add]; congr 1; omega
        have hpw2 : ((2:Int)^(64-k)) * 2^s = 2^(64-c) := by rw [← pow_add]; congr 1; omega
        have hps : (0:Int) < 2^s := by positivity
        have hrange : (0 ≤ t.toInt ∧ 2^(63-c) ≤ t.toInt * 2^s ∧ (t.toInt + 1) * 2^s ≤ 2^(64-c)) ∨
            (t.toInt < 0 ∧ -2^(64-c) ≤ t.toInt * 2^s ∧ (t.toInt + 1) * 2^s ≤ -2^(63-c)) := by
          by_cases hneg : t.toInt < 0
          · right
            have := k4 hneg
            refine ⟨hneg, ?_, ?_⟩
            · rw [← hpw2, ← neg_mul]; exact Int.mul_le_mul_of_nonneg_right this.1 hps.le
            · rw [← hpw, ← neg_mul]; exact Int.mul_le_mul_of_nonneg_right (by omega) hps.le
          · left
            have := k3 (by omega)
            refine ⟨by omega, ?_, ?_⟩
            · rw [← hpw]; exact Int.mul_le_mul_of_nonneg_right this.1 hps.le
            · rw [← hpw2]; exact Int.mul_le_mul_of_nonneg_right (by omega) hps.le
        have hsum : (t.toInt + 1) * 2^s = t.toInt * 2^s + 2^s := by ring
        have hcpow : ((2:Int)^(63-c) = 2^61 ∧ (2:Int)^(64-c) = 2^62) ∨ ((2:Int)^(63-c) = 2^60 ∧ (2:Int)^(64-c) = 2^61) := by
          rcases hc with rfl | rfl
          · left; exact ⟨rfl, rfl⟩
          · right; exact ⟨rfl, rfl⟩
        have hshl : (t <<< s).toInt = t.toInt * 2^s := by
          apply shl_toInt
          · rcases hcpow with ⟨h1, h2⟩ | ⟨h1, h2⟩ <;> rw [h1, h2] at hrange <;> omega
          · rcases hcpow with ⟨h1, h2⟩ | ⟨h1, h2⟩ <;> rw [h1, h2] at hrange <;> omega
        have hexp : (64 - (s:Int)).toNat = 64 - s := by omega
        have hp64 : (2:Int)^64 = 2^s * 2^(64-s) := by rw [← pow_add]; congr 1; omega
        have hdiv : ∀ l : Nat, (t.toInt * 2^64 + l) / 2^(64-s) = t.toInt * 2^s + ((l / 2^(64-s) : Nat) : Int) := by
          intro l
          rw [hp64, ← mul_assoc, Int.add_comm, Int.add_mul_ediv_right _ _ (by positivity)]
          push_cast; ring
        have hexact : ScaleSpec c t none (t <<< s) s := by
          refine ⟨by omega, by omega, ?_, ?_⟩
          · rw [hexp, hshl]
            have := hdiv 0
            simp at this
            simp [this]
          · rw [hshl]
            rcases hcpow with ⟨h1, h2⟩ | ⟨h1, h2⟩ <;> rw [h1, h2] at hrange ⊢ <;> omega
        cases lo with
        | none => exact ⟨_, _, rfl, by simpa using hexact⟩
        | some l =>
          simp only
          have hll := l.isLt
          split
          · rename_i hs0
            have hs0' : s = 0 := by omega
            refine ⟨_, _, rfl, ?_⟩
            refine ⟨by omega, by omega, ?_, ?_⟩
            · rw [hexp]; simp only [Int.toNat_natCast]; rw [hshl, Option.getD_some, hdiv]
              have : l.toNat / 2^(64-s) = 0 := by rw [hs0']; exact Nat.div_eq_of_lt hll
              rw [this]; simp
            · simp only [Int.toNat_natCast]; rw [hshl]
              rcases hcpow with ⟨h1, h2⟩ | ⟨h1, h2⟩ <;> rw [h1, h2] at hrange ⊢ <;> omega
          · rename_i hs0
            refine ⟨_, _, rfl, ?_⟩
            simp only [Int.toNat_natCast]
            rw [hexp]
            have hlow : (l >>> (64 - s)).toNat < 2^s := by
              rw [shr_toNat]
              apply Nat.div_lt_of_lt_mul
              rw [← pow_add]; rw [show 64 - s + s = 64 by omega]; exact hll
            have hdvd : 2^s ∣ (t <<< s).toNat := by
              rw [shl_toNat]
              have h64 : 2^s ∣ 2^64 := pow_dvd_pow 2 (by omega)
              exact (Nat.dvd_mod_iff h64).mpr (Dvd.intro_left _ rfl)
            have hor := or_add (t <<< s) (l >>> (64-s)) s hdvd hlow
            have hzi : ((t <<< s) ||| (l >>> (64-s))).toInt = t.toInt * 2^s + ((l.toNat / 2^(64-s) : Nat) : Int) := by
              rw [← shr_toNat, ← hshl]
              have hm1 := toInt_cases (t <<< s)
              have hm2 := toInt_cases ((t <<< s) ||| (l >>> (64-s)))
              have hlow' : ((l >>> (64 - s)).toNat : Int) < 2^s := by exact_mod_cast hlow
              rw [hshl] at hm1
              rw [hshl]
              rcases hcpow with ⟨h1, h2⟩ | ⟨h1, h2⟩ <;> rw [h1, h2] at hrange <;> omega
            have hlow' : ((l.toNat / 2^(64 - s) : Nat) : Int) < 2^s := by
              rw [← shr_toNat]; exact_mod_cast hlow
            have hlow0 : 0 ≤ ((l.toNat / 2^(64 - s) : Nat) : Int) := Int.natCast_nonneg _
            refine ⟨by omega, by omega, ?_, ?_⟩
            · rw [hexp, hzi, Option.getD_some, hdiv]
            · rw [hzi]
              rcases hcpow with ⟨h1, h2⟩ | ⟨h1, h2⟩ <;> rw [h1, h2] at hrange ⊢ <;> omega

end Voss.Arbi
