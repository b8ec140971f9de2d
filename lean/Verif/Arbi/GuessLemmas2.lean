import Verif.Arbi.GuessLemmas
/- Helper lemmas: the quotient guess of `divmod` always makes progress (continued). -/
namespace Voss.Arbi

theorem tdiv_facts (z b : Int) (hb : b ≠ 0) :
    z = b * z.tdiv b + z.tmod b ∧ |z.tmod b| < |b| ∧ |z.tdiv b| * |b| ≤ |z| := by
  refine ⟨(Int.mul_tdiv_add_tmod z b).symm, ?_, ?_⟩
  · rw [Int.abs_eq_natAbs, Int.abs_eq_natAbs, Int.natAbs_tmod]
    exact_mod_cast Nat.mod_lt _ (by omega)
  · rw [Int.abs_eq_natAbs, Int.abs_eq_natAbs, Int.abs_eq_natAbs, Int.natAbs_tdiv]
    exact_mod_cast Nat.div_mul_le_self _ _

theorem quot_bound (g b c M N : Int) (h : |g| * |b| ≤ M) (hb : c ≤ |b|) (hc : 0 < c) (hN : M < c * (N + 1)) : |g| ≤ N := by
  by_contra hcon
  have h1 : N + 1 ≤ |g| := by omega
  have h2 : c * (N+1) ≤ |g| * |b| := by
    calc c * (N+1) ≤ c * |g| := Int.mul_le_mul_of_nonneg_left h1 hc.le
      _ = |g| * c := by ring
      _ ≤ |g| * |b| := Int.mul_le_mul_of_nonneg_left hb (abs_nonneg _)
  omega

theorem and_low (w : W) : ((w &&& BitVec.ofNat 64 (2^31 - 1)).toNat : Int) = w.toInt % 2^31 := by
  have e : (w &&& BitVec.ofNat 64 (2^31 - 1)).toNat = w.toNat % 2^31 := by
    rw [BitVec.toNat_and]
    have : (BitVec.ofNat 64 (2^31 - 1)).toNat = 2^31 - 1 := by decide
    rw [this, Nat.and_two_pow_sub_one_eq_mod]
  rw [e]
  rcases toInt_cases w with ⟨a, b, c⟩ | ⟨a, b, c⟩ <;> omega

/-- The two-step long division estimate. -/
theorem gg_spec (z w : W)
    (hw : (2^61 ≤ w.toInt ∧ w.toInt < 2^62) ∨ (-2^62 ≤ w.toInt ∧ w.toInt < -2^60))
    (hz : (2^60 ≤ z.toInt ∧ z.toInt < 2^61) ∨ (-2^61 ≤ z.toInt ∧ z.toInt < -2^60)) :
    ∃ gh zm gl, cdiv z (w.sshiftRight 31) = .ok gh ∧ cmod z (w.sshiftRight 31) = .ok zm ∧
      cdiv ((zm <<< 31) - (w &&& BitVec.ofNat 64 (2^31 - 1)) * gh) (w.sshiftRight 31) = .ok gl ∧
      |(gl + (gh <<< 31)).toInt * w.toInt - z.toInt * 2^62| ≤ 2^97 := by
  have ey := sshr_toInt w 31
  have el := and_low w
  generalize hb : w.sshiftRight 31 = b at *
  generalize hyl : w &&& BitVec.ofNat 64 (2^31 - 1) = yl at *
  have hbr : 2^29 + 1 ≤ |b.toInt| ∧ |b.toInt| ≤ 2^31 := by
    rcases abs_cases b.toInt with ⟨h1, h2⟩ | ⟨h1, h2⟩ <;> rw [h1] <;> omega
  have hb0 : b.toInt ≠ 0 := by intro h; rw [h] at hbr; norm_num at hbr
  have hbne : b ≠ 0#64 := mt (toInt_zero_iff b).mp hb0
  have hbm1 : b ≠ -1#64 := by
    intro h; rw [h] at hbr; exact absurd hbr.1 (by decide)
  have hwe : w.toInt = b.toInt * 2^31 + yl.toNat := by omega
  have hyl0 : (yl.toNat : Int) < 2^31 := by omega
  have hyli : yl.toInt = yl.toNat := by
    rcases toInt_cases yl with ⟨a, b, c⟩ | ⟨a, b, c⟩ <;> omega
  have hzabs : |z.toInt| ≤ 2^61 := by rw [abs_le]; omega
  have c1 : cdiv z b = .ok (z.sdiv b) := by
    unfold cdiv; rw [if_neg hbne, if_neg (fun h => hbm1 h.2)]
  have c2 : cmod z b = .ok (z.srem b) := by
    unfold cmod; rw [if_neg hbne, if_neg (fun h => hbm1 h.2)]
  have c3 : ∀ u, cdiv u b = .ok (u.sdiv b) := by
    intro u; unfold cdiv; rw [if_neg hbne, if_neg (fun h => hbm1 h.2)]
  refine ⟨_, _, _, c1, c2, c3 _, ?_⟩
  have g1 : (z.sdiv b).toInt = z.toInt.tdiv b.toInt := sdiv_toInt _ _ (fun h => hbm1 h.2)
  have g2 : (z.srem b).toInt = z.toInt.tmod b.toInt := BitVec.toInt_srem z b
  obtain ⟨t1, t2, t3⟩ := tdiv_facts z.toInt b.toInt hb0
  rw [← g1, ← g2] at t1
  rw [← g2] at t2
  rw [← g1] at t3
  generalize z.sdiv b = gh at *
  generalize z.srem b = zm at *
  generalize hu : (zm <<< 31) - yl * gh = u at *
  have g3 : (u.sdiv b).toInt = u.toInt.tdiv b.toInt := sdiv_toInt _ _ (fun h => hbm1 h.2)
  obtain ⟨u1, u2, u3⟩ := tdiv_facts u.toInt b.toInt hb0
  rw [← g3] at u3
  generalize u.sdiv b = gl at *
  have hub := toInt_bounds u
  have huabs : |u.toInt| ≤ 2^63 := by rw [abs_le]; omega
  have bgh : |gh.toInt| ≤ 2^32 - 8 :=
    quot_bound _ _ (2^29+1) (2^61) _ (le_trans t3 hzabs) hbr.1 (by norm_num) (by norm_num)
  have bgl : |gl.toInt| ≤ 2^34 - 1 :=
    quot_bound _ _ (2^29+1) (2^63) _ (le_trans u3 huabs) hbr.1 (by norm_num) (by norm_num)
  have bzm : |zm.toInt| ≤ 2^31 := by omega
  rw [abs_le] at bgh bgl bzm
  have eshl : (gh <<< 31).toInt = gh.toInt * 2^31 := by
    apply shl_toInt <;> omega
  rw [add_toInt' _ _ (by rw [eshl]; omega) (by rw [eshl]; omega), eshl]
  have key : (gl.toInt + gh.toInt * 2^31) * w.toInt - z.toInt * 2^62
      = gl.toInt * w.toInt - zm.toInt * 2^62 + 2^31 * (gh.toInt * yl.toNat) := by
    rw [t1]
    rw [hwe]; ring
  rw [key]
  have hwabs : |w.toInt| ≤ 2^62 := by rw [abs_le]; omega
  have m1 : |gl.toInt * w.toInt| ≤ 2^34 * 2^62 := by
    rw [abs_mul]; apply mul_le_mul _ hwabs (abs_nonneg _) (by norm_num)
    rw [abs_le]; omega
  have m2 : |gh.toInt * (yl.toNat:Int)| ≤ 2^32 * 2^31 := by
    rw [abs_mul]; apply mul_le_mul _ _ (abs_nonneg _) (by norm_num)
    · rw [abs_le]; omega
    · rw [abs_le]; omega
  rw [abs_le] at m1 m2
  rw [abs_le]
  constructor <;> omega

/-- `top2` of an array given by its last two digits. -/
theorem top2_append (l : List W) (a b : W) : top2 (l ++ [a, b]) = some a := by
  simp [top2]

/-- The two leading digits bracket the value. -/
theorem window (x : List W) (hx : x ≠ []) :
    ((top x).toInt * 2^64 + ((top2 x).getD 0#64).toNat) * 2^(64 * (x.length - 1)) ≤ val x * 2^64 ∧
    val x * 2^64 < ((top x).toInt * 2^64 + ((top2 x).getD 0#64).toNat + 1) * 2^(64 * (x.length - 1)) := by
  obtain ⟨l, d, rfl⟩ : ∃ l d, x = l ++ [d] := ⟨x.dropLast, x.getLast hx, (List.dropLast_concat_getLast hx).symm⟩
  rw [top_append, val_append]
  by_cases hl : l = []
  · subst hl
    simp [top2, uval]
  · obtain ⟨i, e, rfl⟩ : ∃ i d, l = i ++ [d] := ⟨l.dropLast, l.getLast hl, (List.dropLast_concat_getLast hl).symm⟩
    rw [show i ++ [e] ++ [d] = i ++ [e, d] by simp, top2_append, Option.getD_some, uval_append]
    have h1 := uval_lt i
    have h2 : (uval i : Int) + 1 ≤ 2^(64*i.length) := by exact_mod_cast h1
    have h3 : (0:Int) ≤ uval i := by positivity
    simp only [uval, List.length_append, List.length_cons, List.length_nil, Nat.mul_zero, Nat.add_zero]
    rw [show 64 * (i.length + (0 + 1 + 1) - 1) = 64 * i.length + 64 by omega,
      show 64 * (i.length + (0 + 1)) = 64 * i.length + 64 by omega, pow_add]
    push_cast
    have hp : (0:Int) < 2^(64*i.length) := by positivity
    generalize (2:Int)^(64*i.length) = P at *
    constructor <;> nlinarith

theorem floor_facts (P e z : Int) (he : 0 < e) (h : z = P / e) : z * e ≤ P ∧ P + 1 ≤ (z + 1) * e := by
  subst h
  have h1 := Int.mul_ediv_add_emod P e
  have h2 := Int.emod_nonneg P (by omega : e ≠ 0)
  have h3 := Int.emod_lt_of_pos P he
  constructor
  · rw [mul_comm]; omega
  · rw [add_mul, mul_comm]; omega

/-- Scaled leading bits bracket the value. -/
theorem scale_bracket (c : Nat) (x : List W) (hx : x ≠ []) (z : W) (s : Int)
    (h : ScaleSpec c (top x) (top2 x) z s) :
    z.toInt * (2^(64 - s).toNat * 2^(64 * (x.length - 1))) ≤ val x * 2^64 ∧
    val x * 2^64 < (z.toInt + 1) * (2^(64 - s).toNat * 2^(64 * (x.length - 1))) := by
  obtain ⟨w1, w2⟩ := window x hx
  obtain ⟨f1, f2⟩ := floor_facts _ _ _ (by positivity) h.floor
  have hp : (0:Int) < 2^(64 * (x.length - 1)) := by positivity
  generalize ((top x).toInt * 2^64 + ((top2 x).getD 0#64).toNat) = P at *
  constructor
  · calc z.toInt * (2^(64 - s).toNat * 2^(64 * (x.length - 1)))
        = (z.toInt * 2^(64 - s).toNat) * 2^(64 * (x.length - 1)) := by ring
      _ ≤ P * 2^(64 * (x.length - 1)) := Int.mul_le_mul_of_nonneg_right f1 hp.le
      _ ≤ _ := w1
  · calc val x * 2^64 < (P + 1) * 2^(64 * (x.length - 1)) := w2
      _ ≤ ((z.toInt + 1) * 2^(64 - s).toNat) * 2^(64 * (x.length - 1)) := Int.mul_le_mul_of_nonneg_right f2 hp.le
      _ = _ := by ring

theorem norm_top_zero (x : List W) (hx : Norm x) (h0 : val x ≠ 0) (ht : top x = 0#64) :
    ∃ l, top2 x = some l ∧ l.toInt < 0 := by
  obtain ⟨hne, hn⟩ := hx
  obtain ⟨l, d, rfl⟩ : ∃ l d, x = l ++ [d] := ⟨x.dropLast, x.getLast hne, (List.dropLast_concat_getLast hne).symm⟩
  rw [top_append] at ht; subst ht
  by_cases hl : l = []
  · subst hl; exact absurd (by decide) h0
  · obtain ⟨i, e, rfl⟩ : ∃ i d, l = i ++ [d] := ⟨l.dropLast, l.getLast hl, (List.dropLast_concat_getLast hl).symm⟩
    refine ⟨e, by simpa using top2_append i e 0#64, ?_⟩
    have := hn i e 0#64 (by simp)
    by_contra hc
    exact this (Or.inr ⟨by omega, rfl⟩)

theorem norm_top_neg1 (x : List W) (hx : Norm x) (h0 : val x ≠ -1) (ht : top x = -1#64) :
    ∃ l, top2 x = some l ∧ 0 ≤ l.toInt := by
  obtain ⟨hne, hn⟩ := hx
  obtain ⟨l, d, rfl⟩ : ∃ l d, x = l ++ [d] := ⟨x.dropLast, x.getLast hne, (List.dropLast_concat_getLast hne).symm⟩
  rw [top_append] at ht; subst ht
  by_cases hl : l = []
  · subst hl; exact absurd (by decide) h0
  · obtain ⟨i, e, rfl⟩ : ∃ i d, l = i ++ [d] := ⟨l.dropLast, l.getLast hl, (List.dropLast_concat_getLast hl).symm⟩
    refine ⟨e, by simpa using top2_append i e (-1#64), ?_⟩
    have := hn i e (-1#64) (by simp)
    by_contra hc
    exact this (Or.inl ⟨by omega, rfl⟩)

/-- Relative error of the estimate. -/
theorem rel_error (G X Y z w Dr Dy : Int) (hDr : 0 < Dr) (hDy : 0 < Dy)
    (hG : |G| ≤ 2^63) (hz : 2^60 ≤ |z|)
    (h : |G * w - z * 2^62| ≤ 2^97)
    (hx1 : z * Dr ≤ X * 2^64) (hx2 : X * 2^64 < (z+1) * Dr)
    (hy1 : w * Dy ≤ Y * 2^64) (hy2 : Y * 2^64 < (w+1) * Dy) :
    |G * Y * Dr - 2^62 * X * Dy| * 2^20 ≤ 2^62 * |X| * Dy := by
  obtain ⟨α, hα⟩ : ∃ α, X * 2^64 = z * Dr + α := ⟨X * 2^64 - z * Dr, by ring⟩
  obtain ⟨β, hβ⟩ : ∃ β, Y * 2^64 = w * Dy + β := ⟨Y * 2^64 - w * Dy, by ring⟩
  have ha : 0 ≤ α ∧ α < Dr := by constructor <;> linarith [add_mul z 1 Dr]
  have hb : 0 ≤ β ∧ β < Dy := by constructor <;> linarith [add_mul w 1 Dy]
  -- scaled by 2^64
  have e1 : (G * Y * Dr - 2^62 * X * Dy) * 2^64 = Dr * Dy * (G * w - z * 2^62) + G * β * Dr - 2^62 * α * Dy := by
    have : (G * Y * Dr - 2^62 * X * Dy) * 2^64 = G * (Y * 2^64) * Dr - 2^62 * (X * 2^64) * Dy := by ring
    rw [this, hα, hβ]; ring
  have hDD : 0 < Dr * Dy := mul_pos hDr hDy
  have b1 : |Dr * Dy * (G * w - z * 2^62)| ≤ Dr * Dy * 2^97 := by
    rw [abs_mul, abs_of_pos hDD]; exact Int.mul_le_mul_of_nonneg_left h hDD.le
  have b2 : |G * β * Dr| ≤ Dr * Dy * 2^63 := by
    rw [abs_mul, abs_mul, abs_of_pos hDr, abs_of_nonneg hb.1]
    calc |G| * β * Dr ≤ 2^63 * Dy * Dr := by
          apply mul_le_mul_of_nonneg_right _ hDr.le
          exact mul_le_mul hG hb.2.le hb.1 (by norm_num)
      _ = Dr * Dy * 2^63 := by ring
  have b3 : |2^62 * α * Dy| ≤ Dr * Dy * 2^62 := by
    rw [abs_mul, abs_mul, abs_of_pos hDy, abs_of_nonneg ha.1, abs_of_pos (by norm_num)]
    calc (2:Int)^62 * α * Dy ≤ 2^62 * Dr * Dy := by
          apply mul_le_mul_of_nonneg_right _ hDy.le
          exact mul_le_mul_of_nonneg_left ha.2.le (by norm_num)
      _ = Dr * Dy * 2^62 := by ring
  have b4 : |(G * Y * Dr - 2^62 * X * Dy) * 2^64| ≤ Dr * Dy * 2^98 := by
    rw [e1]
    rw [abs_le] at b1 b2 b3 ⊢
    constructor <;> linarith
  -- lower bound for X
  have b5 : (2^60 - 1) * Dr ≤ |X * 2^64| := by
    rw [hα]
    rcases abs_cases z with ⟨q1, q2⟩ | ⟨q1, q2⟩
    · rw [q1] at hz
      have : 0 ≤ z * Dr := mul_nonneg q2 hDr.le
      rw [abs_of_nonneg (by linarith)]
      nlinarith
    · rw [q1] at hz
      have h5 : z * Dr ≤ -2^60 * Dr := mul_le_mul_of_nonneg_right (by linarith) hDr.le
      rw [abs_of_neg (by nlinarith)]
      nlinarith
  have b6 : |(G * Y * Dr - 2^62 * X * Dy) * 2^64| * 2^20 ≤ 2^62 * |X * 2^64| * Dy := by
    have h7 : (2:Int)^62 * ((2^60 - 1) * Dr) * Dy ≤ 2^62 * |X * 2^64| * Dy := by
      apply mul_le_mul_of_nonneg_right _ hDy.le
      exact mul_le_mul_of_nonneg_left b5 (by norm_num)
    nlinarith
  rw [abs_mul, abs_mul X, abs_of_pos (show (0:Int) < 2^64 by norm_num)] at b6
  nlinarith

end Voss.Arbi
