import Verif.Pre.Range
import Verif.Pre.ParamLemmas
import Verif.Bv.Props
import Mathlib.Tactic.Linarith
/- Lemmas for C88. -/
namespace Voss.Pre
variable {o : Order}
open Fn

theorem param_some {c : Fn o} (h : c ≠ ff o) : ∃ sub, param c = some sub ∧
    (∀ η, c.ev (under sub η) = true) ∧ (∀ η, c.ev η = true → under sub η = η) := by
  obtain ⟨sub, e, _, h2, h3, _⟩ := param_spec h
  exact ⟨sub, e, h2, h3⟩

theorem tryMax_spec : ∀ (bs : List (Fn o)) (g : Fn o → Fn o) (φ : Env → Env), (∀ f η, (g f).ev η = f.ev (φ η)) →
    ∃ ds, tryMax g bs = some ds ∧ ds.length = bs.length ∧ (∃ η, Bv.bits bs (φ η) = ds) ∧
      ∀ η, Bv.uv (Bv.bits bs (φ η)) ≤ Bv.uv ds
  | [], g, φ, hg => ⟨[], rfl, rfl, ⟨fun _ => false, rfl⟩, fun η => Nat.le_refl _⟩
  | b :: bs, g, φ, hg => by
    unfold tryMax
    by_cases hb : g b = ff o
    · rw [if_pos hb]
      have hf : ∀ η, b.ev (φ η) = false := fun η => by rw [← hg, hb]; rfl
      obtain ⟨ds, h1, h2, ⟨η0, h3⟩, h4⟩ := tryMax_spec bs g φ hg
      rw [h1]
      refine ⟨_, rfl, by simp [h2], ⟨η0, ?_⟩, fun η => ?_⟩
      · show b.ev (φ η0) :: Bv.bits bs (φ η0) = _
        rw [hf, h3]
      · show Bv.uv (b.ev (φ η) :: Bv.bits bs (φ η)) ≤ _
        rw [hf]
        simpa [Bv.uv] using h4 η
    · rw [if_neg hb]
      obtain ⟨sub, e, s1, s2⟩ := param_some hb
      rw [e, Option.bind_some]
      obtain ⟨ds, h1, h2, ⟨η0, h3⟩, h4⟩ := tryMax_spec bs (fun f => subst sub (g f)) (fun η => φ (under sub η))
        (fun f η => by rw [subst_ev, hg])
      rw [h1]
      refine ⟨_, rfl, by simp [h2], ⟨under sub η0, ?_⟩, fun η => ?_⟩
      · show b.ev (φ (under sub η0)) :: Bv.bits bs (φ (under sub η0)) = _
        rw [h3, ← hg, s1]
      · show Bv.uv (b.ev (φ η) :: Bv.bits bs (φ η)) ≤ _
        cases hc : b.ev (φ η)
        · have := Bv.uv_lt (Bv.bits bs (φ η))
          have hl : (Bv.bits bs (φ η)).length = ds.length := by simp [Bv.bits, h2]
          simp only [Bv.uv, Bool.false_eq_true, if_false, if_true]
          rw [hl] at this
          omega
        · have h5 := h4 η
          have h6 := s2 η (by rw [hg, hc])
          beta_reduce at h5
          rw [h6] at h5
          have hl : (Bv.bits bs (φ η)).length = ds.length := by simp [Bv.bits, h2]
          simp only [Bv.uv, if_true, hl]
          omega

theorem tryMin_spec : ∀ (bs : List (Fn o)) (g : Fn o → Fn o) (φ : Env → Env), (∀ f η, (g f).ev η = f.ev (φ η)) →
    ∃ ds, tryMin g bs = some ds ∧ ds.length = bs.length ∧ (∃ η, Bv.bits bs (φ η) = ds) ∧
      ∀ η, Bv.uv ds ≤ Bv.uv (Bv.bits bs (φ η))
  | [], g, φ, hg => ⟨[], rfl, rfl, ⟨fun _ => false, rfl⟩, fun η => Nat.le_refl _⟩
  | b :: bs, g, φ, hg => by
    unfold tryMin
    by_cases hb : g b = tt o
    · rw [if_pos hb]
      have hf : ∀ η, b.ev (φ η) = true := fun η => by rw [← hg, hb]; rfl
      obtain ⟨ds, h1, h2, ⟨η0, h3⟩, h4⟩ := tryMin_spec bs g φ hg
      rw [h1]
      refine ⟨_, rfl, by simp [h2], ⟨η0, ?_⟩, fun η => ?_⟩
      · show b.ev (φ η0) :: Bv.bits bs (φ η0) = _
        rw [hf, h3]
      · show _ ≤ Bv.uv (b.ev (φ η) :: Bv.bits bs (φ η))
        have hl : (Bv.bits bs (φ η)).length = ds.length := by simp [Bv.bits, h2]
        rw [hf]
        simpa [Bv.uv, hl] using h4 η
    · rw [if_neg hb]
      have hnb : (g b).not ≠ ff o := by
        rw [ne_ff]
        obtain ⟨η, h⟩ := ne_tt.1 hb
        exact ⟨η, by simp [h]⟩
      obtain ⟨sub, e, s1, s2⟩ := param_some hnb
      rw [e, Option.bind_some]
      obtain ⟨ds, h1, h2, ⟨η0, h3⟩, h4⟩ := tryMin_spec bs (fun f => subst sub (g f)) (fun η => φ (under sub η))
        (fun f η => by rw [subst_ev, hg])
      rw [h1]
      refine ⟨_, rfl, by simp [h2], ⟨under sub η0, ?_⟩, fun η => ?_⟩
      · show b.ev (φ (under sub η0)) :: Bv.bits bs (φ (under sub η0)) = _
        have := s1 η0
        rw [not_ev, hg] at this
        rw [h3]
        simpa using this
      · show _ ≤ Bv.uv (b.ev (φ η) :: Bv.bits bs (φ η))
        have hl : (Bv.bits bs (φ η)).length = ds.length := by simp [Bv.bits, h2]
        cases hc : b.ev (φ η)
        · have h5 := h4 η
          have h6 := s2 η (by rw [not_ev, hg, hc]; rfl)
          beta_reduce at h5
          rw [h6] at h5
          simpa [Bv.uv] using h5
        · have := Bv.uv_lt ds
          simp only [Bv.uv, Bool.false_eq_true, if_false, if_true, hl]
          omega

theorem findMax_eq : ∀ (bs : List (Fn o)) (g : Fn o → Fn o),
    findMax g bs = (tryMax g bs).map fun ds => (Bv.uv ds : Int)
  | [], g => rfl
  | b :: bs, g => by
    unfold findMax tryMax
    by_cases hb : g b = ff o
    · rw [if_pos hb, if_pos hb, findMax_eq bs g]
      cases tryMax g bs with
      | none => rfl
      | some ds => simp [Bv.uv]
    · rw [if_neg hb, if_neg hb]
      obtain ⟨sub, e, _⟩ := param_some hb
      rw [e, Option.bind_some, Option.bind_some, findMax_eq bs]
      have hl : ∀ ds, tryMax (fun f => subst sub (g f)) bs = some ds → ds.length = bs.length := by
        intro ds h
        have := tryMax_len bs _ ds h
        exact this
      cases ht : tryMax (fun f => subst sub (g f)) bs with
      | none => rfl
      | some ds => simp [Bv.uv, hl ds ht]
where
  tryMax_len : ∀ (bs : List (Fn o)) (g : Fn o → Fn o) (ds : List Bool), tryMax g bs = some ds → ds.length = bs.length
    | [], g, ds, h => by simp [tryMax] at h; subst h; rfl
    | b :: bs, g, ds, h => by
      unfold tryMax at h
      split at h
      · obtain ⟨ds', h1, rfl⟩ := Option.map_eq_some_iff.1 h
        simp [tryMax_len bs g ds' h1]
      · obtain ⟨sub, _, h⟩ := Option.bind_eq_some_iff.1 h
        obtain ⟨ds', h1, rfl⟩ := Option.map_eq_some_iff.1 h
        simp [tryMax_len bs _ ds' h1]

theorem findMin_eq : ∀ (bs : List (Fn o)) (g : Fn o → Fn o),
    findMin g bs = (tryMin g bs).map fun ds => (Bv.uv ds : Int)
  | [], g => rfl
  | b :: bs, g => by
    unfold findMin tryMin
    by_cases hb : g b = tt o
    · rw [if_pos hb, if_pos hb, findMin_eq bs g]
      have hl : ∀ ds, tryMin g bs = some ds → ds.length = bs.length := tryMin_len bs _
      cases ht : tryMin g bs with
      | none => rfl
      | some ds => simp [Bv.uv, hl ds ht]
    · rw [if_neg hb, if_neg hb]
      cases param (g b).not with
      | none => rfl
      | some sub =>
        rw [Option.bind_some, Option.bind_some, findMin_eq bs]
        cases ht : tryMin (fun f => subst sub (g f)) bs with
        | none => rfl
        | some ds => simp [Bv.uv]
where
  tryMin_len : ∀ (bs : List (Fn o)) (g : Fn o → Fn o) (ds : List Bool), tryMin g bs = some ds → ds.length = bs.length
    | [], g, ds, h => by simp [tryMin] at h; subst h; rfl
    | b :: bs, g, ds, h => by
      unfold tryMin at h
      split at h
      · obtain ⟨ds', h1, rfl⟩ := Option.map_eq_some_iff.1 h
        simp [tryMin_len bs g ds' h1]
      · obtain ⟨sub, _, h⟩ := Option.bind_eq_some_iff.1 h
        obtain ⟨ds', h1, rfl⟩ := Option.map_eq_some_iff.1 h
        simp [tryMin_len bs _ ds' h1]

/-! ### Values -/

/-- A number that the bit-vector can be, and than which it cannot be more. -/
def IsMax (bv : List (Fn o)) (m : Int) : Prop := (∃ η, Bv.sv bv η = m) ∧ ∀ η, Bv.sv bv η ≤ m
/-- A number that the bit-vector can be, and than which it cannot be less. -/
def IsMin (bv : List (Fn o)) (m : Int) : Prop := (∃ η, Bv.sv bv η = m) ∧ ∀ η, m ≤ Bv.sv bv η

theorem sv_uv {bv : List (Fn o)} {η : Env} (h : 0 ≤ Bv.sv bv η) : Bv.sv bv η = Bv.uv (Bv.bits bv η) :=
  Bv.tc_nonneg_uv _ h

theorem tryMax_nonneg {bv : List (Fn o)} (h : ∀ η, 0 ≤ Bv.sv bv η) :
    ∃ ds, tryMax id bv = some ds ∧ IsMax bv (Bv.uv ds) := by
  obtain ⟨ds, h1, _, ⟨η0, h3⟩, h4⟩ := tryMax_spec bv id id fun f η => rfl
  refine ⟨ds, h1, ⟨η0, ?_⟩, fun η => ?_⟩
  · rw [sv_uv (h η0)]
    exact_mod_cast congrArg Bv.uv h3
  · rw [sv_uv (h η)]
    exact_mod_cast h4 η

theorem tryMin_nonneg {bv : List (Fn o)} (h : ∀ η, 0 ≤ Bv.sv bv η) :
    ∃ ds, tryMin id bv = some ds ∧ IsMin bv (Bv.uv ds) := by
  obtain ⟨ds, h1, _, ⟨η0, h3⟩, h4⟩ := tryMin_spec bv id id fun f η => rfl
  refine ⟨ds, h1, ⟨η0, ?_⟩, fun η => ?_⟩
  · rw [sv_uv (h η0)]
    exact_mod_cast congrArg Bv.uv h3
  · rw [sv_uv (h η)]
    exact_mod_cast h4 η

theorem sv_zero (η : Env) : Bv.sv [ff o] η = 0 := by simp [Bv.sv, Bv.bits, Bv.tc, Bv.uv, Bv.Fml.den]
theorem sv_one (η : Env) : Bv.sv [ff o, tt o] η = 1 := by simp [Bv.sv, Bv.bits, Bv.tc, Bv.uv, Bv.Fml.den]
theorem sv_minus (η : Env) : Bv.sv [tt o] η = -1 := by simp [Bv.sv, Bv.bits, Bv.tc, Bv.uv, Bv.Fml.den]

theorem ne_nil_of_sv {bv : List (Fn o)} {η : Env} (h : Bv.sv bv η ≠ 0) : bv ≠ [] := by
  rintro rfl
  exact h rfl

theorem less_zero {bv : List (Fn o)} (hne : bv ≠ []) :
    ∃ c, Bv.bvLess bv [ff o] = some c ∧ ∀ η, c.ev η = decide (Bv.sv bv η < 0) := by
  obtain ⟨c, h1, h2⟩ := (Bv.c11_compare bv [ff o] hne (by simp)).1
  exact ⟨c, h1, fun η => by have := h2 η; rw [sv_zero] at this; exact this⟩

theorem bvNeg_spec {bv : List (Fn o)} (hne : bv ≠ []) :
    ∃ n, bvNeg bv = some n ∧ n ≠ [] ∧ ∀ η, Bv.sv n η = - Bv.sv bv η := by
  have hn : Bv.bvNOT bv ≠ [] := Bv.trim_ne_nil _ (by simpa using hne)
  obtain ⟨r, h1, _, h2⟩ := (Bv.c08_add_sub (Bv.bvNOT bv) [ff o, tt o] hn (by simp)).1
  refine ⟨r, h1, ?_, fun η => ?_⟩
  · rw [Bv.bvAdd, Bv.guard2_ne _ _ hn (by simp)] at h1
    simp only [Option.some.injEq] at h1
    rw [← h1]
    exact Bv.trim_ne_nil _ (Bv.genAdd_ne_nil _ _ _)
  · rw [h2, sv_one, (Bv.c13_shift_bits bv hne).2.2.1]
    omega

theorem bvMul_ne_nil {a b r : List (Fn o)} (h : Bv.bvMul a b = some r) : r ≠ [] := by
  unfold Bv.bvMul at h
  generalize (if a.length < b.length then (b, a) else (a, b)) = p at h
  obtain ⟨x, y⟩ := p
  simp only [Bv.guard2] at h
  split at h
  · simp at h
  · simp only [Option.some.injEq] at h
    rw [← h]
    exact Bv.trim_ne_nil _ (Bv.iteList_ne_nil _ _ _ (Bv.sxTo_ne_nil (Bv.negate_ne_nil _)) (Bv.sxTo_ne_nil (by simp)))

/-- The sign bit is the first one. -/
theorem sign_ev {b : Fn o} {bs : List (Fn o)} {η : Env} : b.ev η = true ↔ Bv.sv (b :: bs) η < 0 := by
  have := Bv.head_neg (b :: bs) (by simp) η
  exact this

/-- When the sign is not fixed, the digits of `try` in `bv_max` begin with 1. -/
theorem tryMax_mixed {bv : List (Fn o)} (hneg : ∃ η, Bv.sv bv η < 0) :
    ∃ ds, tryMax id bv = some ds ∧ 1 ≤ Bv.uv ds := by
  obtain ⟨η, hη⟩ := hneg
  obtain ⟨ds, h1, _, _, h4⟩ := tryMax_spec bv id id fun f η => rfl
  refine ⟨ds, h1, le_trans ?_ (h4 η)⟩
  cases bv with
  | nil => exact absurd hη (by simp [Bv.sv, Bv.bits, Bv.tc])
  | cons b bs =>
    show 1 ≤ Bv.uv (b.ev η :: Bv.bits bs η)
    rw [sign_ev.2 hη]
    simp only [Bv.uv, if_true]
    have := Nat.one_le_two_pow (n := (Bv.bits bs η).length)
    omega

theorem mixed_ne {c : Fn o} (h1 : ∃ η, c.ev η = true) (h2 : ∃ η, c.ev η = false) :
    c ≠ tt o ∧ c ≠ ff o ∧ (tt o).and c ≠ ff o ∧ (tt o).and c.not ≠ ff o := by
  refine ⟨ne_tt.2 h2, ne_ff.2 h1, ne_ff.2 ?_, ne_ff.2 ?_⟩
  · obtain ⟨η, h⟩ := h1; exact ⟨η, by simp [h]⟩
  · obtain ⟨η, h⟩ := h2; exact ⟨η, by simp [h]⟩

theorem branch_mixed {α : Type} {c : Fn o} (h1 : ∃ η, c.ev η = true) (h2 : ∃ η, c.ev η = false)
    (t e : Fn o → Out α) (merge : Fn o → α → α → Out α) :
    branch (tt o) c t e merge =
      (t ((tt o).and c)).bind fun x => (e ((tt o).and c.not)).bind fun y => merge c x y := by
  obtain ⟨a, b, d, f⟩ := mixed_ne h1 h2
  unfold branch
  rw [if_neg a, if_neg b, if_neg d, if_neg f]

/-- The branch taken when the condition cannot hold here. -/
theorem branch_else {α : Type} {p c : Fn o} (h : ∀ η, p.ev η = true → c.ev η = false) (hp : ∃ η, p.ev η = true)
    (t : Fn o → Out α) (a : Out α) (merge : Fn o → α → α → Out α) : branch p c t (fun _ => a) merge = a := by
  unfold branch
  have h1 : c ≠ tt o := by
    obtain ⟨η, hη⟩ := hp
    exact ne_tt.2 ⟨η, h η hη⟩
  rw [if_neg h1]
  split
  · rfl
  · rw [if_pos]
    rw [ff_iff]
    intro η
    rw [and_ev]
    cases hpη : p.ev η
    · rfl
    · rw [h η hpη]; rfl

/-- Below the first call the sign is known to be positive, and the digits are tried. -/
theorem bvMin_pos {n : List (Fn o)} {p : Fn o} (hne : n ≠ []) (hp : ∃ η, p.ev η = true)
    (h : ∀ η, p.ev η = true → 0 ≤ Bv.sv n η) (k : Nat) :
    bvMin (k + 1) p n = (Out.ofOption (tryMin id n)).bind fun ds => .ok (Bv.uv ds : Int) := by
  obtain ⟨c, e, hc⟩ := less_zero hne
  unfold bvMin
  rw [e]
  simp only [Out.ofOption, Out.bind]
  refine branch_else (fun η hη => ?_) hp _ _ _
  rw [hc, decide_eq_false_iff_not]
  have := h η hη
  omega

theorem bvMax_pos {n : List (Fn o)} {p : Fn o} (hne : n ≠ []) (hp : ∃ η, p.ev η = true)
    (h : ∀ η, p.ev η = true → 0 ≤ Bv.sv n η) (k : Nat) :
    bvMax (k + 1) p n = (Out.ofOption (tryMax id n)).bind fun ds => .ok (Bv.uv ds : Int) := by
  obtain ⟨c, e, hc⟩ := less_zero hne
  unfold bvMax
  rw [e]
  simp only [Out.ofOption, Out.bind]
  refine branch_else (fun η hη => ?_) hp _ _ _
  rw [hc, decide_eq_false_iff_not]
  have := h η hη
  omega

theorem tt_sat : ∃ η, (tt o).ev η = true := ⟨fun _ => false, rfl⟩

/-! ### Powers of two -/

open Voss.Arbi (ibit)

theorem ibit_shift (m : Int) (k i : Nat) (h : k ≤ i) : ibit (m * 2 ^ k) i = ibit m (i - k) := by
  obtain ⟨j, rfl⟩ := Nat.exists_eq_add_of_le h
  unfold ibit
  rw [Nat.add_sub_cancel_left, pow_add, ← Int.ediv_ediv_of_nonneg (by positivity),
    Int.mul_ediv_cancel _ (by positivity)]

theorem ibit_succ (m : Int) (i : Nat) : ibit m (i + 1) = ibit (m / 2) i := by
  unfold ibit
  rw [pow_succ', Int.ediv_ediv_of_nonneg (by norm_num)]

theorem ibit_compl (m : Int) (i : Nat) : ibit (-m - 1) i = !ibit m i := by
  induction i generalizing m with
  | zero => 
    unfold ibit
    simp only [pow_zero, Int.ediv_one]
    rcases Int.emod_two_eq_zero_or_one m with h | h
    · have : (-m - 1) % 2 = 1 := by omega
      simp [h, this]
    · have : (-m - 1) % 2 = 0 := by omega
      simp [h, this]
  | succ i ih =>
    rw [ibit_succ, ibit_succ, ← ih]
    congr 1
    omega

theorem odd_part (v : Int) (hv : 0 < v) : ∃ (k : Nat) (m : Int), v = m * 2 ^ k ∧ m % 2 = 1 ∧ 0 < m := by
  have : ∀ n : Nat, ∀ v : Int, 0 < v → v.toNat ≤ n → ∃ (k : Nat) (m : Int), v = m * 2 ^ k ∧ m % 2 = 1 ∧ 0 < m := by
    intro n
    induction n with
    | zero => intro v h1 h2; omega
    | succ n ih =>
      intro v h1 h2
      rcases Int.emod_two_eq_zero_or_one v with h | h
      · obtain ⟨k, m, e, h3, h4⟩ := ih (v / 2) (by omega) (by omega)
        refine ⟨k + 1, m, ?_, h3, h4⟩
        rw [pow_succ, ← mul_assoc, ← e]
        omega
      · exact ⟨0, v, by simp, h, h1⟩
  exact this v.toNat v hv (le_refl _)

theorem exists_bit (m : Int) (h : 0 < m) : ∃ i, ibit m i = true := by
  by_contra hc
  push Not at hc
  have : m = 0 := Arbi.ibit_ext m 0 fun i => by rw [Arbi.ibit_zero]; simpa using hc i
  omega

theorem pow_two_iff (v : Int) (hv : 0 < v) :
    (∀ i, ibit v i = (ibit v i && ibit (-v) i)) ↔ ∃ k : Nat, v = 2 ^ k := by
  obtain ⟨k, m, rfl, hm, hm0⟩ := odd_part v hv
  have hneg : -(m * 2 ^ k) = (-m) * 2 ^ k := by ring
  constructor
  · intro h
    refine ⟨k, ?_⟩
    by_contra hne
    have hm1 : m ≠ 1 := fun e => hne (by rw [e, one_mul])
    obtain ⟨i, hi⟩ := exists_bit (m / 2) (by omega)
    have h1 := h (k + (i + 1))
    rw [hneg, ibit_shift _ _ _ (by omega), ibit_shift _ _ _ (by omega), Nat.add_sub_cancel_left, ibit_succ, hi,
      ibit_succ] at h1
    have e : -m / 2 = -(m / 2) - 1 := by omega
    rw [e, ibit_compl, hi] at h1
    exact absurd h1 (by simp)
  · rintro ⟨j, hj⟩ i
    have hone : m = 1 := by
      rcases Nat.lt_or_ge j k with hjk | hjk
      · have : (2:Int) ^ k = 2 ^ (k - j) * 2 ^ j := by rw [← pow_add]; congr 1; omega
        rw [this] at hj
        have h2 : (2:Int) ≤ 2 ^ (k - j) := by
          calc (2:Int) = 2 ^ 1 := by norm_num
            _ ≤ 2 ^ (k - j) := by apply pow_le_pow_right₀ <;> omega
        have h3 : (0:Int) < 2 ^ j := by positivity
        have h4 : m * (2 ^ (k - j) * 2 ^ j) ≥ 1 * (2 * 2 ^ j) := by
          apply mul_le_mul (by omega) _ (by positivity) (by omega)
          exact mul_le_mul_of_nonneg_right h2 h3.le
        omega
      · have : (2:Int) ^ j = 2 ^ (j - k) * 2 ^ k := by rw [← pow_add]; congr 1; omega
        rw [this] at hj
        have h3 : (2:Int) ^ k ≠ 0 := by positivity
        have h4 := mul_right_cancel₀ h3 hj
        rcases Nat.eq_zero_or_pos (j - k) with h5 | h5
        · rw [h4, h5, pow_zero]
        · obtain ⟨d, hd⟩ := Nat.exists_eq_succ_of_ne_zero (by omega : j - k ≠ 0)
          rw [hd, pow_succ] at h4
          omega
    subst hone
    rw [hneg]
    rcases Nat.lt_or_ge i k with hik | hik
    · have : ibit (1 * 2 ^ k) i = false := by
        unfold ibit
        have : (2:Int) ^ k = 2 ^ (k - i - 1) * 2 * 2 ^ i := by rw [← pow_succ, ← pow_add]; congr 1; omega
        rw [one_mul, this, Int.mul_ediv_cancel _ (by positivity)]
        simp
      rw [this]; rfl
    · rw [ibit_shift _ _ _ hik, ibit_shift _ _ _ hik]
      rcases Nat.eq_zero_or_pos (i - k) with h5 | h5
      · rw [h5]; decide
      · obtain ⟨d, hd⟩ := Nat.exists_eq_succ_of_ne_zero (by omega : i - k ≠ 0)
        rw [hd, Nat.succ_eq_add_one, ibit_succ]
        norm_num [Arbi.ibit_zero]

end Voss.Pre
