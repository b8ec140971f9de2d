import Verif.Vlib.RatLemmas
import Mathlib.Algebra.Order.Archimedean.Basic
/-
C93: the rational numbers of the library.

`Rt.val` is the number that `RAT d n` stands for, `Rt.Low` says that it is in lowest terms, `Rt.Usual` that its
denominator is positive as well.  `num` is the number that decimal digits stand for.
-/
namespace Voss.Vlib
open Voss.Io (Out)

/-- C93: `mk_rat` fails just for 0/0; for other denominators than 0 it gives the number in lowest terms, and keeps
the sign of the denominator. -/
theorem c93_make (d n : Int) :
    (mkRat d n = .fail ↔ d = 0 ∧ n = 0) ∧
    (n ≠ 0 → ∃ r, mkRat d n = .ok r ∧ r.Low ∧ r.val = (d : ℚ) / n ∧ (0 < n ↔ 0 < r.n)) :=
  ⟨mkRat_zero d n, mkRat_spec d n⟩

example : mkRat 6 (-4) = .ok ⟨3, -2⟩ := by decide +kernel

/-- C93: sums, differences and products are exact, in lowest terms, and in the usual form if the operands are. -/
theorem c93_ring (r s : Rt) (hr : r.Low) (hs : s.Low) :
    (∃ t, add r s = .ok t ∧ t.Low ∧ t.val = r.val + s.val ∧ (r.Usual → s.Usual → t.Usual)) ∧
    (∃ t, sub r s = .ok t ∧ t.Low ∧ t.val = r.val - s.val ∧ (r.Usual → s.Usual → t.Usual)) ∧
    ∃ t, mul r s = .ok t ∧ t.Low ∧ t.val = r.val * s.val ∧ (r.Usual → s.Usual → t.Usual) := by
  have h1 : (r.n : ℚ) ≠ 0 := by exact_mod_cast hr.1
  have h2 : (s.n : ℚ) ≠ 0 := by exact_mod_cast hs.1
  have hn : r.n * s.n ≠ 0 := mul_ne_zero hr.1 hs.1
  have hp : r.Usual → s.Usual → 0 < r.n * s.n := fun a b => mul_pos a.1 b.1
  refine ⟨?_, ?_, ?_⟩
  · obtain ⟨t, t1, t2, t3, t4⟩ := mkRat_spec (r.d * s.n + s.d * r.n) _ hn
    refine ⟨t, t1, t2, ?_, fun a b => ⟨t4.1 (hp a b), t2.2⟩⟩
    rw [t3]; unfold Rt.val; push_cast; field_simp
  · obtain ⟨t, t1, t2, t3, t4⟩ := mkRat_spec (r.d * s.n - s.d * r.n) _ hn
    refine ⟨t, t1, t2, ?_, fun a b => ⟨t4.1 (hp a b), t2.2⟩⟩
    rw [t3]; unfold Rt.val; push_cast; field_simp
  · obtain ⟨t, t1, t2, t3, t4⟩ := mkRat_spec (r.d * s.d) _ hn
    refine ⟨t, t1, t2, ?_, fun a b => ⟨t4.1 (hp a b), t2.2⟩⟩
    rw [t3]; unfold Rt.val; push_cast; field_simp

example : Rt.Usual ⟨1, 6⟩ ∧ Rt.Usual ⟨-1, 10⟩ ∧ add ⟨1, 6⟩ ⟨-1, 10⟩ = .ok ⟨1, 15⟩ := ⟨⟨by decide, by decide⟩, ⟨by decide, by decide⟩, by decide +kernel⟩

/-- C93: the quotient by a number other than 0 is exact and in lowest terms.  It is in the usual form if the divisor is
positive; what is missing are negative divisors and the failure for 0. -/
theorem c93_div_partial (r s : Rt) (hr : r.Low) (hs : s.Low) (h0 : s.val ≠ 0) :
    ∃ t, div r s = .ok t ∧ t.Low ∧ t.val = r.val / s.val ∧ (r.Usual → s.Usual → 0 < s.val → t.Usual) := by
  have h1 : (r.n : ℚ) ≠ 0 := by exact_mod_cast hr.1
  have h2 : (s.n : ℚ) ≠ 0 := by exact_mod_cast hs.1
  have h3 : s.d ≠ 0 := fun e => h0 (by unfold Rt.val; rw [e]; simp)
  have h3' : (s.d : ℚ) ≠ 0 := by exact_mod_cast h3
  obtain ⟨t, t1, t2, t3, t4⟩ := mkRat_spec (r.d * s.n) (r.n * s.d) (mul_ne_zero hr.1 h3)
  refine ⟨t, t1, t2, ?_, fun a b c => ⟨t4.1 (mul_pos a.1 ?_), t2.2⟩⟩
  · rw [t3]; unfold Rt.val; push_cast; field_simp
  · have hb : (0 : ℚ) < s.n := by exact_mod_cast b.1
    unfold Rt.val at c
    have : (0 : ℚ) < s.d := (div_pos_iff_of_pos_right hb).1 c
    exact_mod_cast this

/-- The missing part: the same number has two forms after a division, which `=` says are different; -/
theorem c93_form_violated : ∃ r s t u : Rt, r.Usual ∧ s.Usual ∧ u.Usual ∧ div r s = .ok t ∧ t.val = u.val ∧ t ≠ u :=
  ⟨⟨1, 1⟩, ⟨-2, 1⟩, ⟨1, -2⟩, ⟨-1, 2⟩, ⟨by decide, by decide⟩, ⟨by decide, by decide⟩, ⟨by decide, by decide⟩,
    by decide +kernel, by unfold Rt.val; norm_num, by decide⟩

/-- and division by 0 gives the "number" 1/0 or -1/0, unless the dividend is 0. -/
theorem c93_zero_violated (r s : Rt) (hr : r.Usual) (hs : s.Usual) (h0 : s.val = 0) :
    div r s = if r.d = 0 then .fail else if 0 < r.d then .ok ⟨1, 0⟩ else .ok ⟨-1, 0⟩ := by
  have h3 : s.d = 0 := by
    unfold Rt.val at h0
    rcases div_eq_zero_iff.1 h0 with h | h
    · exact_mod_cast h
    · exact absurd (by exact_mod_cast h) hs.low.1
  have h4 : s.n = 1 := by
    have := hs.2
    rw [h3, Int.gcd_zero_left] at this
    have := hs.1
    omega
  unfold div mkRat
  rw [h3, h4, mul_one, mul_zero]
  dsimp only
  rw [Int.gcd_zero_right]
  by_cases hd : r.d = 0
  · rw [if_pos hd, if_pos (by simp [hd])]
  · rw [if_neg hd, if_neg (by simpa using hd)]
    by_cases hp : 0 < r.d
    · rw [if_pos hp]
      have : (r.d.natAbs : Int) = r.d := by omega
      rw [this, Int.fdiv_self hd, Int.zero_fdiv]
    · rw [if_neg hp]
      have : (r.d.natAbs : Int) = -r.d := by omega
      rw [this, Int.zero_fdiv]
      have : r.d.fdiv (-r.d) = -1 := by
        rw [Int.fdiv_eq_ediv_of_nonneg _ (by omega), Int.ediv_neg, Int.ediv_self hd]
      rw [this]

example : div ⟨3, 1⟩ ⟨0, 1⟩ = .ok ⟨1, 0⟩ := by decide +kernel

/-- C93: two rationals in the usual form are equal (as pairs of integers, which is what `=` compares) exactly if they
are the same number. -/
theorem c93_eq (r s : Rt) (hr : r.Usual) (hs : s.Usual) : r = s ↔ r.val = s.val := ⟨fun h => by rw [h], hr.ext hs⟩

/-- C93: `floor` rounds down, `round` to the nearest integer, halves up; both for any sign of the denominator. -/
theorem c93_floor (r : Rt) (h : r.n ≠ 0) : floor r = .ok ⌊r.val⌋ ∧ round r = .ok ⌊r.val + 1 / 2⌋ := by
  unfold floor round
  rw [if_neg h, if_neg h, fdiv_floor _ _ h, fdiv_floor _ _ h, fdiv_floor _ 10 (by norm_num)]
  refine ⟨rfl, ?_⟩
  congr 1
  have hn : (r.n : ℚ) ≠ 0 := by exact_mod_cast h
  have e : ((r.d * 10 : Int) : ℚ) / r.n = 10 * r.val := by unfold Rt.val; push_cast; field_simp
  rw [e]
  generalize r.val = x
  rw [Int.floor_eq_iff]
  have a1 := Int.floor_le (x + 1 / 2)
  have a2 := Int.lt_floor_add_one (x + 1 / 2)
  have a4 := Int.lt_floor_add_one (10 * x)
  have a5 := Int.floor_le (10 * x)
  push_cast
  constructor
  · rw [le_div_iff₀ (by norm_num)]
    have : 10 * ⌊x + 1 / 2⌋ - 5 ≤ ⌊10 * x⌋ := Int.le_floor.2 (by push_cast; linarith)
    have : (10 * (⌊x + 1 / 2⌋ : ℚ) - 5) ≤ ⌊10 * x⌋ := by exact_mod_cast this
    linarith
  · rw [div_lt_iff₀ (by norm_num)]
    linarith

example : round ⟨-7, 2⟩ = .ok (-3) ∧ floor ⟨7, -2⟩ = .ok (-4) ∧ round ⟨12, 5⟩ = .ok 2 := by decide +kernel

/-- The number whose decimal expansion has the integer part `ip` and after the point `pre` and then `rep` over and
over: it lies between the number with `rep` repeated `m` times and the one with one more in the last place. -/
def Expands (ip pre rep : List Char) (q : ℚ) : Prop :=
  ∀ m : Nat, (num (ip ++ pre ++ (List.replicate m rep).flatten) : ℚ) ≤ q * 10 ^ (pre.length + rep.length * m) ∧
    q * 10 ^ (pre.length + rep.length * m) ≤ num (ip ++ pre ++ (List.replicate m rep).flatten) + 1

/-- This determines it. -/
theorem expands_unique (ip pre rep : List Char) (hr : rep ≠ []) (p q : ℚ) (hp : Expands ip pre rep p) (hq : Expands ip pre rep q) :
    p = q := by
  by_contra hne
  have hpos : 0 < |p - q| := abs_pos.2 (sub_ne_zero.2 hne)
  obtain ⟨m, hm⟩ := pow_unbounded_of_one_lt (1 / |p - q|) (by norm_num : (1 : ℚ) < 10)
  have h1 := hp m
  have h2 := hq m
  have hle : (10 : ℚ) ^ m ≤ 10 ^ (pre.length + rep.length * m) := by
    refine pow_le_pow_right₀ (by norm_num) ?_
    have : 0 < rep.length := List.length_pos_iff.2 hr
    nlinarith
  have h3 : |p - q| * 10 ^ (pre.length + rep.length * m) ≤ 1 := by
    have hT : (0 : ℚ) ≤ 10 ^ (pre.length + rep.length * m) := by positivity
    generalize (10 : ℚ) ^ (pre.length + rep.length * m) = T at *
    have e : |p - q| * T = |(p - q) * T| := by rw [abs_mul, abs_of_nonneg hT]
    rw [e, abs_le, sub_mul]
    constructor <;> linarith [h1.1, h1.2, h2.1, h2.2]
  have h4 : 1 < |p - q| * 10 ^ m := by
    rw [div_lt_iff₀ hpos] at hm
    linarith
  have h5 : |p - q| * 10 ^ m ≤ |p - q| * 10 ^ (pre.length + rep.length * m) := mul_le_mul_of_nonneg_left hle hpos.le
  linarith

theorem expands_rat (ip pre rep : List Char) (hr : rep ≠ []) (hd : Digits rep) :
    Expands ip pre rep ((((10 : ℚ) ^ rep.length - 1) * num (ip ++ pre) + num rep) / ((10 ^ rep.length - 1) * 10 ^ pre.length)) := by
  have hg : (1 : ℚ) < 10 ^ rep.length := one_lt_pow₀ (by norm_num) (by simpa using hr)
  have hnum : ∀ m : Nat, (num (List.replicate m rep).flatten : ℚ) * (10 ^ rep.length - 1) = num rep * (10 ^ (rep.length * m) - 1) := by
    intro m
    induction m with
    | zero => simp [num]
    | succ m ih =>
      rw [List.replicate_succ, List.flatten_cons, num_append]
      have hl : (List.replicate m rep).flatten.length = rep.length * m := by simp [List.length_flatten, mul_comm]
      push_cast
      rw [hl, add_mul, ih, mul_add, mul_one, pow_add]
      ring
  have hlt : (num rep : ℚ) ≤ 10 ^ rep.length - 1 := by
    have : num rep + 1 ≤ 10 ^ rep.length := by
      clear hg hnum hr
      induction rep using List.reverseRecOn with
      | nil => simp [num]
      | append_singleton l c ih =>
        have hc := (digit_facts (hd c (by simp))).2.2.2.2.2.2
        have := ih fun c hc => hd c (by simp [hc])
        rw [num_append, List.length_append, pow_add]
        have e : num [c] = c.toNat - '0'.toNat := by simp [num]
        rw [e, List.length_singleton, pow_one]
        omega
    have : ((num rep + 1 : Nat) : ℚ) ≤ ((10 ^ rep.length : Nat) : ℚ) := by exact_mod_cast this
    push_cast at this
    linarith
  intro m
  have hl : (List.replicate m rep).flatten.length = rep.length * m := by simp [List.length_flatten, mul_comm]
  have hm := hnum m
  rw [num_append (ip ++ pre), hl]
  push_cast
  have hP : (0 : ℚ) < 10 ^ pre.length := by positivity
  have hM : (0 : ℚ) < 10 ^ (rep.length * m) := by positivity
  have e : ((((10 : ℚ) ^ rep.length - 1) * num (ip ++ pre) + num rep) / ((10 ^ rep.length - 1) * 10 ^ pre.length)) *
      10 ^ (pre.length + rep.length * m) = num (ip ++ pre) * 10 ^ (rep.length * m) + num rep * 10 ^ (rep.length * m) / (10 ^ rep.length - 1) := by
    rw [pow_add]
    have : (10 : ℚ) ^ rep.length - 1 ≠ 0 := by linarith
    field_simp
  rw [e]
  have hg' : (0 : ℚ) < 10 ^ rep.length - 1 := by linarith
  have e2 : (num (List.replicate m rep).flatten : ℚ) = num rep * (10 ^ (rep.length * m) - 1) / (10 ^ rep.length - 1) := by
    rw [eq_div_iff (by linarith)]; exact hm
  rw [e2]
  have hn : (0 : ℚ) ≤ num rep := by positivity
  constructor
  · have : num rep * ((10 : ℚ) ^ (rep.length * m) - 1) / (10 ^ rep.length - 1) ≤ num rep * 10 ^ (rep.length * m) / (10 ^ rep.length - 1) := by
      rw [div_le_div_iff_of_pos_right hg']
      nlinarith
    linarith
  · have : num rep * (10 : ℚ) ^ (rep.length * m) / (10 ^ rep.length - 1) =
        num rep * ((10 : ℚ) ^ (rep.length * m) - 1) / (10 ^ rep.length - 1) + num rep / (10 ^ rep.length - 1) := by
      rw [← add_div]; ring
    rw [this]
    have : (num rep : ℚ) / (10 ^ rep.length - 1) ≤ 1 := by rw [div_le_one hg']; exact hlt
    linarith

/-- C93, `str2rat`: a decimal number, with or without a sign, is read exactly. -/
theorem c93_decimal (b : Bool) (ip frac : List Char) (hi : Digits ip) (hf : Digits frac) (hl : ip.length + frac.length < 130000) :
    ∃ r, str2rat (signed b (ip ++ ['.'] ++ frac)) = .ok r ∧ r.Usual ∧
      r.val = sgn b * (num ip + num frac / 10 ^ frac.length) := by
  have hh : (ip ++ ['.'] ++ frac).head? ≠ some '-' := by
    cases ip with
    | nil => simp
    | cons c ip => simpa using (digit_facts (hi c (by simp))).2.1
  have hs : Txt.split (ip ++ ['.'] ++ frac) ".".toList = [ip, frac] := by
    have := Txt.c74_split_join '.' [ip, frac] (by simp) (by
      intro p hp
      simp only [List.mem_cons, List.not_mem_nil, or_false] at hp
      rcases hp with rfl | rfl
      · exact (not_mem_digits hi).1
      · exact (not_mem_digits hf).1) (by simp)
    rw [show ".".toList = ['.'] by decide]
    rwa [show Txt.join ['.'] [ip, frac] = ip ++ ['.'] ++ frac by simp [Txt.join]] at this
  rw [str2rat_signed b _ hh (by simp; omega)]
  unfold unsigned
  rw [hs]
  dsimp only
  unfold Txt.strlen
  rw [pow10_eq _ (by omega), s2i_num _ hi (by omega), s2i_num _ hf (by omega)]
  simp only [bind]
  have hp : (0 : Int) < 10 ^ frac.length := by positivity
  obtain ⟨r, r1, r2, r3, r4⟩ := mkRat_spec (sgn b * (10 ^ frac.length * (num ip : Int) + (num frac : Int))) (10 ^ frac.length) hp.ne'
  refine ⟨r, r1, ⟨r4.1 hp, r2.2⟩, ?_⟩
  rw [r3]
  push_cast
  have : (10 : ℚ) ^ frac.length ≠ 0 := by positivity
  field_simp

example : str2rat "-1.32".toList = .ok ⟨-33, 25⟩ := by decide +kernel

/-- C93, `str2rat`: an integer without a sign is read exactly; -/
theorem c93_integer_partial (ip : List Char) (hi : Digits ip) (h0 : ip ≠ []) (hl : ip.length ≤ 130000) :
    str2rat ip = .ok ⟨num ip, 1⟩ := by
  have hh : ip.head? ≠ some '-' := by
    cases ip with
    | nil => simp
    | cons c ip => simpa using (digit_facts (hi c (by simp))).2.1
  have hs : Txt.split ip ".".toList = [ip] := by
    have := Txt.c74_split_join '.' [ip] (by simp) (by simpa using (not_mem_digits hi).1) (by simpa using h0)
    rw [show ".".toList = ['.'] by decide]
    rwa [show Txt.join ['.'] [ip] = ip by simp [Txt.join]] at this
  have := str2rat_signed false ip hh hl
  rw [show signed false ip = ip from rfl] at this
  rw [this]
  unfold unsigned
  rw [hs]
  dsimp only
  rw [s2i_num _ hi hl]
  rfl

/-- the sign of an integer is dropped. -/
theorem c93_integer_violated (ip : List Char) (hi : Digits ip) (h0 : ip ≠ []) (hl : ip.length ≤ 130000) :
    str2rat ('-' :: ip) = .ok ⟨num ip, 1⟩ := by
  have hh : ip.head? ≠ some '-' := by
    cases ip with
    | nil => simp
    | cons c ip => simpa using (digit_facts (hi c (by simp))).2.1
  have h1 := str2rat_signed true ip hh hl
  have h2 := str2rat_signed false ip hh hl
  rw [show signed true ip = '-' :: ip from rfl] at h1
  rw [show signed false ip = ip from rfl, c93_integer_partial ip hi h0 hl] at h2
  rw [h1]
  unfold unsigned at h2 ⊢
  have hs : Txt.split ip ".".toList = [ip] := by
    have := Txt.c74_split_join '.' [ip] (by simp) (by simpa using (not_mem_digits hi).1) (by simpa using h0)
    rw [show ".".toList = ['.'] by decide]
    rwa [show Txt.join ['.'] [ip] = ip by simp [Txt.join]] at this
  rw [hs] at h2 ⊢
  exact h2.symm

example : str2rat "-3".toList = .ok ⟨3, 1⟩ ∧ str2rat "-3.0".toList = .ok ⟨-3, 1⟩ := by decide +kernel

theorem dots_split (ip frac : List Char) (hi : Digits ip) (hf : '.' ∉ frac) :
    Txt.split (ip ++ ['.'] ++ frac ++ "...".toList) ".".toList = [ip, frac, [], [], []] := by
  have := Txt.c74_split_join '.' [ip, frac, [], [], []] (by simp) (by
    intro p hp
    simp only [List.mem_cons, List.not_mem_nil, or_false] at hp
    rcases hp with rfl | rfl | rfl | rfl | rfl
    · exact (not_mem_digits hi).1
    · exact hf
    · simp
    · simp
    · simp) (by simp)
  rw [show ".".toList = ['.'] by decide, show "...".toList = ['.', '.', '.'] by decide]
  rwa [show Txt.join ['.'] [ip, frac, [], [], []] = ip ++ ['.'] ++ frac ++ ['.', '.', '.'] by simp [Txt.join]] at this

theorem dots_head (ip frac : List Char) (hi : Digits ip) : (ip ++ ['.'] ++ frac ++ "...".toList).head? ≠ some '-' := by
  cases ip with
  | nil => simp
  | cons c ip => simpa using (digit_facts (hi c (by simp))).2.1

/-- The result for a repeated part. -/
theorem rep_value (b : Bool) (ip pre rep : List Char) (hr : rep ≠ []) (hd : Digits rep) :
    ∃ r q, mkRat (sgn b * ((10 ^ rep.length - 1) * (10 ^ pre.length * num ip + num pre) + num rep)) ((10 ^ rep.length - 1) * 10 ^ pre.length)
      = .ok r ∧ r.Usual ∧ Expands ip pre rep q ∧ r.val = sgn b * q := by
  have hg : (1 : Int) < 10 ^ rep.length := one_lt_pow₀ (by norm_num) (by simpa using hr)
  have hp : (0 : Int) < (10 ^ rep.length - 1) * 10 ^ pre.length := mul_pos (by omega) (by positivity)
  obtain ⟨r, r1, r2, r3, r4⟩ := mkRat_spec (sgn b * ((10 ^ rep.length - 1) * (10 ^ pre.length * num ip + num pre) + num rep)) _ hp.ne'
  refine ⟨r, _, r1, ⟨r4.1 hp, r2.2⟩, expands_rat ip pre rep hr hd, ?_⟩
  rw [r3, num_append]
  push_cast
  rw [mul_div_assoc, mul_comm (num ip : ℚ)]

/-- C93, `str2rat`: a number with a repeated part in braces is the one with this expansion. -/
theorem c93_repeat (b : Bool) (ip pre rep : List Char) (hi : Digits ip) (hp : Digits pre) (hd : Digits rep) (hr : rep ≠ [])
    (hl : ip.length + pre.length + rep.length < 129990) :
    ∃ r q, str2rat (signed b (ip ++ ['.'] ++ (pre ++ ['{'] ++ rep ++ ['}']) ++ "...".toList)) = .ok r ∧ r.Usual ∧
      Expands ip pre rep q ∧ r.val = sgn b * q := by
  obtain ⟨r, q, h1, h2⟩ := rep_value b ip pre rep hr hd
  refine ⟨r, q, ?_, h2⟩
  have hdot : '.' ∉ pre ++ ['{'] ++ rep ++ ['}'] := by
    have a1 := (not_mem_digits hp).1
    have a2 := (not_mem_digits hd).1
    simp [a1, a2]
  rw [str2rat_signed b _ (dots_head ip _ hi) (by simp; omega)]
  unfold unsigned
  rw [dots_split ip _ hi hdot]
  dsimp only
  have t1 : Txt.isSubstr "{".toList (pre ++ ['{'] ++ rep ++ ['}']) = true :=
    ((Txt.c74_tests _ _).2.2.1).2 ⟨pre, rep ++ ['}'], by rw [show "{".toList = ['{'] by decide]; simp⟩
  have t2 : Txt.isSuffix "}".toList (pre ++ ['{'] ++ rep ++ ['}']) = true :=
    ((Txt.c74_tests _ _).2.1).2 ⟨pre ++ ['{'] ++ rep, by rw [show "}".toList = ['}'] by decide]⟩
  rw [t1]
  simp only [Bool.not_true, Bool.false_eq_true, if_false]
  unfold repPart
  rw [t2]
  simp only [Bool.not_true, Bool.false_eq_true, if_false]
  have s1 : Txt.split (pre ++ ['{'] ++ rep ++ ['}']) "{".toList = [pre, rep ++ ['}']] := by
    have := Txt.c74_split_join '{' [pre, rep ++ ['}']] (by simp) (by
      intro p hp'
      simp only [List.mem_cons, List.not_mem_nil, or_false] at hp'
      rcases hp' with rfl | rfl
      · exact (not_mem_digits hp).2.1
      · have := (not_mem_digits hd).2.1
        simp [this]) (by simp)
    rw [show "{".toList = ['{'] by decide]
    rwa [show Txt.join ['{'] [pre, rep ++ ['}']] = pre ++ ['{'] ++ rep ++ ['}'] by simp [Txt.join]] at this
  have s2 : Txt.split (rep ++ ['}']) "}".toList = [rep, []] := by
    have := Txt.c74_split_join '}' [rep, []] (by simp) (by
      intro p hp'
      simp only [List.mem_cons, List.not_mem_nil, or_false] at hp'
      rcases hp' with rfl | rfl
      · exact (not_mem_digits hd).2.2.1
      · simp) (by simp)
    rw [show "}".toList = ['}'] by decide]
    rwa [show Txt.join ['}'] [rep, []] = rep ++ ['}'] by simp [Txt.join]] at this
  rw [s1]
  dsimp only
  rw [s2]
  dsimp only
  unfold Txt.strlen
  rw [pow10_eq _ (by omega), s2i_num _ hi (by omega), s2i_num _ hp (by omega), pow10_eq _ (by omega), s2i_num _ hd (by omega)]
  exact h1

example : str2rat "1.225{123}...".toList = .ok ⟨203983, 166500⟩ ∧ str2rat "-0.{3}...".toList = .ok ⟨-1, 3⟩ := by decide +kernel

/-- C93, `str2rat`: without braces the last digit is repeated. -/
theorem c93_repeat_last (b : Bool) (ip pre : List Char) (c : Char) (hi : Digits ip) (hp : Digits pre) (hc : c.isDigit = true)
    (hl : ip.length + pre.length < 129990) :
    ∃ r q, str2rat (signed b (ip ++ ['.'] ++ (pre ++ [c]) ++ "...".toList)) = .ok r ∧ r.Usual ∧
      Expands ip pre [c] q ∧ r.val = sgn b * q := by
  have hd : Digits [c] := fun x hx => by simp at hx; rw [hx]; exact hc
  obtain ⟨r, q, h1, h2⟩ := rep_value b ip pre [c] (by simp) hd
  refine ⟨r, q, ?_, h2⟩
  have hdot : '.' ∉ pre ++ [c] := (not_mem_digits (hp.append hd)).1
  rw [str2rat_signed b _ (dots_head ip _ hi) (by simp; omega)]
  unfold unsigned
  rw [dots_split ip _ hi hdot]
  dsimp only
  have t1 : Txt.isSubstr "{".toList (pre ++ [c]) = false := by
    rw [Bool.eq_false_iff]
    intro h
    obtain ⟨x, y, e⟩ := ((Txt.c74_tests _ _).2.2.1).1 h
    refine (not_mem_digits (hp.append hd)).2.1 ?_
    rw [e, show "{".toList = ['{'] by decide]
    simp
  rw [t1]
  simp only [Bool.not_false, if_true]
  unfold repLast
  have hlen : (Txt.strlen (pre ++ [c]) - 1 : Int) = pre.length := by unfold Txt.strlen; simp
  have u1 : Txt.substr (pre ++ [c]) 1 (pre.length : Int) = .ok pre := by
    unfold Txt.substr
    rw [Txt.withInt_of (by norm_num) (by norm_num), Txt.withInt_of (by omega) (by omega)]
    rw [if_neg (by norm_num), if_neg (by simp), if_neg (by omega), if_neg (by omega), if_neg (by simp)]
    simp
  have u2 : Txt.substr (pre ++ [c]) (Txt.strlen (pre ++ [c])) 1 = .ok [c] := by
    unfold Txt.substr Txt.strlen
    have e : ((pre ++ [c]).length : Int) = pre.length + 1 := by simp
    rw [e, Txt.withInt_of (by omega) (by omega), Txt.withInt_of (by norm_num) (by norm_num)]
    rw [if_neg (by omega), if_neg (by omega), if_neg (by norm_num), if_neg (by omega), if_neg (by omega)]
    have : ((pre.length : Int) + 1 - 1).toNat = pre.length := by omega
    rw [this]
    simp
  dsimp only
  rw [hlen, u1, u2]
  simp only [ofRes]
  rw [pow10_eq _ (by omega), s2i_num _ hi (by omega)]
  simp only [bind]
  rw [s2i_num _ hp (by omega), s2i_num _ hd (by simp)]
  exact h1

example : str2rat "0.343...".toList = .ok ⟨103, 300⟩ ∧ str2rat "0.9...".toList = .ok ⟨1, 1⟩ := by decide +kernel

/-- C93 is violated: text that is not a decimal number is read as one. -/
theorem c93_syntax_violated : str2rat "abc".toList = .ok ⟨0, 1⟩ ∧ str2rat "1.2x".toList = .ok ⟨51, 50⟩ ∧
    str2rat "1.5.7".toList = .ok ⟨14, 9⟩ := by decide +kernel

end Voss.Vlib
