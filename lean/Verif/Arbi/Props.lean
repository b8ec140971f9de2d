import Verif.Arbi.StrLemmas
import Verif.Arbi.IntOps
/-
Property theorems C01-C07 and C41: the fl integers.

A digit array `x` is a value the library can produce when it is canonical (`Norm x`); every operation
returns canonical arrays, and every integer has exactly one (`int_repr`).
-/
namespace Voss.Arbi

/-- Every integer has exactly one canonical digit array. -/
theorem int_repr (z : Int) : ∃ x, (Norm x ∧ val x = z) ∧ ∀ y, Norm y → val y = z → y = x := by
  have ex : ∃ x, Norm x ∧ val x = z := by
    induction z using Int.induction_on with
    | zero => exact ⟨[0#64], norm_single _, by simp⟩
    | succ n ih =>
      obtain ⟨x, h1, h2⟩ := ih
      have := add_spec x (fromWord 1#64) h1.ne_nil (by simp [fromWord])
      exact ⟨_, this.2, by rw [this.1, h2]; simp [fromWord]⟩
    | pred n ih =>
      obtain ⟨x, h1, h2⟩ := ih
      have := sub_spec x (fromWord 1#64) h1.ne_nil (by simp [fromWord])
      exact ⟨_, this.2, by rw [this.1, h2]; simp [fromWord]⟩
  obtain ⟨x, h1, h2⟩ := ex
  exact ⟨x, ⟨h1, h2⟩, fun y hy h => norm_ext y x hy h1 (by rw [h, h2])⟩

/-! ### C01 -/

/-- C01: `+`, `-`, unary minus and absolute value are exact for integers of any size. -/
theorem c01_add_sub_exact (x y : List W) (hx : Norm x) (hy : Norm y) :
    (∃ z, iPLUS x y = .ok z ∧ Norm z ∧ val z = val x + val y) ∧
    (∃ z, iMINUS x y = .ok z ∧ Norm z ∧ val z = val x - val y) ∧
    (∃ z, iUNARY_MINUS x = .ok z ∧ Norm z ∧ val z = - val x) ∧
    (Norm (neg x) ∧ val (neg x) = - val x) ∧
    (Norm (abs x) ∧ val (abs x) = |val x|) := by
  have a := add_spec x y hx.ne_nil hy.ne_nil
  have s := sub_spec x y hx.ne_nil hy.ne_nil
  have u := sub_spec (fromWord 0#64) x (by simp [fromWord]) hx.ne_nil
  have n := neg_spec x hx.ne_nil
  have ab := abs_spec x hx
  exact ⟨⟨_, rfl, a.2, a.1⟩, ⟨_, rfl, s.2, s.1⟩, ⟨_, rfl, u.2, by rw [u.1]; simp [fromWord]⟩, ⟨n.2, n.1⟩, ab.2, ab.1⟩

/-- Two-digit operands, a carry into a third digit. -/
example : Norm [-1#64, maxWord] ∧ val [-1#64, maxWord] = 2^127 - 1 ∧
    iPLUS [-1#64, maxWord] [1#64] = .ok [0#64, minWord, 0#64] := by
  refine ⟨⟨by simp, ?_⟩, by decide, by decide⟩
  intro init lo hi h
  match init with
  | [] => simp at h; obtain ⟨rfl, rfl⟩ := h; decide
  | _ :: [] => simp at h
  | _ :: _ :: _ => simp at h

/-! ### C02 -/

/-- C02 (all operands except one ordered pair; operands up to 2^29 digits, above which the column
counters of the code can overflow): `*` is exact. -/
theorem c02_mul_exact_partial (x y : List W) (hx : Norm x) (hy : Norm y) (hl : x.length ≤ 2^29)
    (htrap : ¬ (val x = -1 ∧ val y = -2^63)) :
    ∃ p, iTIMES x y = .ok p ∧ Norm p ∧ val p = val x * val y := by
  obtain ⟨p, h1, h2, h3⟩ := mul_spec x y hx hy hl (by
    rintro ⟨rfl, rfl⟩; exact htrap (by decide))
  exact ⟨p, by simp [iTIMES, h1, Res.out], h3, h2⟩

/-- The excluded pair: `(-1) * (-2^63)` is undefined behaviour (a trapping division in the overflow
test), while the operands in the other order are multiplied correctly. -/
theorem c02_mul_violated :
    Norm [-1#64] ∧ Norm [minWord] ∧ val [-1#64] = -1 ∧ val [minWord] = -2^63 ∧
    iTIMES [-1#64] [minWord] = .ub ∧ iTIMES [minWord] [-1#64] = .ok [minWord, 0#64] := by
  refine ⟨norm_single _, norm_single _, by decide, by decide, by decide, by decide⟩

example : iTIMES [minWord] [minWord] = .ok [0#64, 0x4000000000000000#64] := by decide

/-! ### C03 -/

/-- C03: division and modulo raise the documented exception for a zero divisor, and otherwise terminate
with the floor quotient and remainder, for all integers, except when the divisor is `-2^63`. -/
theorem c03_div_mod_floor_partial (x y : List W) (hx : Norm x) (hy : Norm y) :
    (val y = 0 → ∀ fuel, iDIVIDE fuel x y = some (.fail "Division by zero") ∧ iMOD fuel x y = some (.fail "Mod of zero")) ∧
    (val y ≠ 0 → val y ≠ -2^63 → ∃ N q r, (∀ fuel ≥ N, iDIVIDE fuel x y = some (.ok q)) ∧
      (∀ fuel ≥ N, iMOD fuel x y = some (.ok r)) ∧ Norm q ∧ Norm r ∧ FloorDiv (val x) (val y) (val q) (val r)) := by
  have h0 : cmp y (fromWord 0#64) = icmp (val y) 0 := by
    rw [cmp_spec y (fromWord 0#64) hy (norm_single _)]; simp [fromWord]
  constructor
  · intro h fuel
    rw [h] at h0
    have : cmp y (fromWord 0#64) = 0 := h0
    simp [iDIVIDE, iMOD, this]
  · intro h hm
    have hc : cmp y (fromWord 0#64) ≠ 0 := by rw [h0, ne_eq, icmp_eq_zero]; exact h
    obtain ⟨N, q, r, h1, h2, h3⟩ := div_mod_total x y hx hy h (by rintro rfl; exact hm (by decide))
    refine ⟨N, q, r, fun fuel hf => ?_, fun fuel hf => ?_, h3⟩
    · simp [iDIVIDE, hc, h1 fuel hf, Res.out]
    · simp [iMOD, hc, h2 fuel hf, Res.out]

/-- Whatever the divisor (also `-2^63`): if the computation returns a number it is the right one. -/
theorem c03_div_mod_correct_if_returns (x y : List W) (hx : Norm x) (hy : Norm y) (hy0 : val y ≠ 0) :
    (∀ fuel q, iDIVIDE fuel x y = some (.ok q) → Norm q ∧ ∃ r, FloorDiv (val x) (val y) (val q) r) ∧
    (∀ fuel r, iMOD fuel x y = some (.ok r) → Norm r ∧ ∃ q, FloorDiv (val x) (val y) q (val r)) := by
  have h0 : cmp y (fromWord 0#64) = icmp (val y) 0 := by
    rw [cmp_spec y (fromWord 0#64) hy (norm_single _)]; simp [fromWord]
  have hc : cmp y (fromWord 0#64) ≠ 0 := by rw [h0, ne_eq, icmp_eq_zero]; exact hy0
  by_cases hm : y = [minWord]
  · subst hm
    have e1 : ∀ fuel, div fuel x [minWord] = (divmod fuel x [minWord]).map fun r => r.bind fun (q, _) => .ok q := by
      intro fuel
      simp only [div]
      rw [if_neg (by decide), if_neg (by decide), if_neg (by decide)]
      split
      · rw [if_neg (by simp)]
      · rfl
    have e2 : ∀ fuel, mod fuel x [minWord] = (divmod fuel x [minWord]).map fun r => r.bind fun (_, m) => .ok m := by
      intro fuel
      simp only [mod]
      rw [if_neg (by decide), if_neg (by decide)]
      split
      · rw [if_neg (by simp)]
      · rfl
    constructor
    · intro fuel q h
      simp only [iDIVIDE, hc, if_false, e1] at h
      cases hd : divmod fuel x [minWord] with
      | none => simp [hd] at h
      | some r =>
        cases r with
        | ok p =>
          obtain ⟨q', r'⟩ := p
          simp [hd, Res.bind, Res.out] at h
          subst h
          obtain ⟨a, _, b⟩ := divmodG_partial guess fuel x [minWord] hx hy hy0 q' r' hd
          exact ⟨a, _, b⟩
        | null => simp [hd, Res.bind, Res.out] at h
        | ub => simp [hd, Res.bind, Res.out] at h
    · intro fuel r0 h
      simp only [iMOD, hc, if_false, e2] at h
      cases hd : divmod fuel x [minWord] with
      | none => simp [hd] at h
      | some r =>
        cases r with
        | ok p =>
          obtain ⟨q', r'⟩ := p
          simp [hd, Res.bind, Res.out] at h
          subst h
          obtain ⟨_, a, b⟩ := divmodG_partial guess fuel x [minWord] hx hy hy0 q' r' hd
          exact ⟨a, _, b⟩
        | null => simp [hd, Res.bind, Res.out] at h
        | ub => simp [hd, Res.bind, Res.out] at h
  · -- all other divisors: termination and monotonicity in the budget
    obtain ⟨N, q, r, h1, h2, h3, h4, h5⟩ := div_mod_total x y hx hy hy0 hm
    constructor
    · intro fuel q' h
      have hd : div fuel x y = some (.ok q') := by
        simp only [iDIVIDE, hc, if_false] at h
        cases hd : div fuel x y with
        | none => simp [hd] at h
        | some r => cases r <;> simp [hd, Res.out] at h; rw [h]
      have : q' = q := div_mono hd (h1 (max fuel N) (by omega)) (by omega)
      rw [this]; exact ⟨h3, _, h5⟩
    · intro fuel r' h
      have hd : mod fuel x y = some (.ok r') := by
        simp only [iMOD, hc, if_false] at h
        cases hd : mod fuel x y with
        | none => simp [hd] at h
        | some r => cases r <;> simp [hd, Res.out] at h; rw [h]
      have : r' = r := mod_mono hd (h2 (max fuel N) (by omega)) (by omega)
      rw [this]; exact ⟨h4, _, h5⟩

/-- The excluded divisor: `2^63 / (-2^63)` runs into the trapping multiplication. -/
theorem c03_div_violated :
    val [minWord, 0#64] = 2^63 ∧ val [minWord] = -2^63 ∧
    iDIVIDE 20 [minWord, 0#64] [minWord] = some .ub ∧ iMOD 20 [minWord, 0#64] [minWord] = some .ub := by
  refine ⟨by decide, by decide, by decide +kernel, by decide +kernel⟩

/-- A multi-digit division with a negative divisor: `(2^127-1) / -(2^64+1)`. -/
example : iDIVIDE 20 [-1#64, maxWord] [-1#64, -2#64] = some (.ok [minWord]) ∧
    val [-1#64, -2#64] = -(2^64 + 1) := by
  constructor <;> decide +kernel

/-! ### C04 -/

/-- C04: the comparison builtins and equality of representations are the numeric relations. -/
theorem c04_compare_numeric (x y : List W) (hx : Norm x) (hy : Norm y) :
    (iLESS x y = true ↔ val x < val y) ∧ (iLEQ x y = true ↔ val x ≤ val y) ∧
    (iGREATER x y = true ↔ val x > val y) ∧ (iGEQ x y = true ↔ val x ≥ val y) ∧
    (cmp x y = 0 ↔ val x = val y) ∧ (x = y ↔ val x = val y) := by
  have h := cmp_spec x y hx hy
  have he : x = y ↔ val x = val y := ⟨fun h => by rw [h], norm_ext x y hx hy⟩
  refine ⟨?_, ?_, ?_, ?_, ?_, he⟩ <;> simp only [iLESS, iLEQ, iGREATER, iGEQ, h, icmp, Bool.or_eq_true, beq_iff_eq] <;>
    split <;> (try split) <;> simp <;> omega

example : iLESS [0#64, minWord] [maxWord, 0x4000000000000000#64, 7#64] = true := by decide

/-! ### C05 -/

/-- C05: the bit-wise builtins act on every bit of the infinite two's complement expansion. -/
theorem c05_bitwise (x y : List W) (hx : Norm x) (hy : Norm y) :
    (∃ z, iAND x y = .ok z ∧ Norm z ∧ ∀ i, ibit (val z) i = (ibit (val x) i && ibit (val y) i)) ∧
    (∃ z, iOR x y = .ok z ∧ Norm z ∧ ∀ i, ibit (val z) i = (ibit (val x) i || ibit (val y) i)) ∧
    (∃ z, iXOR x y = .ok z ∧ Norm z ∧ ∀ i, ibit (val z) i = (ibit (val x) i ^^ ibit (val y) i)) ∧
    (∃ z, iNOT x = .ok z ∧ Norm z ∧ ∀ i, ibit (val z) i = !ibit (val x) i) := by
  have a := bvop_spec (· &&& ·) (· && ·) (by intro a b i hi; simp) Bool.and_comm x y hx.ne_nil hy.ne_nil
  have o := bvop_spec (· ||| ·) (· || ·) (by intro a b i hi; simp) Bool.or_comm x y hx.ne_nil hy.ne_nil
  have e := bvop_spec (· ^^^ ·) (· ^^ ·) (by intro a b i hi; simp) Bool.xor_comm x y hx.ne_nil hy.ne_nil
  have n := bvNot_spec x hx.ne_nil
  exact ⟨⟨_, rfl, a⟩, ⟨_, rfl, o⟩, ⟨_, rfl, e⟩, ⟨_, rfl, n⟩⟩

/-- An integer is determined by its bits, so C05 determines the results. -/
theorem c05_bits_determine (a b : Int) (h : ∀ i, ibit a i = ibit b i) : a = b := ibit_ext a b h

example : iAND [-1#64, 1#64] [-2#64] = .ok [-2#64, 1#64] := by decide

/-! ### C06 -/

/-- C06 (with the exclusions the code forces): printing yields the numeral of the integer. -/
theorem c06_print_partial (x : List W) (base : Nat) (hx : Norm x) (hb : 2 ≤ base) (hb2 : base ≤ 36)
    (hlen : x.length < 2^22)
    (h16 : x.length = 1 → base = 16 → 0 ≤ val x)
    (hmin : ¬ (x.length = 1 ∧ base = 10) → x.getLast? ≠ some minWord) :
    ∃ N, ∀ fuel ≥ N, toString fuel x base = some (.ok (renderInt base (val x))) :=
  toString_spec x base hx hb hb2 hlen h16 (fun h => by
    have := hmin h
    intro he
    apply this
    obtain ⟨l, t, rfl⟩ : ∃ l d, x = l ++ [d] := ⟨x.dropLast, x.getLast hx.ne_nil, (List.dropLast_concat_getLast hx.ne_nil).symm⟩
    simp [top] at he ⊢; exact he)

/-- C06: reading a digit string gives its positional value, a leading minus negates. -/
theorem c06_parse (base : Nat) (hb : 2 ≤ base) (hb2 : base ≤ 36) (s : List Char) (n : Nat)
    (hl : s.length < 2^29) (h : readNat base s = some n) :
    (∃ x, fromString s base = .ok x ∧ val x = n ∧ Norm x) ∧
    (∃ x, fromString ('-' :: s) base = .ok x ∧ val x = -n ∧ Norm x) :=
  fromString_spec base hb hb2 s n hl h

/-- C06: reading back the numeral of an integer gives the integer. -/
theorem c06_roundtrip (x : List W) (base : Nat) (hx : Norm x) (hb : 2 ≤ base) (hb2 : base ≤ 36)
    (hlen : (renderInt base (val x)).length < 2^29) :
    fromString (renderInt base (val x)) base = .ok x := by
  unfold renderInt at hlen ⊢
  have hr := readNat_numeral base hb hb2 (val x).natAbs
  by_cases hv : val x < 0
  · rw [if_pos hv] at hlen ⊢
    simp only [List.length_cons] at hlen
    obtain ⟨_, y, h1, h2, h3⟩ := fromString_spec base hb hb2 _ _ (by omega) hr
    rw [h1, norm_ext y x h3 hx (by rw [h2]; omega)]
  · rw [if_neg hv] at hlen ⊢
    obtain ⟨⟨y, h1, h2, h3⟩, _⟩ := fromString_spec base hb hb2 _ _ hlen hr
    rw [h1, norm_ext y x h3 hx (by rw [h2]; omega)]

/-- The exclusions are real: a negative one-word number printed in base 16 reads back as another number;
a most significant word `-2^63` leads to undefined shifts and no termination; a minus sign followed by a
non-digit dereferences a null pointer. -/
theorem c06_violated :
    (toString 20 [-1#64] 16 = some (.ok "ffffffffffffffff".toList) ∧
      fromString "ffffffffffffffff".toList 16 = .ok [-1#64, 0#64]) ∧
    (val [0#64, minWord] = -2^127 ∧ toString 20 [0#64, minWord] 10 = some .ub) ∧
    fromString "-?".toList 10 = .ub ∧ fromString "?".toList 10 = .null := by
  refine ⟨⟨by decide +kernel, by decide +kernel⟩, ⟨by decide, by decide⟩, by decide +kernel, by decide +kernel⟩

example : toString 60 [5#64, 0#64, -1#64, 0#64] 7 = some (.ok (renderInt 7 (val [5#64, 0#64, -1#64, 0#64]))) ∧
    (renderInt 7 (val [5#64, 0#64, -1#64, 0#64])).length = 69 := by
  constructor <;> decide +kernel

/-! ### C07 -/

/-- C07: gcd terminates for all operands with the (non-negative) greatest common divisor. -/
theorem c07_gcd (x y : List W) (hx : Norm x) (hy : Norm y) :
    ∃ N g, (∀ fuel ≥ N, iGCD fuel x y = some (.ok g)) ∧ Norm g ∧ 0 ≤ val g ∧ val g ∣ val x ∧ val g ∣ val y ∧
      ∀ d, d ∣ val x → d ∣ val y → d ∣ val g := by
  obtain ⟨N, g, h1, h2, h3⟩ := gcd_spec x y hx hy
  refine ⟨N, g, fun fuel hf => by simp [iGCD, h1 fuel hf, Res.out], h2, by rw [h3]; positivity, ?_, ?_, ?_⟩
  · rw [h3]; exact Int.gcd_dvd_left ..
  · rw [h3]; exact Int.gcd_dvd_right ..
  · intro d a b; rw [h3]; exact Int.dvd_coe_gcd a b

example : iGCD 20 [0#64, 6#64] [minWord] = some (.ok [minWord, 0#64]) := by decide +kernel

/-! ### C41 -/

/-- C41 (up to 61 bits): `random2 bits` is in `[0, 2^bits)` whatever `random()` returns. -/
theorem c41_random2_range_partial (rs : List (BitVec 31)) (bits : Nat) (hb : bits ≤ 61) :
    ∃ x, random2 rs bits = .ok x ∧ 0 ≤ val x ∧ val x < 2^bits := by
  have hsh : ∀ n ≤ 30, val (fromWord (BitVec.ofInt 64 (shlInt n))) = 2^n := by decide +kernel
  have hmr : ∀ (n : Nat) (r : BitVec 31), val (fromWord (BitVec.ofNat 64 (maskRandom n r))) = (maskRandom n r : Nat) ∧
      maskRandom n r < 2^31 ∧ maskRandom n r < 2^n := by
    intro n r
    have h1 : maskRandom n r < 2^31 := lt_of_le_of_lt (Nat.mod_le _ _) r.isLt
    refine ⟨?_, h1, Nat.mod_lt _ (by positivity)⟩
    have hn : (BitVec.ofNat 64 (maskRandom n r)).toNat = maskRandom n r := by
      rw [BitVec.toNat_ofNat]; exact Nat.mod_eq_of_lt (by omega)
    have : val (fromWord (BitVec.ofNat 64 (maskRandom n r))) = (BitVec.ofNat 64 (maskRandom n r)).toInt := by simp [fromWord]
    rw [this]
    rcases toInt_cases (BitVec.ofNat 64 (maskRandom n r)) with ⟨a, b, c⟩ | ⟨a, b, c⟩ <;> omega
  have hz : ∀ n ≤ 31, mul (fromWord 0#64) (fromWord (BitVec.ofInt 64 (shlInt n))) = .ok (fromWord 0#64) := by decide +kernel
  by_cases hlt : bits ≤ 31
  · obtain ⟨m1, m2, m3⟩ := hmr bits (rs.headD 0#31)
    have a := add_spec (fromWord 0#64) (fromWord (BitVec.ofNat 64 (maskRandom bits (rs.headD 0#31)))) (by simp [fromWord]) (by simp [fromWord])
    refine ⟨add (fromWord 0#64) (fromWord (BitVec.ofNat 64 (maskRandom bits (rs.headD 0#31)))), ?_, ?_, ?_⟩
    · unfold random2 random2Loop
      simp only [show ¬ bits > 31 by omega, if_false, hz bits hlt]
    · rw [a.1, m1]; simp [fromWord]
    · rw [a.1, m1]
      have e0 : val (fromWord 0#64) = 0 := by simp [fromWord]
      rw [e0, zero_add]; exact_mod_cast m3
  · obtain ⟨m1, m2, m3⟩ := hmr 31 (rs.headD 0#31)
    obtain ⟨k1, k2, k3⟩ := hmr (bits - 31) (rs.tail.headD 0#31)
    have a := add_spec (fromWord 0#64) (fromWord (BitVec.ofNat 64 (maskRandom 31 (rs.headD 0#31)))) (by simp [fromWord]) (by simp [fromWord])
    have e0 : val (fromWord 0#64) = 0 := by simp [fromWord]
    rw [m1, e0, zero_add] at a
    generalize hr1 : add (fromWord 0#64) (fromWord (BitVec.ofNat 64 (maskRandom 31 (rs.headD 0#31)))) = r1 at *
    have hlen := norm_len_of_lt r1 a.2 31 (by rw [a.1]; positivity) (by rw [a.1]; exact_mod_cast m2)
    obtain ⟨p, p1, p2, p3⟩ := mul_spec r1 (fromWord (BitVec.ofInt 64 (shlInt (bits - 31)))) a.2 (norm_single _)
      (by omega) (by
        rintro ⟨rfl, _⟩
        have h1 : val [-1#64] = -1 := by decide
        rw [h1] at a
        have : (0:Int) ≤ (maskRandom 31 (rs.headD 0#31) : Int) := by positivity
        omega)
    have b := add_spec p (fromWord (BitVec.ofNat 64 (maskRandom (bits - 31) (rs.tail.headD 0#31)))) p3.ne_nil (by simp [fromWord])
    rw [p2, hsh (bits - 31) (by omega), k1, a.1] at b
    obtain ⟨f, hf⟩ : ∃ f, bits + 1 = f + 1 + 1 := ⟨bits - 1, by omega⟩
    refine ⟨add p (fromWord (BitVec.ofNat 64 (maskRandom (bits - 31) (rs.tail.headD 0#31)))), ?_, ?_, ?_⟩
    · unfold random2
      rw [hf]
      unfold random2Loop
      simp only [show bits > 31 by omega, if_true, hz 31 le_rfl]
      unfold random2Loop
      simp only [show ¬ (bits - 31 > 31) by omega, if_false]
      rw [hr1, p1]
    · rw [b.1]; positivity
    · rw [b.1]
      have e : (2:Int)^bits = 2^31 * 2^(bits - 31) := by rw [← pow_add]; congr 1; omega
      rw [e]
      have h1 : (maskRandom 31 (rs.headD 0#31) : Int) + 1 ≤ 2^31 := by exact_mod_cast m2
      have h2 : (maskRandom (bits-31) (rs.tail.headD 0#31) : Int) < 2^(bits-31) := by exact_mod_cast k3
      have h3 : ((maskRandom 31 (rs.headD 0#31) : Int) + 1) * 2^(bits - 31) ≤ 2^31 * 2^(bits - 31) :=
        mul_le_mul_of_nonneg_right h1 (by positivity)
      linarith [add_mul (maskRandom 31 (rs.headD 0#31) : Int) 1 (2^(bits-31))]

/-- Full C41 fails: from 62 bits on results can be negative, the factor `1 << 31` being `INT_MIN`. -/
theorem c41_random2_violated :
    ∃ x, random2 [1#31, 5#31] 62 = .ok x ∧ val x < 0 := by
  exact ⟨[BitVec.ofInt 64 (-2147483643)], by decide +kernel, by decide⟩

example : random2 [0x7fffffff#31, 0x3fffffff#31] 61 = .ok [0x1fffffffffffffff#64] := by decide +kernel

end Voss.Arbi
