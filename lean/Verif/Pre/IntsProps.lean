import Verif.Pre.IntsLemmas
/-
C91: functions on integers of the preamble: logarithms, powers, conversions, widths, random numbers, sets of
integers, primes, factorials.

`Bv.tc l` is the number that the list of bits `l` stands for in two's complement.
-/
namespace Voss.Pre

/-! ### Logarithms and powers -/

/-- C91: `log2` is the logarithm rounded down, and fails for numbers that have none. -/
theorem c91_log2 (n : Int) :
    (0 < n → ∃ r : Nat, log2 n = some (r : Int) ∧ 2 ^ r ≤ n ∧ n < 2 ^ (r + 1)) ∧ (n ≤ 0 → log2 n = none) := by
  constructor
  · intro h
    refine ⟨_, log2_spec h, ?_, ?_⟩
    · have := Nat.log2_self_le (n := n.toNat) (by omega)
      zify at this
      rwa [Int.toNat_of_nonneg (by omega)] at this
    · have := Nat.lt_log2_self (n := n.toNat)
      zify at this
      rwa [Int.toNat_of_nonneg (by omega)] at this
  · intro h
    unfold log2
    rw [if_pos h]

example : log2 1000 = some 9 := by decide +kernel

/-- C91: `**` on integers is the power, for all exponents of less than 129998 binary digits, and fails for negative
ones. -/
theorem c91_pow_partial (base n : Int) :
    (0 ≤ n → n < 2 ^ 129998 → ipow base n = some (base ^ n.toNat)) ∧ (n < 0 → ipow base n = none) := by
  constructor
  · intro h hs
    unfold ipow
    rw [if_neg (by omega)]
    by_cases h0 : n = 0
    · rw [if_pos h0, h0]; simp
    rw [if_neg h0]
    split
    · rw [powGo_eq]
    · have hl : n.toNat.log2 < 129998 := by
        rw [Nat.log2_lt (by omega)]
        zify
        rwa [Int.toNat_of_nonneg h]
      rw [sprintf_b h hl]
      dsimp only
      have e := square_bits (Io.bitLength n.natAbs + 1) base n.toNat (by
        have := lt_bitLength n.natAbs
        have h1 : n.natAbs = n.toNat := by omega
        rw [h1] at this ⊢
        rw [pow_succ]; omega)
      rw [Int.toNat_of_nonneg h] at e
      rw [e]
  · intro h
    unfold ipow
    rw [if_pos h]

example : ipow 3 13 = some 1594323 ∧ ipow (-2) 5 = some (-32) := by decide +kernel

section
variable {o : Order}
open Fn

theorem bvpow_go (base : List (Fn o)) (hb : base ≠ []) : ∀ (N : Nat) (p : Fn o) (n : List (Fn o)), n ≠ [] →
    (∃ η, p.ev η = true) → (∀ η, p.ev η = true → 0 ≤ Bv.sv n η ∧ Bv.sv n η ≤ N) →
    ∃ r, (∀ j, bvpow (N + 1 + j) p base n = .ok r) ∧ r ≠ [] ∧
      ∀ η, p.ev η = true → Bv.sv r η = Bv.sv base η ^ (Bv.sv n η).toNat := by
  intro N
  induction N with
  | zero =>
    intro p n hn hp hN
    obtain ⟨c, c1, c2⟩ := eq_zero hn
    have key := branch_spec (p := p) (c := c) (t := fun _ _ => .ok [ff o, tt o])
      (e := fun j p => (Out.ofOption (Bv.bvSub n [ff o, tt o])).bind fun m =>
          (bvpow j p base m).bind fun r => Out.ofOption (Bv.bvMul base r)) (merge := mergeBv)
      (R := fun x => x ≠ []) (Q := fun η x => Bv.sv x η = Bv.sv base η ^ (Bv.sv n η).toNat) hp
      (fun _ => ⟨_, fun _ => rfl, by simp, fun η h => ?_⟩) (fun ⟨η, h⟩ => ?_)
      (fun x y hx hy => mergeBv_spec c (fun η v => v = Bv.sv base η ^ (Bv.sv n η).toNat) x y hx hy)
    · obtain ⟨z, z1, z2⟩ := key
      refine ⟨z, fun j => ?_, z2⟩
      have e : 0 + 1 + j = j + 1 := by omega
      rw [e, bvpow, c1]
      exact z1 j
    · simp only [and_ev, c2, Bool.and_eq_true, decide_eq_true_iff] at h
      have : (Bv.sv n η).toNat = 0 := by omega
      rw [sv_one, this, pow_zero]
    · exfalso
      simp only [and_ev, not_ev, c2, Bool.and_eq_true, Bool.not_eq_true', decide_eq_false_iff_not] at h
      have := hN η h.1
      have h2 := h.2
      omega
  | succ N ih =>
    intro p n hn hp hN
    obtain ⟨c, c1, c2⟩ := eq_zero hn
    obtain ⟨m, m1, m2, m3⟩ := bvSub_spec n [ff o, tt o] hn (by simp)
    have key := branch_spec (p := p) (c := c) (t := fun _ _ => .ok [ff o, tt o])
      (e := fun j p => (Out.ofOption (Bv.bvSub n [ff o, tt o])).bind fun m =>
          (bvpow (N + 1 + j) p base m).bind fun r => Out.ofOption (Bv.bvMul base r)) (merge := mergeBv)
      (R := fun x => x ≠ []) (Q := fun η x => Bv.sv x η = Bv.sv base η ^ (Bv.sv n η).toNat) hp
      (fun _ => ⟨_, fun _ => rfl, by simp, fun η h => ?_⟩) (fun hpe => ?_)
      (fun x y hx hy => mergeBv_spec c (fun η v => v = Bv.sv base η ^ (Bv.sv n η).toNat) x y hx hy)
    · obtain ⟨z, z1, z2⟩ := key
      refine ⟨z, fun j => ?_, z2⟩
      have e : N + 1 + 1 + j = (N + 1 + j) + 1 := by omega
      rw [e, bvpow, c1]
      exact z1 j
    · simp only [and_ev, c2, Bool.and_eq_true, decide_eq_true_iff] at h
      have : (Bv.sv n η).toNat = 0 := by omega
      rw [sv_one, this, pow_zero]
    · obtain ⟨r, r1, r2, r3⟩ := ih (p.and c.not) m m2 hpe (fun η h => by
        simp only [and_ev, not_ev, c2, Bool.and_eq_true, Bool.not_eq_true', decide_eq_false_iff_not] at h
        have := hN η h.1
        rw [m3, sv_one]
        push_cast at this
        have h2 := h.2
        constructor <;> omega)
      obtain ⟨s, s1, _, s2⟩ := Bv.c09_mul base r hb r2
      refine ⟨s, fun j => by simp only [m1, r1, s1, Out.ofOption, Out.bind], bvMul_ne_nil s1, fun η h => ?_⟩
      rw [s2, r3 η h, m3, sv_one]
      simp only [and_ev, not_ev, c2, Bool.and_eq_true, Bool.not_eq_true', decide_eq_false_iff_not] at h
      have h2 := h.2
      have := hN η h.1
      have : (Bv.sv n η).toNat = (Bv.sv n η - 1).toNat + 1 := by omega
      rw [this, pow_succ, mul_comm]

/-- C91: `**` on bit-vectors is the power if the exponent is never negative. -/
theorem c91_bvpow_partial (base n : List (Fn o)) (hb : base ≠ []) (hn : n ≠ []) (h : ∀ η, 0 ≤ Bv.sv n η) :
    ∃ K r, (∀ k, bvpow (K + k) (tt o) base n = .ok r) ∧ r ≠ [] ∧ ∀ η, Bv.sv r η = Bv.sv base η ^ (Bv.sv n η).toNat := by
  obtain ⟨r, h1, h2, h3⟩ := bvpow_go base hb (2 ^ n.length) (tt o) n hn tt_sat
    (fun η _ => ⟨h η, by have := sv_bound n η; push_cast; zify at this; exact le_trans (le_abs_self _) this⟩)
  exact ⟨_, r, h1, h2, fun η => h3 η rfl⟩

example : bvpow 8 (tt codeOrder) (intBv codeOrder (-3)) (intBv codeOrder 3) = .ok (intBv codeOrder (-27)) := by decide +kernel

theorem bvpow_more (base : List (Fn o)) : ∀ (k : Nat) (p : Fn o) (n : List (Fn o)), n ≠ [] →
    (∃ η, p.ev η = true ∧ Bv.sv n η < 0) → bvpow k p base n = .more
  | 0, _, _, _, _ => rfl
  | k + 1, p, n, hn, ⟨η, h1, h2⟩ => by
    obtain ⟨c, c1, c2⟩ := eq_zero hn
    obtain ⟨m, m1, m2, m3⟩ := bvSub_spec n [ff o, tt o] hn (by simp)
    have hc : c.ev η = false := by rw [c2]; simp; omega
    have hm : Bv.sv m η < 0 := by rw [m3, sv_one]; omega
    rw [bvpow, c1]
    simp only [Out.ofOption, Out.bind]
    unfold branch
    have e1 := bvpow_more base k p m m2 ⟨η, h1, hm⟩
    have e2 := bvpow_more base k (p.and c.not) m m2 ⟨η, by simp [h1, hc], hm⟩
    rw [if_neg (fun h => by rw [h] at hc; cases hc)]
    split
    · simp only [m1, e1, Out.bind]
    split
    · simp only [m1, e2, Out.bind]
    rw [if_neg]
    · simp only [m1, e2, Out.bind]
    · intro h
      have := ff_iff.1 h η
      simp [h1, hc] at this

/-- C91 fails: `**` on bit-vectors never terminates if the exponent can be negative (`bv_pow` of C89 does). -/
theorem c91_bvpow_violated (base n : List (Fn o)) (hn : n ≠ []) (h : ∃ η, Bv.sv n η < 0) (k : Nat) :
    bvpow k (tt o) base n = .more := by
  obtain ⟨η, h⟩ := h
  exact bvpow_more base k (tt o) n hn ⟨η, rfl, h⟩

example : ∃ η, Bv.sv [var codeOrder "a", tt codeOrder] η < 0 := ⟨fun _ => true, by decide +kernel⟩

end

/-! ### Lists of bits -/

/-- C91: `bl2int` gives the number of a list of bits in two's complement. -/
theorem c91_bl2int (l : List Bool) (h : l ≠ []) : bl2int l = some (Bv.tc l) := by
  cases l with
  | nil => exact absurd rfl h
  | cons b l => rw [bl2int, uv_eq_tc]

example : bl2int [true, false, true] = some (-3) := by decide +kernel

theorem zero_star_ok {w : Nat} (z : Int) (h0 : 0 < w) (h1 : w ≤ 130000) : (Io.Field.bin ⟨[.zero], .star w⟩ z).Ok := by
  have : w < 2147483648 := lt_of_le_of_lt h1 (by norm_num)
  refine ⟨this, fun h => ?_⟩
  have h : w = 0 := h
  rw [h] at h0
  exact absurd h0 (Nat.lt_irrefl 0)

theorem zero_star_text {w : Nat} {z : Int} (h0 : 0 < w) (h2 : Io.bitLength z.natAbs ≤ w) :
    Io.textOf [.bin ⟨[.zero], .star w⟩ z] = some (Io.bits w z) := by
  have hw : (Io.Opts.mk [.zero] (.star w)).w = w := rfl
  have : Io.binText (Io.Opts.mk [.zero] (.star w)).w z = some (Io.bits w z) := by
    rw [hw, Io.binText, if_neg (by omega), if_neg (by omega)]
  simp only [Io.textOf, Io.Field.text, this]
  simp

theorem int2bl_eq {w : Nat} {z : Int} (h0 : 0 < w) (h1 : w ≤ 130000) (h2 : Io.bitLength z.natAbs ≤ w) :
    int2bl w z = some ((Io.bits w z).map fun e => decide (e = '1')) := by
  have hl : (Io.bits w z).length ≤ Io.strBlock := by rw [bits_length]; exact h1
  have h := Io.c62_sprintf_partial [.bin ⟨[.zero], .star w⟩ z] (Io.bits w z) (fun f hf => by
      rw [List.mem_singleton] at hf
      subst hf
      exact zero_star_ok z h0 h1) (zero_star_text h0 h2) hl
  have e1 : Io.fmtOf [.bin ⟨[.zero], .star w⟩ z] = "%0*b".toList := by
    simp [Io.fmtOf, Io.Field.fmt, Io.Opts.fmt, Io.Flag.char]
  have e2 : Io.argsOf [.bin ⟨[.zero], .star w⟩ z] = [.int w, .int z] := by
    simp [Io.argsOf, Io.Field.args, Io.Opts.args]
  rw [e1, e2] at h
  exact congrArg ones h

/-- C91: for the numbers that fit into the given number of bits, `int2bl` gives that many bits, and `bl2int` gives
the number again. -/
theorem c91_int2bl_partial (w : Nat) (z : Int) (h0 : 0 < w) (h1 : w ≤ 130000) (h2 : -2 ^ (w - 1) ≤ z) (h3 : z < 2 ^ (w - 1)) :
    ∃ l, int2bl w z = some l ∧ l.length = w ∧ Bv.tc l = z ∧ bl2int l = some z := by
  obtain ⟨v, rfl⟩ : ∃ v, w = v + 1 := ⟨w - 1, by omega⟩
  simp only [Nat.add_sub_cancel] at h2 h3
  have hb : Io.bitLength z.natAbs ≤ v + 1 := by
    unfold Io.bitLength
    split
    · omega
    · next hz =>
      have : z.natAbs.log2 < v + 1 := by
        rw [Nat.log2_lt hz, pow_succ]
        have hp : 0 < 2 ^ v := by positivity
        zify at hp ⊢
        rw [abs_lt]
        constructor <;> omega
      omega
  refine ⟨_, int2bl_eq h0 h1 hb, by simp [bits_length], ?_⟩
  have hlen : ((Io.bits (v + 1) z).map fun e => decide (e = '1')).length = v + 1 := by simp [bits_length]
  have hu := bits_tc (v + 1) z
  have hne : ((Io.bits (v + 1) z).map fun e => decide (e = '1')) ≠ [] := fun h => by rw [h] at hlen; simp at hlen
  rw [c91_bl2int _ hne]
  have : Bv.tc ((Io.bits (v + 1) z).map fun e => decide (e = '1')) = z := by
    generalize (Io.bits (v + 1) z).map (fun e => decide (e = '1')) = l at *
    cases l with
    | nil => exact absurd rfl hne
    | cons b l =>
      have hp : (0 : Int) < 2 ^ v := by positivity
      have hl : l.length = v := by simpa using hlen
      have hlt : Bv.uv l < 2 ^ v := by rw [← hl]; exact Bv.uv_lt l
      zify at hlt
      have hmod : (Bv.uv (b :: l) : Int) = z % 2 ^ (v + 1) := by
        rw [hu, Int.toNat_of_nonneg (Int.emod_nonneg _ (by positivity))]
      have hc : z % 2 ^ (v + 1) = if z < 0 then z + 2 ^ (v + 1) else z := by
        rw [pow_succ]
        split
        · rw [← Int.add_emod_right, Int.emod_eq_of_lt (by omega) (by omega)]
        · exact Int.emod_eq_of_lt (by omega) (by omega)
      rw [hc, Bv.uv] at hmod
      cases b
      · simp only [Bv.tc, Bv.uv] at *
        simp at hmod ⊢
        split at hmod
        · rw [pow_succ] at hmod; omega
        · exact hmod
      · simp only [Bv.tc, if_true, hl] at *
        push_cast at hmod
        rw [pow_succ] at hmod
        split at hmod <;> omega
  exact ⟨this, by rw [this]⟩

example : int2bl 4 (-8) = some [true, false, false, false] := by decide +kernel

/-- C91 fails: `int2bl` accepts numbers that do not fit, and gives another number: 9 in four bits is -7, and -15 is
1. -/
theorem c91_int2bl_violated : ∃ l m, int2bl 4 9 = some l ∧ bl2int l = some (-7) ∧
    int2bl 4 (-15) = some m ∧ bl2int m = some 1 :=
  ⟨[true, false, false, true], [false, false, false, true], by decide +kernel⟩

/-! ### Widths -/

/-- C91: `sbits_needed` gives the smallest number of bits in which a number can be written in two's complement. -/
theorem c91_sbits (n : Int) : ∃ w : Nat, sbitsNeeded n = some (w : Int) ∧ 0 < w ∧ -2 ^ (w - 1) ≤ n ∧ n < 2 ^ (w - 1) ∧
    ∀ v : Nat, 0 < v → -2 ^ (v - 1) ≤ n → n < 2 ^ (v - 1) → w ≤ v := by
  have mono : ∀ a b : Nat, a ≤ b → (2 : Int) ^ a ≤ 2 ^ b := fun a b h => by
    exact_mod_cast Nat.pow_le_pow_right (by omega) h
  unfold sbitsNeeded
  by_cases h0 : n = 0
  · subst h0
    exact ⟨1, rfl, by omega, by simp, by simp, fun v h _ _ => h⟩
  rw [if_neg h0]
  by_cases hp : 0 < n
  · rw [if_pos hp]
    obtain ⟨r, h1, h2, h3⟩ := (c91_log2 n).1 hp
    rw [h1]
    refine ⟨r + 2, ?_, by omega, ?_, h3, fun v h h4 h5 => ?_⟩
    · simp only [Option.map_some, Int.toNat_natCast]
      rw [if_pos h2]; push_cast; rfl
    · have : (0 : Int) < 2 ^ (r + 2 - 1) := by positivity
      omega
    · by_contra hc
      have := mono (v - 1) r (by omega)
      omega
  · rw [if_neg hp]
    obtain ⟨r, h1, h2, h3⟩ := (c91_log2 (-1 * n)).1 (by omega)
    dsimp only
    rw [h1]
    simp only [Option.map_some, Int.toNat_natCast]
    split
    · next h =>
      refine ⟨r + 2, by push_cast; rfl, by omega, by simp only [Nat.add_sub_cancel, show r + 2 - 1 = r + 1 by omega]; omega, ?_, fun v h4 h5 h6 => ?_⟩
      · have : (0 : Int) < 2 ^ (r + 2 - 1) := by positivity
        omega
      · by_contra hc
        have := mono (v - 1) r (by omega)
        omega
    · next h =>
      refine ⟨r + 1, by push_cast; rfl, by omega, by simp only [Nat.add_sub_cancel]; omega, ?_, fun v h4 h5 h6 => ?_⟩
      · have : (0 : Int) < 2 ^ (r + 1 - 1) := by positivity
        omega
      · by_contra hc
        have := mono (v - 1 + 1) r (by omega)
        rw [pow_succ] at this
        have : (0 : Int) < 2 ^ (v - 1) := by positivity
        omega

/-- C91: `ubits_needed` gives the smallest number of bits, at least one, in which a number can be written without a
sign, and fails for negative numbers. -/
theorem c91_ubits (n : Int) :
    (0 ≤ n → ∃ w : Nat, ubitsNeeded n = some (w : Int) ∧ 0 < w ∧ n < 2 ^ w ∧ ∀ v : Nat, 0 < v → n < 2 ^ v → w ≤ v) ∧
    (n < 0 → ubitsNeeded n = none) := by
  have mono : ∀ a b : Nat, a ≤ b → (2 : Int) ^ a ≤ 2 ^ b := fun a b h => by
    exact_mod_cast Nat.pow_le_pow_right (by omega) h
  unfold ubitsNeeded
  constructor
  · intro h
    rw [if_neg (by omega)]
    by_cases h0 : n = 0
    · subst h0
      exact ⟨1, rfl, by omega, by simp, fun v h _ => h⟩
    rw [if_neg h0]
    obtain ⟨r, h1, h2, h3⟩ := (c91_log2 n).1 (by omega)
    rw [h1]
    refine ⟨r + 1, ?_, by omega, h3, fun v h h4 => ?_⟩
    · simp only [Option.map_some, Int.toNat_natCast]
      rw [if_pos h2]; push_cast; rfl
    · by_contra hc
      have := mono v r (by omega)
      omega
  · intro h
    rw [if_pos h]

/-- C91: `nearest_power_of_2` gives the smallest power of two that is not smaller than the number. -/
theorem c91_nearest (n : Int) (h : 0 < n) : ∃ k : Nat, nearestPower n = some (2 ^ k) ∧ n ≤ 2 ^ k ∧
    ∀ j : Nat, n ≤ 2 ^ j → (2 : Int) ^ k ≤ 2 ^ j := by
  have mono : ∀ a b : Nat, a ≤ b → (2 : Int) ^ a ≤ 2 ^ b := fun a b h => by
    exact_mod_cast Nat.pow_le_pow_right (by omega) h
  obtain ⟨r, h1, h2, h3⟩ := (c91_log2 n).1 h
  unfold nearestPower
  rw [h1]
  simp only [Option.map_some, Int.toNat_natCast]
  split
  · next e => exact ⟨r, by rw [e], by omega, fun j hj => by omega⟩
  · next e =>
    refine ⟨r + 1, by rw [show ((r : Int) + 1).toNat = r + 1 by omega], by omega, fun j hj => mono _ _ ?_⟩
    by_contra hc
    have := mono j r (by omega)
    omega

example : sbitsNeeded (-8) = some 4 ∧ sbitsNeeded (-9) = some 5 ∧ sbitsNeeded 8 = some 5 ∧ ubitsNeeded 8 = some 4 ∧
    nearestPower 9 = some 16 := by decide +kernel

/-! ### Random numbers -/

theorem findRandom_spec {imax nmax : Int} (hi : 0 < imax) (draw : Nat → Int) (hd : ∀ i, 0 ≤ draw i) :
    ∀ (k pos : Nat) (r : Int), findRandom imax nmax draw k pos = some r → 0 ≤ r ∧ r < imax
  | 0, _, _, h => by simp [findRandom] at h
  | k + 1, pos, r, h => by
    rw [findRandom] at h
    split at h
    · simp only [Option.some.injEq] at h
      rw [← h]
      exact ⟨Int.emod_nonneg _ (by omega), Int.emod_lt_of_pos _ hi⟩
    · exact findRandom_spec hi draw hd k _ r h

theorem findRandom_first {imax nmax : Int} (draw : Nat → Int) : ∀ (k pos i : Nat),
    (∀ j, j < i → ¬ draw (pos + j) < nmax / imax * imax) → draw (pos + i) < nmax / imax * imax →
    findRandom imax nmax draw (i + 1 + k) pos = some (draw (pos + i) % imax) := by
  intro k pos i
  induction i generalizing pos with
  | zero =>
    intro _ h
    rw [Nat.add_zero] at h
    rw [show 0 + 1 + k = k + 1 by omega, findRandom, if_pos h, Nat.add_zero]
  | succ i ih =>
    intro h1 h2
    rw [show i + 1 + 1 + k = (i + 1 + k) + 1 by omega, findRandom, if_neg (by simpa using h1 0 (by omega))]
    have := ih (pos + 1) (fun j hj => by
      have := h1 (j + 1) (by omega)
      rwa [show pos + (j + 1) = pos + 1 + j by omega] at this) (by rwa [show pos + (i + 1) = pos + 1 + i by omega] at h2)
    rw [this, show pos + 1 + i = pos + (i + 1) by omega]

/-- C91: `random min max` only gives numbers from `min` to `max`, and fails if there are none. -/
theorem c91_random (draw : Int → Nat → Int) (hd : ∀ b i, 0 ≤ draw b i ∧ draw b i < 2 ^ b.toNat) (k : Nat) (min max : Int) :
    (∀ r, random draw k min max = some r → min ≤ r ∧ r ≤ max) ∧ (max < min → random draw k min max = none) := by
  unfold random
  constructor
  · intro r h
    split at h
    · simp only [Option.some.injEq] at h; omega
    split at h
    · cases h
    · dsimp only at h
      obtain ⟨l, l1, l2, l3⟩ := (c91_log2 (max - min + 1)).1 (by omega)
      rw [l1] at h
      simp only [Option.bind_some, Int.toNat_natCast] at h
      split at h
      · next e =>
        simp only [Option.some.injEq] at h
        have := hd l 0
        rw [Int.toNat_natCast] at this
        omega
      · obtain ⟨m, m1, _, _⟩ := (c91_log2 (10000 * (max - min + 1))).1 (by omega)
        rw [m1] at h
        simp only [Option.bind_some, Option.map_eq_some_iff] at h
        obtain ⟨a, h1, h2⟩ := h
        have := findRandom_spec (by omega) _ (fun i => (hd _ i).1) _ _ _ h1
        omega
  · intro h
    rw [if_neg (by omega), if_pos (by omega)]

/-- C91: `random` is fair.  It takes the first of the draws of `b` random bits below a bound; the draws below the
bound are `q` for each of the numbers from `min` to `max`, and no others; and less than one draw in 5000 is wasted. -/
theorem c91_random_fair (min max : Int) (h : min < max) : ∃ (b q : Nat) (bound : Int) (f : Int → Int), 0 < q ∧
    bound ≤ 2 ^ b ∧ 5000 * (2 ^ b - bound) < 2 ^ b ∧
    (∀ (draw : Int → Nat → Int) (i k : Nat), (∀ j, 0 ≤ draw b j ∧ draw b j < 2 ^ b) →
      (∀ j, j < i → ¬ draw b j < bound) → draw b i < bound → random draw (i + 1 + k) min max = some (f (draw b i))) ∧
    ∀ v, min ≤ v → v ≤ max → ∃ g : Nat → Int, (∀ j, j < q → 0 ≤ g j ∧ g j < bound ∧ f (g j) = v) ∧
      (∀ i j, i < q → j < q → g i = g j → i = j) ∧ ∀ d, 0 ≤ d → d < bound → f d = v → ∃ j, j < q ∧ d = g j := by
  obtain ⟨l, l1, l2, l3⟩ := (c91_log2 (max - min + 1)).1 (by omega)
  by_cases e : (2 : Int) ^ l = max - min + 1
  · have hp : (0 : Int) < 2 ^ l := by positivity
    refine ⟨l, 1, 2 ^ l, fun d => min + d, by omega, by omega, by omega, fun draw i k hd h1 h2 => ?_, fun v v1 v2 => ?_⟩
    · have hi : i = 0 := by
        by_contra hi
        exact h1 0 (by omega) (hd 0).2
      subst hi
      unfold random
      rw [if_neg (by omega), if_neg (by omega)]
      dsimp only
      rw [l1]
      simp only [Option.bind_some, Int.toNat_natCast]
      rw [if_pos e]
    · refine ⟨fun _ => v - min, fun j hj => ?_, fun i j hi hj _ => by omega, fun d h1 h2 h3 => ⟨0, by omega, ?_⟩⟩
      · dsimp only
        refine ⟨by omega, by omega, by omega⟩
      · dsimp only at h3 ⊢
        omega
  · obtain ⟨m, m1, m2, m3⟩ := (c91_log2 (10000 * (max - min + 1))).1 (by omega)
    set I := max - min + 1 with hI
    have hp : (0 : Int) < I := by omega
    have hm := Int.mul_ediv_add_emod (2 ^ m) I
    have hr1 := Int.emod_nonneg (2 ^ m) (ne_of_gt hp)
    have hr2 := Int.emod_lt_of_pos (2 ^ m) hp
    have hb : 2 ^ m / I * I = 2 ^ m - 2 ^ m % I := by rw [mul_comm]; omega
    have hq : 0 < 2 ^ m / I := by
      have h1 : I * 1 ≤ 2 ^ m := by rw [pow_succ] at m3; omega
      have h2 : 1 ≤ 2 ^ m / I := (Int.le_ediv_iff_mul_le hp).2 (by omega)
      omega
    refine ⟨m, (2 ^ m / I).toNat, 2 ^ m / I * I, fun d => min + d % I, by omega, by omega, ?_, fun draw i k hd h1 h2 => ?_,
      fun v v1 v2 => ?_⟩
    · rw [hb]
      rw [pow_succ] at m3
      omega
    · unfold random
      rw [if_neg (by omega), if_neg (by omega)]
      dsimp only
      rw [← hI, l1]
      simp only [Option.bind_some, Int.toNat_natCast]
      rw [if_neg e, m1]
      simp only [Option.bind_some, Int.toNat_natCast]
      rw [findRandom_first (draw m) k 0 i (by simpa using h1) (by simpa using h2)]
      simp
    · refine ⟨fun j => (v - min) + I * j, fun j hj => ?_, fun i j hi hj hij => ?_, fun d d1 d2 d3 => ?_⟩
      · dsimp only
        refine ⟨?_, ?_, ?_⟩
        · have : 0 ≤ I * (j : Int) := by positivity
          omega
        · have : I * (j : Int) + I ≤ I * (2 ^ m / I) := by
            have h1 : (j : Int) + 1 ≤ 2 ^ m / I := by omega
            calc I * (j : Int) + I = I * (j + 1) := by ring
              _ ≤ _ := mul_le_mul_of_nonneg_left h1 (by omega)
          rw [mul_comm (2 ^ m / I) I]
          omega
        · rw [Int.add_mul_emod_self_left, Int.emod_eq_of_lt (by omega) (by omega)]
          omega
      · have : I * ((i : Int) - j) = 0 := by rw [mul_sub]; dsimp only at hij; omega
        rcases mul_eq_zero.1 this with h | h <;> omega
      · have hd := Int.mul_ediv_add_emod d I
        have h1 : 0 ≤ d / I := Int.ediv_nonneg d1 (by omega)
        have h2 : d / I < 2 ^ m / I := Int.ediv_lt_of_lt_mul hp d2
        refine ⟨(d / I).toNat, by omega, ?_⟩
        dsimp only at d3 ⊢
        rw [Int.toNat_of_nonneg h1]
        omega

example : random (fun _ i => if i = 0 then 65533 else 12345) 2 10 15 = some (10 + 12345 % 6) := by decide +kernel

/-! ### Sets of integers -/

/-- C91, `set2iset`: a list of positive numbers becomes a set with these members; other numbers are refused. -/
theorem c91_iset_make (l : List Int) :
    ((∀ e ∈ l, 1 ≤ e) → ∃ m : Nat, set2iset l = some (m : Int) ∧ ∀ e, 1 ≤ e → imem m e = some (decide (e ∈ l))) ∧
    ((∃ e ∈ l, e ≤ 0) → set2iset l = none) := by
  constructor
  · intro h
    induction l with
    | nil =>
      refine ⟨0, rfl, fun e he => ?_⟩
      rw [imem_nat _ _ he]; simp
    | cons a l ih =>
      obtain ⟨m, m1, m2⟩ := ih fun e he => h e (List.mem_cons_of_mem _ he)
      have ha : 1 ≤ a := h a (by simp)
      refine ⟨2 ^ (a - 1).toNat ||| m, ?_, fun e he => ?_⟩
      · rw [set2iset, m1, Option.bind_some, if_neg (by omega), ← lor_nat]
        congr 2
      · rw [imem_nat _ _ he, Nat.testBit_or, Nat.testBit_two_pow]
        have := m2 e he
        rw [imem_nat _ _ he, Option.some.injEq] at this
        rw [this]
        congr 1
        rw [Bool.eq_iff_iff]
        simp only [Bool.or_eq_true, decide_eq_true_iff, List.mem_cons]
        constructor
        · rintro (h | h)
          · left; omega
          · exact Or.inr h
        · rintro (h | h)
          · left; omega
          · exact Or.inr h
  · intro h
    induction l with
    | nil => simp at h
    | cons a l ih =>
      rw [set2iset]
      obtain ⟨e, he, h0⟩ := h
      rcases List.mem_cons.1 he with rfl | he
      · cases set2iset l with
        | none => rfl
        | some i => rw [Option.bind_some, if_pos h0]
      · rw [ih ⟨e, he, h0⟩]; rfl

/-- C91, `iset2set` gives the members in increasing order, each once, and `ipop_cnt` gives their number. -/
theorem c91_iset_list (m : Nat) : ∃ l, iset2set m = some l ∧ l.Pairwise (· < ·) ∧
    (∀ e ∈ l, 1 ≤ e) ∧ (∀ e, 1 ≤ e → imem m e = some (decide (e ∈ l))) ∧ ipopCnt m = some (l.length : Int) := by
  have key : ∃ l, iset2set m = some l ∧ IsBits m 1 l ∧ ipopCnt m = some (l.length : Int) := by
    unfold iset2set ipopCnt
    by_cases h : m = 0
    · subst h
      exact ⟨[], rfl, ⟨List.Pairwise.nil, by simp⟩, rfl⟩
    · rw [if_neg (by omega), if_neg (by omega), Int.toNat_natCast]
      exact isetGo_spec (m + 1) m (by omega) 1
  obtain ⟨l, l1, l2, l3⟩ := key
  refine ⟨l, l1, l2.1, fun e he => ?_, fun e he => ?_, l3⟩
  · obtain ⟨j, _, rfl⟩ := (l2.2 e).1 he
    omega
  · rw [imem_nat _ _ he]
    congr 1
    rw [Bool.eq_iff_iff, decide_eq_true_iff, l2.2]
    constructor
    · intro h
      exact ⟨_, h, by omega⟩
    · rintro ⟨j, h, rfl⟩
      rwa [show (1 + (j : Int) - 1).toNat = j by omega]

/-- C91: `iunion`, `iintersect` and `isubtract` are union, intersection and difference of sets. -/
theorem c91_iset_ops (a b : Nat) : ∃ u i d : Nat, iunion a b = u ∧ iintersect a b = i ∧ isubtract a b = d ∧
    ∀ e, 1 ≤ e → ∃ p q, imem a e = some p ∧ imem b e = some q ∧ imem u e = some (p || q) ∧ imem i e = some (p && q) ∧
      imem d e = some (p && !q) := by
  refine ⟨a ||| b, a &&& b, Nat.ldiff a b, rfl, rfl, rfl, fun e he => ⟨_, _, imem_nat _ _ he, imem_nat _ _ he, ?_, ?_, ?_⟩⟩
  · rw [imem_nat _ _ he, Nat.testBit_or]
  · rw [imem_nat _ _ he, Nat.testBit_and]
  · rw [imem_nat _ _ he, Nat.testBit_ldiff]

/-- C91: membership is asked for positive numbers only. -/
theorem c91_imem_fails (i e : Int) (h : e ≤ 0) : imem i e = none := by
  unfold imem
  rw [if_pos h]

example : set2iset [3, 70, 1, 3] = some (2 ^ 69 + 5) ∧ isetGo 9 (2 ^ 69 + 5) 1 = some [1, 3, 70] ∧ popGo 9 (2 ^ 69 + 5) = some 3 := by decide +kernel

/-! ### Primes and factorials -/

/-- C91: `primes` is the list of the prime numbers, in order. -/
theorem c91_primes (k : Nat) : sieve k [] 2 = (List.range' 2 k).filter fun n => decide n.Prime :=
  sieve_spec k 2 [] (Nat.le_refl _) fun p => by
    simp only [List.not_mem_nil, false_iff, not_and, not_lt]
    exact fun h => h.two_le

/-- C91: `factor` gives prime numbers in increasing order whose product is the number, and fails for numbers that
are not positive. -/
theorem c91_factor (n : Int) :
    (0 < n → ∃ l, factor n = some l ∧ (∀ p ∈ l, p.Prime) ∧ l.Pairwise (· ≤ ·) ∧ (l.prod : Int) = n) ∧
    (n ≤ 0 → factor n = none) := by
  constructor
  · intro h
    refine ⟨n.toNat.primeFactorsList, ?_, fun p hp => Nat.prime_of_mem_primeFactorsList hp, ?_, ?_⟩
    · unfold factor
      rw [if_neg (by omega), c91_primes]
      exact factorRec_spec _ _ _ (by omega) (Nat.le_refl _) (by omega)
    · exact (Nat.primeFactorsList_sorted _).pairwise
    · rw [Nat.prod_primeFactorsList (by omega)]; omega
  · intro h
    unfold factor
    rw [if_pos h]

example : factor 360 = some [2, 2, 2, 3, 3, 5] := by decide +kernel

/-- C91: `factorial` and `choose` are what they are called, for positive numbers, and fail otherwise. -/
theorem c91_factorial (n k : Int) :
    (0 < n → factorial n = some (n.toNat.factorial : Int)) ∧ (n ≤ 0 → factorial n = none) ∧
    (0 < k → k ≤ n → choose n k = some (n.toNat.choose k.toNat : Int)) ∧ (n ≤ 0 ∨ k ≤ 0 ∨ n < k → choose n k = none) := by
  refine ⟨fun h => ?_, fun h => ?_, fun h1 h2 => ?_, fun h => ?_⟩
  · unfold factorial
    rw [if_neg (by omega), fac_eq]
  · unfold factorial
    rw [if_pos h]
  · unfold choose
    rw [if_neg (by omega), if_neg (by omega), if_neg (by omega), fac_eq, fac_eq, fac_eq]
    rw [show (n - k).toNat = n.toNat - k.toNat by omega]
    congr 1
    rw [Nat.choose_eq_factorial_div_factorial (by omega)]
    push_cast
    rw [mul_comm]
  · unfold choose
    split
    · rfl
    split
    · rfl
    rw [if_pos (by omega)]

example : factorial 5 = some 120 ∧ choose 7 3 = some 35 := by decide +kernel

end Voss.Pre
