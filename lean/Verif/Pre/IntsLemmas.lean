import Verif.Pre.Ints
import Verif.Pre.PowLemmas
import Verif.Io.FmtProps
import Mathlib.Data.Nat.Factors
import Mathlib.Data.Nat.Bitwise
import Mathlib.Data.Nat.Choose.Basic
import Mathlib.Data.Nat.Choose.Factorization
import Mathlib.Tactic.NormNum
/- Lemmas for C91. -/
namespace Voss.Pre

/-! ### Logarithms and powers -/

theorem logGo_spec : ∀ (k n : Nat), 0 < n → n ≤ k → logGo k n = some (n.log2 : Int)
  | 0, n, h, hk => by omega
  | k + 1, n, h, hk => by
    unfold logGo
    by_cases h1 : n = 1
    · subst h1
      simp [Nat.log2_def]
    · rw [if_neg (by omega)]
      have e : (n : Int) / 2 = ((n / 2 : Nat) : Int) := by omega
      rw [e, logGo_spec k (n / 2) (by omega) (by omega), Nat.log2_def n, if_pos (by omega)]
      simp [add_comm]

theorem log2_spec {n : Int} (h : 0 < n) : log2 n = some (n.toNat.log2 : Int) := by
  unfold log2
  rw [if_neg (by omega)]
  have := logGo_spec n.toNat n.toNat (by omega) (Nat.le_refl _)
  rwa [Int.toNat_of_nonneg (by omega)] at this

theorem powGo_eq (base : Int) (n : Nat) : powGo base n = base ^ n := by
  induction n with
  | zero => rw [pow_zero]; rfl
  | succ n ih => rw [powGo, ih, pow_succ, mul_comm]

theorem bits_reverse (w : Nat) (z : Int) :
    (Io.bits (w + 1) z).reverse = (if z % 2 = 1 then '1' else '0') :: (Io.bits w (z / 2)).reverse := by
  simp [Io.bits]

theorem square_bits (w : Nat) : ∀ (base : Int) (n : Nat), n < 2 ^ w → square base (Io.bits w n).reverse = base ^ n := by
  induction w with
  | zero =>
    intro base n h
    have : n = 0 := by simpa using h
    subst this
    simp [Io.bits, square]
  | succ w ih =>
    intro base n h
    have e : (n : Int) / 2 = ((n / 2 : Nat) : Int) := by omega
    rw [bits_reverse, square, e, ih (base * base) (n / 2) (by rw [pow_succ] at h; omega), ← pow_two, ← pow_mul]
    by_cases h2 : n % 2 = 1
    · have : (n : Int) % 2 = 1 := by omega
      rw [if_pos this, if_pos rfl, ← pow_succ']
      congr 1; omega
    · have : ¬ (n : Int) % 2 = 1 := by omega
      rw [if_neg this, if_neg (by decide), one_mul]
      congr 1; omega

theorem lt_bitLength (n : Nat) : n < 2 ^ Io.bitLength n := by
  unfold Io.bitLength
  split
  · next h => subst h; decide
  · exact Nat.lt_log2_self

theorem bits_length (w : Nat) : ∀ z : Int, (Io.bits w z).length = w := by
  induction w with
  | zero => intro z; rfl
  | succ w ih => intro z; simp [Io.bits, ih]

theorem sprintf_b {n : Int} (hn : 0 ≤ n) (hs : n.toNat.log2 < 129998) :
    Io.sprintf "%b".toList [.int n] = .ok (Io.bits (Io.bitLength n.natAbs + 1) n) := by
  have h := Io.c62_sprintf_partial [.bin ⟨[], .none⟩ n] (Io.bits (Io.bitLength n.natAbs + 1) n)
  have hb : Io.bitLength n.natAbs ≤ 129998 := by
    unfold Io.bitLength
    have : n.natAbs = n.toNat := by omega
    rw [this]
    split <;> omega
  refine h ?_ ?_ ?_
  · intro f hf
    simp only [List.mem_singleton] at hf
    subst hf
    simp [Io.Field.Ok, Io.Opts.Ok, Io.Opts.zeros]
  · simp [Io.textOf, Io.Field.text, Io.binText, Io.Opts.w]
  · rw [bits_length]
    show _ ≤ 130000
    omega

/-! ### Bit lists -/

theorem uv_eq_tc {b : Bool} {l : List Bool} : (Bv.tc (b :: l) : Int) =
    if b then -1 * (2 ^ (b :: l).length - (Bv.uv (b :: l) : Int)) else (Bv.uv (b :: l) : Int) := by
  cases b
  · simp [Bv.tc, Bv.uv]
  · simp only [Bv.tc, Bv.uv, if_true, List.length_cons, pow_succ]
    push_cast
    ring

theorem bits_tc (w : Nat) : ∀ z : Int, Bv.uv ((Io.bits w z).map fun e => decide (e = '1')) = (z % 2 ^ w).toNat := by
  induction w with
  | zero => intro z; simp [Io.bits, Bv.uv, Int.emod_one]
  | succ w ih =>
    intro z
    simp only [Io.bits, List.map_append, List.map_cons, List.map_nil, Bv.uv_append]
    have hu : Bv.uv [decide ((if z % 2 = 1 then '1' else '0') = '1')] = (z % 2).toNat := by
      by_cases h : z % 2 = 1
      · rw [if_pos h, h]; decide
      · have h0 : z % 2 = 0 := by omega
        rw [if_neg h, h0]; decide
    rw [ih, hu]
    simp only [List.length_singleton, pow_one]
    have h1 : z % 2 ^ (w + 1) = 2 * (z / 2 % 2 ^ w) + z % 2 := by
      have hp : (0 : Int) < 2 ^ w := by positivity
      have e1 := Int.mul_ediv_add_emod (z / 2) (2 ^ w)
      have e3 := Int.emod_lt_of_pos (z / 2) hp
      have e4 := Int.emod_nonneg (z / 2) (ne_of_gt hp)
      have e2 : z = (2 * (z / 2 % 2 ^ w) + z % 2) + 2 ^ (w + 1) * (z / 2 / 2 ^ w) := by
        rw [pow_succ, mul_comm ((2 : Int) ^ w) 2, mul_assoc]; omega
      conv_lhs => rw [e2]
      rw [Int.add_mul_emod_self_left, Int.emod_eq_of_lt (by omega) (by rw [pow_succ]; omega)]
    have h2 : 0 ≤ z / 2 % 2 ^ w := Int.emod_nonneg _ (by positivity)
    omega

/-! ### Sets -/

theorem land_nat (m n : Nat) : Int.land m n = ((m &&& n : Nat) : Int) := rfl
theorem lor_nat (m n : Nat) : Int.lor m n = ((m ||| n : Nat) : Int) := rfl
theorem ldiff_nat (m n : Nat) : Int.land m (Int.lnot n) = ((Nat.ldiff m n : Nat) : Int) := rfl

theorem imem_nat (m : Nat) (e : Int) (h : 1 ≤ e) : imem m e = some (m.testBit (e - 1).toNat) := by
  unfold imem
  rw [if_neg (by omega)]
  have e2 : (2 : Int) ^ (e - 1).toNat = ((2 ^ (e - 1).toNat : Nat) : Int) := by push_cast; rfl
  rw [e2, land_nat, Nat.and_two_pow]
  cases m.testBit (e - 1).toNat
  · simp
  · simp

theorem land_mask (m s : Nat) : Int.land m ((2 ^ s - 1 : Nat) : Int) = ((m % 2 ^ s : Nat) : Int) := by
  rw [land_nat, Nat.and_two_pow_sub_one_eq_mod]

theorem testBit_shift {m s : Nat} (h : m % 2 ^ s = 0) (j : Nat) :
    m.testBit j = true ↔ ∃ i, j = s + i ∧ (m / 2 ^ s).testBit i = true := by
  constructor
  · intro hj
    by_cases hs : j < s
    · have := Nat.testBit_mod_two_pow m s j
      rw [h, Nat.zero_testBit, hj] at this
      simp [hs] at this
    · refine ⟨j - s, by omega, ?_⟩
      rw [Nat.testBit_div_two_pow]
      rwa [show j - s + s = j by omega]
  · rintro ⟨i, rfl, hi⟩
    rw [Nat.testBit_div_two_pow] at hi
    rwa [Nat.add_comm] at hi

/-- The numbers of the bits that are set, counted from `pow`. -/
def IsBits (m : Nat) (pow : Int) (l : List Int) : Prop :=
  l.Pairwise (· < ·) ∧ ∀ e, e ∈ l ↔ ∃ j : Nat, m.testBit j = true ∧ e = pow + j

theorem isBits_shift {m s : Nat} {pow : Int} {l : List Int} (h : m % 2 ^ s = 0) (hl : IsBits (m / 2 ^ s) (pow + s) l) :
    IsBits m pow l := by
  refine ⟨hl.1, fun e => ?_⟩
  rw [hl.2]
  constructor
  · rintro ⟨i, h1, rfl⟩
    exact ⟨s + i, (testBit_shift h _).2 ⟨i, rfl, h1⟩, by push_cast; ring⟩
  · rintro ⟨j, h1, rfl⟩
    obtain ⟨i, rfl, hi⟩ := (testBit_shift h j).1 h1
    exact ⟨i, hi, by push_cast; ring⟩

theorem isBits_odd {m : Nat} {pow : Int} {l : List Int} (h : m % 2 = 1) (hl : IsBits (m / 2) (pow + 1) l) :
    IsBits m pow (pow :: l) := by
  constructor
  · rw [List.pairwise_cons]
    refine ⟨fun e he => ?_, hl.1⟩
    obtain ⟨j, _, rfl⟩ := (hl.2 e).1 he
    omega
  · intro e
    rw [List.mem_cons, hl.2]
    constructor
    · rintro (rfl | ⟨j, h1, rfl⟩)
      · exact ⟨0, by simp [Nat.testBit_zero, h], by simp⟩
      · exact ⟨j + 1, by rw [Nat.testBit_succ]; exact h1, by push_cast; ring⟩
    · rintro ⟨j, h1, rfl⟩
      cases j with
      | zero => left; simp
      | succ j => right; exact ⟨j, by rw [Nat.testBit_succ] at h1; exact h1, by push_cast; ring⟩

theorem isetGo_spec : ∀ (k m : Nat), m < k → ∀ pow : Int,
    ∃ l, isetGo k m pow = some l ∧ IsBits m pow l ∧ popGo k m = some (l.length : Int) := by
  intro k
  induction k with
  | zero => intro m h; omega
  | succ k ih =>
    intro m h pow
    by_cases h0 : m = 0
    · subst h0
      exact ⟨[], rfl, ⟨List.Pairwise.nil, by simp⟩, rfl⟩
    have hm : ¬ (m : Int) = 0 := by omega
    have shift : ∀ s : Nat, 0 < s → m % 2 ^ s = 0 → ∃ l, isetGo k ((m : Int) / (2 ^ s : Nat)) (pow + s) = some l ∧ IsBits m pow l ∧
        popGo k ((m : Int) / (2 ^ s : Nat)) = some (l.length : Int) := by
      intro s hs hz
      have h2 : 2 ≤ 2 ^ s := by calc 2 = 2 ^ 1 := rfl
                                     _ ≤ 2 ^ s := Nat.pow_le_pow_right (by omega) hs
      obtain ⟨l, l1, l2, l3⟩ := ih (m / 2 ^ s) (lt_of_lt_of_le (Nat.div_lt_self (by omega) h2) (by omega)) (pow + s)
      rw [← Int.natCast_div]
      exact ⟨l, l1, isBits_shift hz l2, l3⟩
    unfold isetGo popGo
    rw [if_neg hm, if_neg hm]
    have mk : ∀ s : Nat, Int.land (m : Int) ((2 ^ s - 1 : Nat) : Int) = 0 ↔ m % 2 ^ s = 0 := by
      intro s; rw [land_mask]; omega
    have m32 := mk 32; have m16 := mk 16; have m8 := mk 8; have m4 := mk 4; have m1 := mk 1
    have s32 := shift 32 (by omega); have s16 := shift 16 (by omega); have s8 := shift 8 (by omega)
    have s4 := shift 4 (by omega); have s1 := shift 1 (by omega)
    norm_num at m32 m16 m8 m4 m1 s32 s16 s8 s4 s1
    by_cases c32 : m % 4294967296 = 0
    · rw [if_pos (m32.2 c32), if_pos (m32.2 c32)]; exact s32 c32
    rw [if_neg (fun h => c32 (m32.1 h)), if_neg (fun h => c32 (m32.1 h))]
    by_cases c16 : m % 65536 = 0
    · rw [if_pos (m16.2 c16), if_pos (m16.2 c16)]; exact s16 c16
    rw [if_neg (fun h => c16 (m16.1 h)), if_neg (fun h => c16 (m16.1 h))]
    by_cases c8 : m % 256 = 0
    · rw [if_pos (m8.2 c8), if_pos (m8.2 c8)]; exact s8 c8
    rw [if_neg (fun h => c8 (m8.1 h)), if_neg (fun h => c8 (m8.1 h))]
    by_cases c4 : m % 16 = 0
    · rw [if_pos (m4.2 c4), if_pos (m4.2 c4)]; exact s4 c4
    rw [if_neg (fun h => c4 (m4.1 h)), if_neg (fun h => c4 (m4.1 h))]
    by_cases c1 : m % 2 = 0
    · rw [if_pos (m1.2 c1), if_pos (m1.2 c1)]; exact s1 c1
    rw [if_neg (fun h => c1 (m1.1 h)), if_neg (fun h => c1 (m1.1 h))]
    obtain ⟨l, l1, l2, l3⟩ := ih (m / 2) (by omega) (pow + 1)
    have e : (m : Int) / 2 = ((m / 2 : Nat) : Int) := by omega
    rw [e, l1, l3]
    exact ⟨pow :: l, rfl, isBits_odd (by omega) l2, by simp [add_comm]⟩

/-! ### Primes -/

theorem sieve_spec : ∀ (k j : Nat) (fs : List Nat), 2 ≤ j → (∀ p, p ∈ fs ↔ p.Prime ∧ p < j) →
    sieve k fs j = (List.range' j k).filter fun n => decide n.Prime
  | 0, _, _, _, _ => rfl
  | k + 1, j, fs, hj, hf => by
    have key : fs.all (fun i => decide (j % i ≠ 0)) = decide j.Prime := by
      rw [Bool.eq_iff_iff, List.all_eq_true]
      simp only [decide_eq_true_iff]
      constructor
      · intro h
        by_contra hp
        have h1 : j.minFac < j := (Nat.not_prime_iff_minFac_lt hj).1 hp
        exact h _ ((hf _).2 ⟨Nat.minFac_prime (by omega), h1⟩) (Nat.mod_eq_zero_of_dvd (Nat.minFac_dvd j))
      · intro hp i hi hz
        obtain ⟨h1, h2⟩ := (hf i).1 hi
        rcases (Nat.dvd_prime hp).1 (Nat.dvd_of_mod_eq_zero hz) with h | h
        · exact h1.ne_one h
        · omega
    rw [sieve, key, List.range'_succ, List.filter_cons]
    by_cases hp : j.Prime
    · rw [if_pos (by simpa using hp), if_pos (by simpa using hp)]
      rw [sieve_spec k (j + 1) (fs ++ [j]) (by omega) fun p => ?_]
      rw [List.mem_append, hf, List.mem_singleton]
      constructor
      · rintro (⟨h1, h2⟩ | rfl)
        · exact ⟨h1, by omega⟩
        · exact ⟨hp, by omega⟩
      · rintro ⟨h1, h2⟩
        by_cases e : p = j
        · exact Or.inr e
        · exact Or.inl ⟨h1, by omega⟩
    · rw [if_neg (by simpa using hp), if_neg (by simpa using hp)]
      rw [sieve_spec k (j + 1) fs (by omega) fun p => ?_]
      rw [hf]
      constructor
      · rintro ⟨h1, h2⟩; exact ⟨h1, by omega⟩
      · rintro ⟨h1, h2⟩
        refine ⟨h1, ?_⟩
        by_contra hlt
        have : p = j := by omega
        exact hp (this ▸ h1)

theorem find_minFac {N n : Nat} (h2 : 2 ≤ n) (hN : n ≤ N) :
    ((List.range' 2 N).filter fun n => decide n.Prime).find? (fun p => decide (n % p = 0)) = some n.minFac := by
  rw [List.find?_filter]
  have hpr := Nat.minFac_prime (n := n) (by omega)
  have hle : n.minFac ≤ n := Nat.minFac_le (by omega)
  have h1 := hpr.two_le
  rw [List.find?_range'_eq_some]
  refine ⟨?_, ?_, ?_⟩
  · simp only [Bool.and_eq_true, decide_eq_true_iff]
    exact ⟨hpr, Nat.mod_eq_zero_of_dvd (Nat.minFac_dvd n)⟩
  · rw [List.mem_range'_1]; omega
  · intro j hj1 hj2
    simp only [Bool.not_eq_true', decide_eq_false_iff_not, decide_eq_true_iff]
    rintro ⟨hp, hz⟩
    have := Nat.minFac_le_of_dvd hp.two_le (Nat.dvd_of_mod_eq_zero hz)
    omega

theorem factorRec_spec (N : Nat) : ∀ (k n : Nat), 1 ≤ n → n ≤ N → n < k →
    factorRec ((List.range' 2 N).filter fun n => decide n.Prime) k n = some n.primeFactorsList
  | 0, _, _, _, h => by omega
  | k + 1, n, h1, h2, h3 => by
    rw [factorRec]
    by_cases e : n = 1
    · subst e; simp
    · rw [if_neg e, find_minFac (by omega) h2]
      have hpr := Nat.minFac_prime (n := n) e
      have hd : n / n.minFac < n := Nat.div_lt_self (by omega) hpr.one_lt
      have hpos : 0 < n / n.minFac := Nat.div_pos (Nat.minFac_le (by omega)) hpr.pos
      simp only [Option.bind_some]
      rw [factorRec_spec N k (n / n.minFac) hpos (by omega) (by omega)]
      obtain ⟨m, rfl⟩ : ∃ m, n = m + 2 := ⟨n - 2, by omega⟩
      rw [Nat.primeFactorsList]
      rfl

theorem fac_eq (n : Nat) : fac n = (n.factorial : Int) := by
  induction n with
  | zero => rfl
  | succ n ih =>
    rw [fac]
    split
    · next h =>
      have : n = 0 := by omega
      subst this; rfl
    · rw [ih, Nat.factorial_succ]; push_cast; rfl

end Voss.Pre
