import Mathlib.Tactic.LinearCombination
import Verif.Gen.DynLemmas
/-
C97: the bit-vectors of any size of the library (src/vosslib/gen_arithm.fl).
-/
namespace Voss.Gen
open Voss.Pre Voss.Pre.Fn
variable {o : Order}

/-- The sign is not repeated: the vector is as short as can be seen without looking at the values. -/
def Trimmed (l : List (Fn o)) : Prop := ∀ b1 b2 bs, l = b1 :: b2 :: bs → b1 ≠ b2

/-- C97, `bv_trim`: the number is kept and the sign is not repeated. -/
theorem c97_trim (l : List (Fn o)) (h : l ≠ []) :
    bvTrim l ≠ [] ∧ (bvTrim l).length ≤ l.length ∧ Trimmed (bvTrim l) ∧ ∀ η, signed (bvTrim l) η = signed l η :=
  ⟨bvTrim_ne_nil l, bvTrim_length l h, bvTrim_trimmed l, fun η => signed_bvTrim η l⟩

example : bvTrim [tt codeOrder, tt _, tt _, var _ "a"] = [tt _, var _ "a"] := by decide +kernel

/-- C97, `int2dbv`: every number has its vector, the shortest one, and converting it back gives the number. -/
theorem c97_int2dbv (v : Int) : ∃ r, int2dbv o v = .ok r ∧ r ≠ [] ∧ (∀ η, signed r η = v) ∧ bv2int r = .ok v ∧
    ∀ n : Nat, -(2:Int) ^ n ≤ v → v < 2 ^ n → r.length ≤ n + 1 := by
  obtain ⟨r, h1, h2, h3, h4, h5⟩ := int2dbv_ok (o := o) v
  refine ⟨r, h1, h2, h4, ?_, fun n hn1 hn2 => trimmed_short h3 h5 (η := fun _ => false) (by rw [h4]; exact hn1) (by rw [h4]; exact hn2)⟩
  rw [bv2int_ok h2 h3 fun _ => false, h4]

example : int2dbv codeOrder (-4) = .ok [tt _, ff _, ff _] := by decide +kernel

/-- C97, `nat2dbv`: the vector of a number without sign; negative numbers are refused. -/
theorem c97_nat2dbv (v : Int) : (0 ≤ v → ∃ r, nat2dbv o v = .ok r ∧ ∀ η, (unsigned r η : Int) = v) ∧
    (v < 0 → nat2dbv o v = .fail) := by
  refine ⟨fun h => ?_, fun h => by simp [nat2dbv, h]⟩
  obtain ⟨w, h1, h2, h3, -⟩ := (c91_ubits v).1 h
  refine ⟨(digits w v.toNat).map (const o), ?_, fun η => ?_⟩
  · unfold nat2dbv
    rw [if_neg (by omega), h1]
    simp [Out.ofOption, Out.bind]
  · unfold unsigned
    rw [bits_const, uv_digits]
    obtain ⟨k, rfl⟩ := Int.eq_ofNat_of_zero_le h
    have : k < 2 ^ w := by exact_mod_cast h3
    simp [Nat.mod_eq_of_lt this]

/-- C97: the vector of `nat2dbv` has no sign bit, so all other functions take it for another number: 5 is read back as -3. -/
theorem c97_nat2dbv_violated : (nat2dbv codeOrder 5).bind bv2int = .ok (-3) := by decide +kernel

/-- C97: addition, subtraction and negation are exact. -/
theorem c97_add (a b : List (Fn o)) (ha : a ≠ []) (hb : b ≠ []) :
    (∃ r, dbvadd a b = .ok r ∧ r ≠ [] ∧ Trimmed r ∧ ∀ η, signed r η = signed a η + signed b η) ∧
    (∃ r, dbvsub a b = .ok r ∧ r ≠ [] ∧ Trimmed r ∧ ∀ η, signed r η = signed a η - signed b η) ∧
    (∃ r, dbvnegate a = .ok r ∧ r ≠ [] ∧ Trimmed r ∧ ∀ η, signed r η = -signed a η) := by
  have trimSub : ∀ (a b r : List (Fn o)), dbvsub a b = .ok r → Trimmed r := by
    intro a b r h
    obtain ⟨x, -, h⟩ := out_bind_ok h
    obtain ⟨_, -, h⟩ := out_bind_ok h
    obtain ⟨_, -, h⟩ := out_bind_ok h
    obtain ⟨_, -, h⟩ := out_bind_ok h
    obtain ⟨t, -, h⟩ := out_bind_ok h
    simp only [Out.ok.injEq] at h
    subst h
    exact bvTrim_trimmed t
  refine ⟨?_, ?_, ?_⟩
  · obtain ⟨r, h1, h2, -, h3⟩ := dbvadd_ok ha hb
    refine ⟨r, h1, h2, ?_, h3⟩
    obtain ⟨x, -, h⟩ := out_bind_ok h1
    obtain ⟨_, -, h⟩ := out_bind_ok h
    obtain ⟨_, -, h⟩ := out_bind_ok h
    obtain ⟨_, -, h⟩ := out_bind_ok h
    obtain ⟨t, -, h⟩ := out_bind_ok h
    simp only [Out.ok.injEq] at h
    subst h
    exact bvTrim_trimmed t
  · obtain ⟨r, h1, h2, -, h3⟩ := dbvsub_ok ha hb
    exact ⟨r, h1, h2, trimSub a b r h1, h3⟩
  · obtain ⟨r, h1, h2, h3⟩ := dbvnegate_ok ha
    refine ⟨r, h1, h2, ?_, h3⟩
    obtain ⟨z, -, h⟩ := out_bind_ok h1
    exact trimSub z a r h

example : dbvadd [ff codeOrder, tt _] [ff _, var _ "a", tt _] = .ok [ff _, var _ "a", (var _ "a").not, ff _] ∧
    dbvsub [ff codeOrder, tt _] [ff _, tt _] = .ok [ff _] ∧ dbvnegate [tt codeOrder, ff _] = .ok [ff _, tt _, ff _] := by decide +kernel

/-- C97: the comparisons compare the numbers, whatever the sizes. -/
theorem c97_compare (p : Fn o) (a b : List (Fn o)) (ha : a ≠ []) (hb : b ≠ []) :
    (∃ c, dbvless p a b = .ok c ∧ ∀ η, p.ev η = true → c.ev η = decide (signed a η < signed b η)) ∧
    (∃ c, dbvleq p a b = .ok c ∧ ∀ η, p.ev η = true → c.ev η = decide (signed a η ≤ signed b η)) ∧
    (∃ c, dbvgreater p a b = .ok c ∧ ∀ η, p.ev η = true → c.ev η = decide (signed a η > signed b η)) ∧
    (∃ c, dbvgeq p a b = .ok c ∧ ∀ η, p.ev η = true → c.ev η = decide (signed a η ≥ signed b η)) ∧
    (∃ c, dbveq a b = .ok c ∧ ∀ η, c.ev η = decide (signed a η = signed b η)) ∧
    (∃ c, dbvneq a b = .ok c ∧ ∀ η, c.ev η = decide (signed a η ≠ signed b η)) :=
  ⟨dbvless_ok ha hb, dbvleq_ok ha hb, dbvless_ok hb ha, dbvleq_ok hb ha, dbveq_ok ha hb, dbvneq_ok ha hb⟩

example : dbvless (tt codeOrder) [tt _] [ff _, var _ "a", ff _] = .ok (tt _) ∧
    dbveq [ff codeOrder, var _ "a"] [ff _, ff _, tt _] = .ok (var _ "a") := by decide +kernel

/-- C97: the bitwise operations work bit by bit on the vectors with the sign extended to the same size. -/
theorem c97_bitwise (a b : List (Fn o)) (ha : a ≠ []) (hb : b ≠ []) :
    (∀ (fn : Fn o → Fn o → Fn o) (op : Bool → Bool → Bool), (∀ f g η, (fn f g).ev η = op (f.ev η) (g.ev η)) →
      ∃ r, dbvBitwise fn a b = .ok r ∧ r ≠ [] ∧ Trimmed r ∧ ∀ η, ∃ x y : List Bool,
        x.length = max a.length b.length ∧ y.length = max a.length b.length ∧ Bv.tc x = signed a η ∧ Bv.tc y = signed b η ∧
        signed r η = Bv.tc (List.zipWith op x y)) ∧
    (∀ η, signed (dbvNot a) η = -signed a η - 1) := by
  constructor
  · intro fn op hop
    obtain ⟨x, y, h1, hx, hy, -, -, hv⟩ := sx2_ok ha hb
    refine ⟨bvTrim (genBitwise fn x y), by simp [dbvBitwise, h1, Out.bind], bvTrim_ne_nil _, bvTrim_trimmed _, fun η => ?_⟩
    refine ⟨bits x η, bits y η, by simpa using hx, by simpa using hy, (hv η).1, (hv η).2, ?_⟩
    rw [signed_bvTrim]
    unfold signed genBitwise bits
    rw [List.map_zipWith, List.zipWith_map]
    congr 2
    funext f g
    exact hop f g η
  · intro η
    unfold dbvNot
    rw [signed_bvTrim]
    obtain ⟨x, as, rfl⟩ := List.exists_cons_of_ne_nil ha
    have hn := unsigned_not (x :: as) η
    have e1 := signed_cons x as η
    have e2 := signed_cons x.not (as.map Fn.not) η
    rw [List.map_cons] at hn ⊢
    rw [e2, e1]
    have hn' : (unsigned (x.not :: as.map Fn.not) η : Int) + unsigned (x :: as) η + 1 = 2 ^ (as.length + 1) := by
      have := hn
      rw [List.length_cons] at this
      exact_mod_cast this
    simp only [List.length_map, not_ev]
    cases x.ev η <;> simp <;> omega

example : dbvBitwise Fn.and [tt codeOrder, ff _] [ff _, var _ "a", tt _] = .ok [ff _, var _ "a", ff _] ∧
    dbvNot [ff codeOrder, tt _] = [tt _, ff _] := by decide +kernel

/-- C97: the multiplexer chooses. -/
theorem c97_mux (p c : Fn o) (a b : List (Fn o)) (ha : a ≠ []) (hb : b ≠ []) :
    ∃ r, dbvMUX p c a b = .ok r ∧ r ≠ [] ∧ Trimmed r ∧ ∀ η, p.ev η = true → signed r η = if c.ev η then signed a η else signed b η := by
  obtain ⟨x, y, h1, hx, hy, -, -, hv⟩ := sx2_ok ha hb
  obtain ⟨r, r1, -, r3⟩ := branchList_ok (p := p) (c := c) (t := fun _ => .ok x) (e := fun _ => .ok y) (n := max a.length b.length)
    (R := fun η m => Bv.tc m = if c.ev η then signed a η else signed b η)
    (fun p' hp => ⟨x, rfl, hx, fun η hη => by rw [if_pos (hp η hη).2]; exact (hv η).1⟩)
    (fun p' hp => ⟨y, rfl, hy, fun η hη => by rw [if_neg (by simp [(hp η hη).2])]; exact (hv η).2⟩)
  refine ⟨bvTrim r, by simp only [dbvMUX, h1, Out.bind, r1], bvTrim_ne_nil _, bvTrim_trimmed _, fun η hp => ?_⟩
  rw [signed_bvTrim]
  exact r3 η hp

example : dbvMUX (tt codeOrder) (var _ "a") [ff _] [tt _] = .ok [(var _ "a").not] := by decide +kernel

/-- C97, multiplication: what it gives is the product, and if the signs are constant it gives something.  The part that
is missing is that it gives something for other vectors as well. -/
theorem c97_mult_partial (p : Fn o) (a b : List (Fn o)) :
    (∀ r, dbvmult p a b = .ok r → ∀ η, p.ev η = true → signed r η = signed a η * signed b η) ∧
    (∀ x y, (x = tt o ∨ x = ff o) → (y = tt o ∨ y = ff o) → ∃ r, dbvmult p (x :: a) (y :: b) = .ok r) :=
  ⟨fun _ h => dbvmult_right h, fun _ _ => dbvmult_ok⟩

example : dbvmult (tt codeOrder) [tt _, var _ "a", tt _] [tt _, ff _] =
    .ok [ff _, (var _ "a").not, tt _, ff _] := by decide +kernel

/-- C97: a vector of one bit that is a variable cannot be multiplied at all. -/
theorem c97_mult_violated : dbvmult (tt codeOrder) [var _ "a"] [ff _, tt _] = .fail := by decide +kernel

/-- C97, division: what it gives is the quotient rounded towards zero, and if the signs are constant it gives
something; the remainder is that of the absolute values.  Neither number may be the least one of the size of the longer
vector.  The part that is missing is that number, other vectors, and the sign of the remainder. -/
theorem c97_div_partial (p : Fn o) (a b : List (Fn o)) (ha : a ≠ []) (hb : b ≠ []) :
    (∀ q, dbvdiv p a b = .ok q → ∀ η, p.ev η = true → signed b η ≠ 0 → |signed a η| < 2 ^ (max a.length b.length - 1) →
      |signed b η| < 2 ^ (max a.length b.length - 1) → signed q η = Int.tdiv (signed a η) (signed b η)) ∧
    (∃ r, dbvmod p a b = .ok r ∧ ∀ η, p.ev η = true → signed b η ≠ 0 → |signed a η| < 2 ^ (max a.length b.length - 1) →
      |signed b η| < 2 ^ (max a.length b.length - 1) → signed r η = |signed a η| % |signed b η|) ∧
    (∀ x y a' b', a = x :: a' → b = y :: b' → (x = tt o ∨ x = ff o) → (y = tt o ∨ y = ff o) → ∃ q, dbvdiv p a b = .ok q) := by
  obtain ⟨s, q, r, h1, h2, h3, h4⟩ := extDiv_ok (p := p) ha hb
  have hl : 0 < max a.length b.length := by have := List.length_pos_iff.2 ha; omega
  have hqn : q ≠ [] := by rintro rfl; simp at h2; omega
  refine ⟨fun q' hq' η hp hne hla hlb => ?_, ⟨bvTrim r, by simp only [dbvmod, h1, Out.bind], fun η hp hne hla hlb => ?_⟩, ?_⟩
  · simp only [dbvdiv, h1, Out.bind] at hq'
    obtain ⟨t, ht, hq'⟩ := out_bind_ok hq'
    simp only [Out.ok.injEq] at hq'
    subst hq'
    obtain ⟨hs, hqr⟩ := h4 η
    obtain ⟨e1, -⟩ := hqr hp hne hla hlb
    have hle := Nat.div_le_self (signed a η).natAbs (signed b η).natAbs
    have hsq : signed q η = unsigned q η := signed_small h2 hl (by rw [e1]; rw [Int.abs_eq_natAbs] at hla; omega)
    rw [signed_bvTrim, signD_right hqn ht η hp, hs, hsq, e1, tdiv_eq]
    split <;> simp
  · obtain ⟨hs, hqr⟩ := h4 η
    obtain ⟨-, e2⟩ := hqr hp hne hla hlb
    have hlt := Nat.mod_lt (signed a η).natAbs (y := (signed b η).natAbs) (by omega)
    rw [signed_bvTrim, signed_small h3 hl (by rw [e2]; rw [Int.abs_eq_natAbs] at hlb; omega), e2, Int.abs_eq_natAbs, Int.abs_eq_natAbs]
    push_cast
    rfl
  · rintro x y a' b' rfl rfl hx hy
    have hs : s = tt o ∨ s = ff o := by
      have e : s = x.xor y := Fn.ext fun η => by
        rw [(h4 η).1, xor_ev, head_neg (n := x) (l := a'), head_neg (n := y) (l := b')]
      rw [e]
      exact xor_const hx hy
    obtain ⟨t, ht⟩ := signD_ok (p := p) hs hqn
    exact ⟨bvTrim t, by simp only [dbvdiv, h1, Out.bind, ht]⟩

example : dbvdiv (tt codeOrder) [tt _, ff _, ff _, tt _] [ff _, tt _, ff _] = .ok [tt _, ff _, tt _] := by decide +kernel

/-- C97: -8 divided by 5 is 0, the remainder of -7 by 2 is 1 although the quotient is -3 (so quotient times divisor plus
remainder is -5), and a number of unknown sign cannot be divided by 1. -/
theorem c97_div_violated :
    dbvdiv (tt codeOrder) [tt _, ff _, ff _, ff _] [ff _, tt _, ff _, tt _] = .ok [ff _] ∧
    dbvdiv (tt codeOrder) [tt _, ff _, ff _, tt _] [ff _, tt _, ff _] = .ok [tt _, ff _, tt _] ∧
    dbvmod (tt codeOrder) [tt _, ff _, ff _, tt _] [ff _, tt _, ff _] = .ok [ff _, tt _] ∧
    dbvdiv (tt codeOrder) [var _ "a", var _ "a", tt _] [ff _, tt _] = .fail := by decide +kernel

/-- C97, shifts of numbers by counts that are not negative: to the right divides by a power of two if the number is not
negative, and to the left multiplies by one if the result fits in the longer vector.  The part that is missing is the
other numbers. -/
theorem c97_shift_partial (p : Fn o) (a b : List (Fn o)) (ha : a ≠ []) (hb : b ≠ []) (hn : 3 ≤ max a.length b.length) :
    (∃ r, dbvshr p a b = .ok r ∧ ∀ η, p.ev η = true → 0 ≤ signed a η → 0 ≤ signed b η →
      signed r η = signed a η / 2 ^ (signed b η).toNat) ∧
    (∃ r, dbvashr p a b = .ok r ∧ ∀ η, p.ev η = true → 0 ≤ signed a η → 0 ≤ signed b η →
      signed r η = signed a η / 2 ^ (signed b η).toNat) ∧
    (∃ r, dbvshl p a b = .ok r ∧ ∀ η, p.ev η = true → 0 ≤ signed b η →
      -(2:Int) ^ (max a.length b.length - 1) ≤ signed a η * 2 ^ (signed b η).toNat →
      signed a η * 2 ^ (signed b η).toNat < 2 ^ (max a.length b.length - 1) →
      signed r η = signed a η * 2 ^ (signed b η).toNat) := by
  obtain ⟨x, y, z1, z2, z3, z4⟩ := zx2_ok a b
  have hal : 0 < a.length := List.length_pos_iff.2 ha
  -- what is known about the extended numbers
  have hx : ∀ η, 0 ≤ signed a η → (unsigned x η : Int) = signed a η ∧ (unsigned x η : Int) < 2 ^ (max a.length b.length - 1) := by
    intro η h0
    have h1 := unsigned_signed h0
    have h2 := (signed_bounds ha η).2
    have h3 : (2:Int) ^ (a.length - 1) ≤ 2 ^ (max a.length b.length - 1) := pow_le_pow_right₀ (by norm_num) (by omega)
    rw [(z4 η).1]
    exact ⟨h1, by omega⟩
  have hy : ∀ η, 0 ≤ signed b η → unsigned y η = (signed b η).toNat := by
    intro η h0
    have h1 := unsigned_signed h0
    rw [(z4 η).2]
    omega
  refine ⟨?_, ?_, ?_⟩
  · obtain ⟨r, r1, r2, r3⟩ := fbvshr_ok (p := p) (a := x) (b := y) (by omega) (by omega)
    refine ⟨bvTrim r, by simp only [dbvshr, z1, Out.bind, r1], fun η hp h0 h0b => ?_⟩
    have e := r3 η hp
    obtain ⟨hx1, hx2⟩ := hx η h0
    have hle : unsigned x η / 2 ^ unsigned y η ≤ unsigned x η := Nat.div_le_self _ _
    rw [signed_bvTrim, signed_small (n := max a.length b.length) (by omega) (by omega) (by rw [e]; omega), e, hy η h0b, ← hx1]
    push_cast
    rfl
  · obtain ⟨r, r1, r2, r3⟩ := fbvashr_ok (p := p) (a := x) (b := y) (by omega) (by omega)
    refine ⟨bvTrim r, by simp only [dbvashr, z1, Out.bind, r1], fun η hp h0 h0b => ?_⟩
    obtain ⟨hx1, hx2⟩ := hx η h0
    have hs : signed x η = unsigned x η := signed_small (n := max a.length b.length) (by omega) (by omega) hx2
    rw [signed_bvTrim, (r3 η hp).1 (by rw [hs]; positivity), hs, hx1, hy η h0b]
  · obtain ⟨x, y, s1, s2, s3, -, -, s4⟩ := sx2_ok ha hb
    obtain ⟨r, r1, r2, r3⟩ := fbvshl_ok (p := p) (a := x) (b := y) (by omega) (by omega)
    refine ⟨bvTrim r, by simp only [dbvshl, s1, Out.bind, r1], fun η hp h0b hlo hhi => ?_⟩
    have e := r3 η hp
    have hyu : unsigned y η = (signed b η).toNat := by
      have := unsigned_signed (l := y) (η := η) (by rw [(s4 η).2]; exact h0b)
      rw [(s4 η).2] at this
      omega
    obtain ⟨k, hk⟩ := signed_mod x η
    rw [(s4 η).1] at hk
    rw [signed_bvTrim]
    have hdm := Nat.mod_add_div (unsigned x η * 2 ^ unsigned y η) (2 ^ x.length)
    rw [← e, hyu] at hdm
    have hdm' : (unsigned r η : Int) + 2 ^ x.length * ((unsigned x η * 2 ^ (signed b η).toNat / 2 ^ x.length : Nat) : Int) =
        unsigned x η * 2 ^ (signed b η).toNat := by exact_mod_cast hdm
    refine signed_of_mod (n := max a.length b.length - 1)
      (k := k * 2 ^ (signed b η).toNat - ((unsigned x η * 2 ^ (signed b η).toNat / 2 ^ x.length : Nat) : Int)) (by omega) ?_ hlo hhi
    have hl : max a.length b.length - 1 + 1 = x.length := by omega
    rw [hl]
    rw [hk] at hdm'
    linear_combination hdm'

example : dbvshr (tt codeOrder) [ff _, tt _, var _ "a"] [ff _, tt _] = .ok [ff _, tt _] ∧
    dbvshl (tt codeOrder) [ff _, ff _, tt _] [ff _, var _ "a"] = .ok [ff _, var _ "a", (var _ "a").not] := by decide +kernel

/-- C97: to the left the vector does not grow: 3 shifted by 1 is -2; and the arithmetic shift to the right extends the
shorter vector with zeros: -3 shifted by 1 is 2. -/
theorem c97_shift_violated :
    dbvshl (tt codeOrder) [ff _, tt _, tt _] [ff _, tt _] = .ok [tt _, ff _] ∧
    dbvashr (tt codeOrder) [tt _, ff _, tt _] [ff _, ff _, ff _, tt _] = .ok [ff _, tt _, ff _] := by decide +kernel

end Voss.Gen
