import Verif.Gen.ShiftLemmas
/-
C96: the bit-vectors of fixed size of the library (src/vosslib/gen_arithm.fl).

A vector is a list of Boolean functions; under an assignment `η` of the variables it is a number, `unsigned` or
`signed` (Spec.lean).  `p` is the condition that the enclosing conditionals amount to: a result need only be right where
it holds.  At the top level `p` is `tt`.
-/
namespace Voss.Gen
open Voss.Pre Voss.Pre.Fn
variable {o : Order}

/-- C96, `int2fbv`: a number that fits has its vector, and one that does not fit is refused. -/
theorem c96_int2fbv (n : Nat) (v : Int) :
    (-(2:Int) ^ n ≤ v ∧ v < 2 ^ n → ∃ r, int2fbv o (n + 1) v = .ok r ∧ r.length = n + 1 ∧ ∀ η, signed r η = v) ∧
    (v < -(2:Int) ^ n ∨ 2 ^ n ≤ v → int2fbv o (n + 1) v = .fail) :=
  ⟨fun h => int2fbv_ok h.1 h.2, int2fbv_fail⟩

example : int2fbv codeOrder 4 (-8) = .ok [tt _, ff _, ff _, ff _] ∧ int2fbv codeOrder 4 8 = .fail := by decide +kernel

/-- C96, `fbv2int`: a vector of constants is converted to its number, and a vector that depends on a variable is
refused. -/
theorem c96_fbv2int (a : List (Fn o)) (ha : a ≠ []) :
    ((∀ η ζ, bits a η = bits a ζ) → ∀ η, bv2int a = .ok (signed a η)) ∧
    ((∃ η ζ, bits a η ≠ bits a ζ) → bv2int a = .fail) :=
  ⟨fun h η => bv2int_ok ha (isConst_of_bits h) η, fun ⟨η, ζ, h⟩ => bv2int_fail fun hc => h (hc.bits η ζ)⟩

example : bv2int [tt codeOrder, ff _, tt _] = .ok (-3) ∧ bv2int [tt codeOrder, var _ "a"] = .fail := by decide +kernel

/-- C96: converting a number to a vector and back gives the number. -/
theorem c96_round (n : Nat) (v : Int) (h1 : -(2:Int) ^ n ≤ v) (h2 : v < 2 ^ n) :
    (int2fbv o (n + 1) v).bind bv2int = .ok v := by
  obtain ⟨r, h3, h4, h5⟩ := int2fbv_ok (o := o) h1 h2
  have hc : IsConst r := isConst_of_bits fun η ζ => Bv.tc_inj_len _ _ (by simp) (by
    have e1 := h5 η
    have e2 := h5 ζ
    unfold signed at e1 e2
    rw [e1, e2])
  rw [h3]
  simp only [Out.bind]
  rw [bv2int_ok (by rintro rfl; simp at h4) hc fun _ => false, h5]

/-- Numbers of the same size with the same residue. -/
theorem modEq_signed (l : List (Fn o)) (η : Env) : signed l η ≡ unsigned l η [ZMOD 2 ^ l.length] := by
  obtain ⟨k, hk⟩ := signed_mod l η
  exact Int.modEq_iff_dvd.2 ⟨k, by rw [hk]; ring⟩

/-- C96: addition is addition modulo the size, for unsigned and for signed numbers. -/
theorem c96_add (a b : List (Fn o)) (h : a.length = b.length) :
    ∃ r, fbvadd a b = .ok r ∧ r.length = a.length ∧ ∀ η,
      unsigned r η = (unsigned a η + unsigned b η) % 2 ^ a.length ∧
      signed r η ≡ signed a η + signed b η [ZMOD 2 ^ a.length] := by
  obtain ⟨r, h1, h2, h3⟩ := fbvadd_ok h
  refine ⟨r, h1, h2, fun η => ⟨h3 η, ?_⟩⟩
  have hr := modEq_signed r η
  have ha := modEq_signed a η
  have hb := modEq_signed b η
  rw [h2] at hr
  rw [← h] at hb
  refine hr.trans (Int.ModEq.trans ?_ (ha.symm.add hb.symm))
  rw [h3]
  push_cast
  exact Int.mod_modEq _ _

example : fbvadd [tt codeOrder, tt _, tt _] [ff _, var _ "a", tt _] = .ok [ff _, var _ "a", ff _] := by decide +kernel

/-- C96: subtraction is subtraction modulo the size. -/
theorem c96_sub (a b : List (Fn o)) (h : a.length = b.length) :
    ∃ r, fbvsub a b = .ok r ∧ r.length = a.length ∧ ∀ η,
      (unsigned r η : Int) = ((unsigned a η : Int) - unsigned b η) % 2 ^ a.length ∧
      signed r η ≡ signed a η - signed b η [ZMOD 2 ^ a.length] := by
  obtain ⟨r, h1, h2, h3⟩ := fbvsub_ok h
  refine ⟨r, h1, h2, fun η => ⟨h3 η, ?_⟩⟩
  have hr := modEq_signed r η
  have ha := modEq_signed a η
  have hb := modEq_signed b η
  rw [h2] at hr
  rw [← h] at hb
  refine hr.trans (Int.ModEq.trans ?_ (ha.symm.sub hb.symm))
  rw [h3]
  exact Int.mod_modEq _ _

example : fbvsub [ff codeOrder, ff _, var _ "a"] [ff _, ff _, tt _] = .ok [(var _ "a").not, (var _ "a").not, (var _ "a").not] := by decide +kernel

/-- C96: negation is negation modulo the size. -/
theorem c96_negate (a : List (Fn o)) (ha : a ≠ []) :
    ∃ r, fbvnegate a = .ok r ∧ r.length = a.length ∧ ∀ η,
      (unsigned r η : Int) = (-(unsigned a η : Int)) % 2 ^ a.length ∧ signed r η ≡ -signed a η [ZMOD 2 ^ a.length] := by
  obtain ⟨r, h1, h2, h3⟩ := fbvnegate_ok ha
  refine ⟨r, h1, h2, fun η => ⟨h3 η, ?_⟩⟩
  have hr := modEq_signed r η
  rw [h2] at hr
  refine hr.trans (Int.ModEq.trans ?_ (modEq_signed a η).symm.neg)
  rw [h3]
  exact Int.mod_modEq _ _

example : fbvnegate [tt codeOrder, ff _] = .ok [tt _, ff _] ∧ fbvnegate [ff codeOrder, tt _] = .ok [tt _, tt _] := by decide +kernel

/-- C96: multiplication is multiplication modulo the size, whether one of the vectors is constant or not. -/
theorem c96_mult (p : Fn o) (a b : List (Fn o)) (ha : a ≠ []) (h : a.length = b.length) :
    ∃ r, fbvmult p a b = .ok r ∧ r.length = a.length ∧ ∀ η, p.ev η = true →
      unsigned r η = unsigned a η * unsigned b η % 2 ^ a.length ∧
      signed r η ≡ signed a η * signed b η [ZMOD 2 ^ a.length] := by
  obtain ⟨r, h1, h2, h3⟩ := fbvmult_ok (p := p) ha h
  refine ⟨r, h1, h2, fun η hp => ?_⟩
  have h3 := h3 η hp
  have hr := modEq_signed r η
  have ha := modEq_signed a η
  have hb := modEq_signed b η
  rw [h2] at hr
  rw [← h] at hb
  refine ⟨?_, hr.trans (h3.trans (ha.symm.mul hb.symm))⟩
  have := mod_of_modEq (l := r) (η := η) (x := unsigned a η * unsigned b η) (by rw [h2]; exact h3)
  rw [h2] at this
  exact_mod_cast this

example : fbvmult (tt codeOrder) [tt _, tt _, ff _] [var _ "a", ff _, tt _] = .ok [tt _, tt _, ff _] ∧
    fbvmult (tt codeOrder) [ff _, var _ "b", var _ "a"] [ff _, ff _, var _ "a"] =
      .ok [ff _, (var _ "a").and (var _ "b"), var _ "a"] := by decide +kernel

/-- C96: the comparisons compare signed numbers. -/
theorem c96_compare (p : Fn o) (a b : List (Fn o)) (ha : a ≠ []) (h : a.length = b.length) :
    (∃ c, fbvless p a b = .ok c ∧ ∀ η, p.ev η = true → c.ev η = decide (signed a η < signed b η)) ∧
    (∃ c, fbvleq p a b = .ok c ∧ ∀ η, p.ev η = true → c.ev η = decide (signed a η ≤ signed b η)) ∧
    (∃ c, fbvgreater p a b = .ok c ∧ ∀ η, p.ev η = true → c.ev η = decide (signed a η > signed b η)) ∧
    (∃ c, fbvgeq p a b = .ok c ∧ ∀ η, p.ev η = true → c.ev η = decide (signed a η ≥ signed b η)) ∧
    (∃ c, fbveq a b = .ok c ∧ ∀ η, c.ev η = decide (signed a η = signed b η)) ∧
    (∃ c, fbvneq a b = .ok c ∧ ∀ η, c.ev η = decide (signed a η ≠ signed b η)) := by
  have hb : b ≠ [] := by rintro rfl; simp at h; exact ha h
  obtain ⟨c, h1, h2⟩ := fbveq_ok h
  have h2' : ∀ η, c.ev η = decide (signed a η = signed b η) := fun η => by
    rw [h2]; exact decide_eq_decide.2 (bits_eq_signed h η)
  refine ⟨fbvless_ok ha h, fbvleq_ok ha h, fbvless_ok hb h.symm, fbvleq_ok hb h.symm, ⟨c, h1, h2'⟩, c.not, ?_, fun η => ?_⟩
  · unfold fbveq at h1
    unfold fbvneq
    rw [if_neg (by omega)] at h1 ⊢
    simp only [Out.ok.injEq] at h1
    rw [h1]
  · rw [not_ev, h2', ← decide_not]

example : fbvless (tt codeOrder) [tt _, var _ "a"] [ff _, ff _] = .ok (tt _) ∧
    fbveq [tt codeOrder, var _ "a"] [tt _, tt _] = .ok (var _ "a") := by decide +kernel

/-- C96: the bitwise operations work bit by bit, whatever Boolean operation is given. -/
theorem c96_bitwise (a b : List (Fn o)) (h : a.length = b.length) :
    (∀ (fn : Fn o → Fn o → Fn o) (op : Bool → Bool → Bool), (∀ f g η, (fn f g).ev η = op (f.ev η) (g.ev η)) →
      ∃ r, fbvBitwise fn a b = .ok r ∧ ∀ η, bits r η = List.zipWith op (bits a η) (bits b η)) ∧
    (∀ η, bits (fbvNot a) η = (bits a η).map (!·)) := by
  refine ⟨fun fn op hop => ⟨genBitwise fn a b, by simp [fbvBitwise, h], fun η => ?_⟩, bits_not a⟩
  unfold genBitwise bits
  rw [List.map_zipWith, List.zipWith_map]
  congr 1
  funext f g
  exact hop f g η

example : fbvBitwise Fn.xor [tt codeOrder, var _ "a"] [tt _, tt _] = .ok [ff _, (var _ "a").not] := by decide +kernel

/-- C96: the multiplexer chooses, and the test for zero tests. -/
theorem c96_mux (p c : Fn o) (a b : List (Fn o)) (h : a.length = b.length) :
    (∃ r, fbvMUX p c a b = .ok r ∧ r.length = a.length ∧ ∀ η, p.ev η = true → bits r η = if c.ev η then bits a η else bits b η) ∧
    (∀ η, (isZero a).ev η = decide (unsigned a η = 0)) := by
  constructor
  · obtain ⟨r, h1, h2, h3⟩ := branchList_ok (p := p) (c := c) (t := fun _ => .ok a) (e := fun _ => .ok b) (n := a.length)
      (R := fun η m => m = if c.ev η then bits a η else bits b η)
      (fun p' hp => ⟨a, rfl, rfl, fun η hη => by rw [(hp η hη).2]; simp⟩)
      (fun p' hp => ⟨b, rfl, h.symm, fun η hη => by rw [(hp η hη).2]; simp⟩)
    exact ⟨r, by rw [fbvMUX, if_neg (by omega), h1], h2, h3⟩
  · intro η
    induction a generalizing b with
    | nil => simp [isZero, unsigned, Bv.uv]
    | cons x a ih =>
      have ih := ih b.tail (by rw [List.length_tail, ← h]; simp)
      rw [unsigned_cons]
      simp only [isZero, List.foldr_cons, and_ev, not_ev] at ih ⊢
      rw [ih]
      cases x.ev η <;> simp

example : fbvMUX (tt codeOrder) (var _ "a") [tt _, ff _] [ff _, ff _] = .ok [var _ "a", ff _] ∧
    isZero [var codeOrder "a", ff _] = (var _ "a").not := by decide +kernel

/-- C96, `abs`: the absolute value; of the least number it is that number again, which is the absolute value without
sign. -/
theorem c96_abs (p : Fn o) (a : List (Fn o)) (ha : a ≠ []) :
    ∃ r, fabs p a = .ok r ∧ r.length = a.length ∧ ∀ η, p.ev η = true → unsigned r η = (signed a η).natAbs := by
  obtain ⟨x, as, rfl⟩ := List.exists_cons_of_ne_nil ha
  obtain ⟨z, z1, z2, z3⟩ := zero_ok (o := o) as.length
  have hz : z.length = (x :: as).length := by simpa using z2
  have zs : ∀ η, signed z η = 0 := fun η => by
    have h0 : (0:Int) < 2 ^ as.length := by positivity
    exact signed_of_mod (n := as.length) (k := 0) z2 (by rw [z3]; simp) (by omega) (by omega)
  obtain ⟨c, c1, c2⟩ := fbvleq_ok (p := p) (a := z) (b := x :: as) (by rintro rfl; simp at z2) hz
  obtain ⟨d, d1, d2, d3⟩ := fbvsub_ok hz
  obtain ⟨r, r1, r2, r3⟩ := branchList_ok (p := p) (c := c) (t := fun _ => .ok (x :: as)) (e := fun _ => fbvsub z (x :: as))
    (n := (x :: as).length) (R := fun η m => Bv.uv m = (signed (x :: as) η).natAbs)
    (fun p' hp => ⟨x :: as, rfl, rfl, fun η hη => by
      obtain ⟨h1, h2⟩ := hp η hη
      rw [c2 η h1, zs, decide_eq_true_iff] at h2
      have := unsigned_signed h2
      unfold unsigned at this
      omega⟩)
    (fun p' hp => ⟨d, d1, by omega, fun η hη => by
      obtain ⟨h1, h2⟩ := hp η hη
      rw [c2 η h1, zs, decide_eq_false_iff_not] at h2
      refine natAbs_neg ha (by omega) ?_
      have := d3 η
      rw [z3, hz] at this
      unfold unsigned at this ⊢
      simpa using this⟩)
  refine ⟨r, ?_, r2, fun η hp => r3 η hp⟩
  simp only [fabs, List.length_cons, z1, Out.bind, fbvgeq, c1]
  exact r1

example : fabs (tt codeOrder) [var _ "a", tt _, tt _] = .ok [ff _, (var _ "a").not, tt _] := by decide +kernel

/-- C96, division: quotient and remainder of signed numbers that are not negative, and of numbers without sign if the
divisor is at most a quarter of what the size allows.  The part that is missing is that other numbers are divided as
well, signed or unsigned. -/
theorem c96_div_partial (p : Fn o) (a b : List (Fn o)) (ha : a ≠ []) (h : a.length = b.length) :
    ∃ q r, fbvdiv p a b = .ok q ∧ fbvmod p a b = .ok r ∧ q.length = a.length ∧ r.length = a.length ∧
      ∀ η, p.ev η = true → 0 < unsigned b η →
        (4 * unsigned b η ≤ 2 ^ a.length →
          unsigned q η = unsigned a η / unsigned b η ∧ unsigned r η = unsigned a η % unsigned b η) ∧
        (0 ≤ signed a η → 0 < signed b η → signed q η = signed a η / signed b η ∧ signed r η = signed a η % signed b η) := by
  obtain ⟨q, r, h1, h2, h3, h4⟩ := fixedExtDiv_ok (p := p) ha h
  have hl : 0 < a.length := List.length_pos_iff.2 ha
  refine ⟨q, r, by simp [fbvdiv, h1, Out.bind], by simp [fbvmod, h1, Out.bind], h2, h3, fun η hp hpos => ⟨fun hq => ?_, fun h0 hb => ?_⟩⟩
  · have hp2 : 2 ^ a.length = 2 * 2 ^ (a.length - 1) := by rw [← pow_succ', Nat.sub_add_cancel hl]
    have hs : signed b η = unsigned b η := by
      have h0 : (0:Int) < 2 ^ (a.length - 1) := by positivity
      refine signed_of_mod (n := a.length - 1) (k := 0) (by omega) (by simp) (by omega) ?_
      have : unsigned b η < 2 ^ (a.length - 1) := by omega
      exact_mod_cast this
    have : 2 * unsigned b η ≤ 2 ^ (a.length - 1) := by omega
    exact h4 η hp (by rw [hs]; omega) (.inr (by rw [hs]; exact_mod_cast this))
  obtain ⟨e1, e2⟩ := h4 η hp hb (.inl h0)
  have ua := unsigned_signed h0
  have ub := unsigned_signed (l := b) (η := η) (by omega)
  have hbd := (signed_bounds ha η).2
  rw [← ua] at hbd
  have hbd' : unsigned a η < 2 ^ (a.length - 1) := by exact_mod_cast hbd
  have small : ∀ l : List (Fn o), l.length = a.length → unsigned l η ≤ unsigned a η → signed l η = unsigned l η := by
    intro l hl' hle
    have h0 : (0:Int) < 2 ^ (a.length - 1) := by positivity
    refine signed_of_mod (n := a.length - 1) (k := 0) (by omega) (by simp) (by omega) ?_
    exact_mod_cast lt_of_le_of_lt hle hbd'
  refine ⟨?_, ?_⟩
  · rw [small q h2 (by rw [e1]; exact Nat.div_le_self _ _), e1, ← ua, ← ub]; push_cast; rfl
  · rw [small r h3 (by rw [e2]; exact Nat.mod_le _ _), e2, ← ua, ← ub]; push_cast; rfl

example : fbvdiv (tt codeOrder) [ff _, tt _, tt _, tt _] [ff _, ff _, tt _, tt _] = .ok [ff _, ff _, tt _, ff _] ∧
    fbvmod (tt codeOrder) [ff _, tt _, tt _, var _ "a"] [ff _, ff _, tt _, tt _] = .ok [ff _, ff _, ff _, var _ "a"] := by decide +kernel

/-- C96: division is neither that of signed nor that of unsigned numbers: -1 (which is 15 without sign) by 2 gives 7,
and 4 by -1 (or 15) gives -3 (or 13). -/
theorem c96_div_violated :
    fbvdiv (tt codeOrder) [tt _, tt _, tt _, tt _] [ff _, ff _, tt _, ff _] = .ok [ff _, tt _, tt _, tt _] ∧
    fbvdiv (tt codeOrder) [ff _, tt _, ff _, ff _] [tt _, tt _, tt _, tt _] = .ok [tt _, tt _, ff _, tt _] := by decide +kernel

/-- C96, logical shifts: to the right divides by a power of two and to the left multiplies by one modulo the size, by
any symbolic count, which is a number without sign. -/
theorem c96_shift (p : Fn o) (a b : List (Fn o)) (hn : 3 ≤ a.length) (h : a.length = b.length) :
    (∃ r, fbvshr p a b = .ok r ∧ r.length = a.length ∧ ∀ η, p.ev η = true → unsigned r η = unsigned a η / 2 ^ unsigned b η) ∧
    (∃ r, fbvshl p a b = .ok r ∧ r.length = a.length ∧
      ∀ η, p.ev η = true → unsigned r η = unsigned a η * 2 ^ unsigned b η % 2 ^ a.length) :=
  ⟨fbvshr_ok hn h, fbvshl_ok hn h⟩

example : fbvshr (tt codeOrder) [tt _, ff _, tt _] [ff _, ff _, var _ "a"] =
    .ok [(var _ "a").not, var _ "a", (var _ "a").not] ∧
    fbvshl (tt codeOrder) [tt _, ff _, tt _] [tt _, ff _, ff _] = .ok [ff _, ff _, ff _] := by decide +kernel

/-- C96, the arithmetic shift of numbers that are not negative.  The part that is missing is that of the negative
numbers. -/
theorem c96_ashr_partial (p : Fn o) (a b : List (Fn o)) (hn : 3 ≤ a.length) (h : a.length = b.length) :
    ∃ r, fbvashr p a b = .ok r ∧ r.length = a.length ∧
      ∀ η, p.ev η = true → 0 ≤ signed a η → signed r η = signed a η / 2 ^ unsigned b η := by
  obtain ⟨r, h1, h2, h3⟩ := fbvashr_ok (p := p) hn h
  exact ⟨r, h1, h2, fun η hp => (h3 η hp).1⟩

/-- C96: every negative number is shifted one place too far, except by the greatest count, which does not shift it at
all. -/
theorem c96_ashr_violated (p : Fn o) (a b : List (Fn o)) (hn : 3 ≤ a.length) (h : a.length = b.length) :
    ∃ r, fbvashr p a b = .ok r ∧ ∀ η, p.ev η = true → signed a η < 0 →
      (unsigned b η < 2 ^ a.length - 1 → signed r η = signed a η / 2 ^ (unsigned b η + 1)) ∧
      (unsigned b η = 2 ^ a.length - 1 → signed r η = signed a η) := by
  obtain ⟨r, h1, h2, h3⟩ := fbvashr_ok (p := p) hn h
  refine ⟨r, h1, fun η hp hneg => ?_⟩
  obtain ⟨-, h4, h5⟩ := h3 η hp
  have hp2 : 0 < 2 ^ a.length := by positivity
  refine ⟨fun hb => ?_, fun hb => h5 hneg (by omega)⟩
  exact h4 hneg (by omega)

/-- For example -8 shifted by 0 is -4. -/
example : fbvashr (tt codeOrder) [tt _, ff _, ff _, ff _] [ff _, ff _, ff _, ff _] = .ok [tt _, tt _, ff _, ff _] ∧
    fbvashr (tt codeOrder) [tt _, ff _, ff _, ff _] [tt _, tt _, tt _, tt _] = .ok [tt _, ff _, ff _, ff _] := by decide +kernel

/-- C96: vectors of one or two bits cannot be shifted, since the size does not fit in the vector. -/
theorem c96_short_violated (p : Fn o) (a b : List (Fn o)) (hn : a.length ≤ 2) (h : a.length = b.length) :
    fbvshr p a b = .fail ∧ fbvshl p a b = .fail ∧ fbvashr p a b = .fail := by
  have key : int2fbv o a.length a.length = .fail := by
    obtain h0 | h0 | h0 : a.length = 0 ∨ a.length = 1 ∨ a.length = 2 := by omega
    · obtain ⟨r, h1, h2, -⟩ := int2dbv_ok (o := o) 0
      rw [h0]
      simp only [int2fbv, Nat.cast_zero, h1, Out.bind]
      exact sx_fail (List.length_pos_iff.2 h2)
    · rw [h0]; exact int2fbv_fail (n := 0) (by norm_num)
    · rw [h0]; exact int2fbv_fail (n := 1) (by norm_num)
  refine ⟨?_, ?_, ?_⟩
  · simp [fbvshr, shiftBy, key, Out.bind]
  · simp [fbvshl, shiftBy, key, Out.bind]
  · cases a with
    | nil => rfl
    | cons x a =>
      simp only [fbvashr, hd, Out.bind, shiftBy, key]
      split <;> rfl

example : ([tt codeOrder, ff _] : List (Fn _)).length ≤ 2 := by decide

/-- C96: vectors of different sizes are refused, except by `'!='` and `'<='`, which extend the sign (they call the
functions for vectors of any size). -/
theorem c96_sizes (p : Fn o) (a b : List (Fn o)) (h : a.length ≠ b.length) :
    fbvadd a b = .fail ∧ fbvsub a b = .fail ∧ fbvless p a b = .fail ∧ fbvgreater p a b = .fail ∧ fbveq a b = .fail ∧
    fbvneq a b = .fail ∧ fbvleq p a b = .fail ∧ fbvgeq p a b = .fail ∧ fbvdiv p a b = .fail ∧ fbvmod p a b = .fail ∧
    fbvshr p a b = .fail ∧ fbvshl p a b = .fail ∧ (∀ fn, fbvBitwise fn a b = .fail) ∧ (∀ c, fbvMUX p c a b = .fail) := by
  have h' : b.length ≠ a.length := fun e => h e.symm
  simp [fbvadd, fbvsub, extGenBvadd, fbvless, fbvgreater, fbveq, fbvneq, fbvleq, fbvgeq, fbvdiv, fbvmod, fixedExtDiv,
    fbvshr, fbvshl, shiftBy, fbvBitwise, fbvMUX, Out.bind, h, h']

example : ([tt codeOrder, ff _] : List (Fn _)).length ≠ [tt codeOrder].length := by decide

end Voss.Gen
