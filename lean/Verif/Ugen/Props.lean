import Verif.Ugen.DivLemmas
/-
C105: the bit-vectors without sign of the library (src/vosslib/gen_u_arithm.fl).

A vector is a list of Boolean functions; under an assignment `η` of the variables it is the number `unsigned`
(Verif/Gen/Spec.lean).  `p` is the condition that the enclosing conditionals amount to: a result need only be right
where it holds.  At the top level `p` is `tt`.  `Clear` (Spec.lean) says that the number does not need the most
significant bit, as for the vectors that `int2dbv` makes.
-/
namespace Voss.Ugen
open Voss.Pre Voss.Pre.Fn Voss.Gen
variable {o : Order}

/-! ### Integers -/

/-- C105, integers to vectors: a positive number has its vector of any size, with the top bit clear, and a number that
fits has its vector of fixed size; reading it back gives the number.  Negative numbers are refused.  The part that is
missing is the vector of any size for 0 and the refusal of numbers that do not fit. -/
theorem c105_integers_partial (n : Nat) (hn : 0 < n) (v : Int) :
    (0 < v → ∃ r, int2dbv o v = .ok r ∧ r ≠ [] ∧ (∀ η, (unsigned r η : Int) = v ∧ Clear r η) ∧ bv2int r = .ok v) ∧
    (0 ≤ v ∧ v < 2 ^ n → ∃ r, int2fbv o n v = .ok r ∧ r.length = n ∧ (∀ η, (unsigned r η : Int) = v) ∧ bv2int r = .ok v) ∧
    (v < 0 → int2dbv o v = .fail ∧ int2fbv o n v = .fail) := by
  refine ⟨fun h => ?_, fun h => ?_, fun h => ⟨int2dbv_fail (by omega), by rw [int2fbv, if_pos h]⟩⟩
  · obtain ⟨r, h1, h2, h3, h4⟩ := int2dbv_ok (o := o) h
    refine ⟨r, h1, h2, h4, ?_⟩
    rw [bv2int, bv2num_ok (fun _ => false) r 0 h3, (h4 _).1]
    simp
  · obtain ⟨r, h1, h2, h3, h4⟩ := int2fbv_ok (o := o) n h.1
    refine ⟨r, h1, ?_, h4, ?_⟩
    · have := (width_le (i := v.toNat) hn).2 (by zify; rw [Int.toNat_of_nonneg h.1]; exact h.2)
      omega
    · rw [bv2int, bv2num_ok (fun _ => false) r 0 h2, h4]
      simp

example : int2dbv codeOrder 6 = .ok [ff _, tt _, tt _, ff _] ∧ int2fbv codeOrder 3 6 = .ok [tt _, tt _, ff _] ∧
    bv2int [tt codeOrder, tt _, ff _] = .ok 6 := by decide +kernel

/-- C105: 0 has no vector of any size. -/
theorem c105_zero_violated : int2dbv o 0 = .fail := int2dbv_fail (by omega)

/-- C105: a number that does not fit is not refused: the vector is longer than asked for. -/
theorem c105_fit_violated (n : Nat) (hn : 0 < n) (v : Int) (h : 2 ^ n ≤ v) : ∃ r, int2fbv o n v = .ok r ∧ n < r.length := by
  have hp : (0:Int) < 2 ^ n := by positivity
  obtain ⟨r, h1, -, h3, -⟩ := int2fbv_ok (o := o) n (v := v) (by omega)
  refine ⟨r, h1, ?_⟩
  have : ¬ width v.toNat ≤ n := by
    rw [width_le hn]
    zify
    rw [Int.toNat_of_nonneg (by omega)]
    omega
  omega

example : int2fbv codeOrder 2 5 = .ok [tt _, ff _, tt _] := by decide +kernel

/-- C105, vectors to integers: a constant vector gives its number, one with variables is refused. -/
theorem c105_bv2int (a : List (Fn o)) :
    (depends a = [] → ∀ η, bv2int a = .ok (unsigned a η : Int)) ∧ (depends a ≠ [] → ∀ v, bv2int a ≠ .ok v) := by
  constructor
  · intro h η
    rw [bv2int, bv2num_ok η a 0 (isConst_depends h)]
    simp
  · intro h v hv
    exact h (depends_isConst (bv2num_const a 0 v hv))

example : bv2int [tt codeOrder, ff _, tt _] = .ok 5 ∧ bv2int [tt codeOrder, var _ "a"] = .fail := by decide +kernel

/-! ### Fixed size -/

/-- C105, fixed size: sums, differences and products are those of numbers without sign, modulo the number of values. -/
theorem c105_fixed (a b : List (Fn o)) (ha : a ≠ []) (h : a.length = b.length) :
    (∃ r, fbvadd a b = .ok r ∧ r.length = a.length ∧ ∀ η, unsigned r η = (unsigned a η + unsigned b η) % 2 ^ a.length) ∧
    (∃ r, fbvsub a b = .ok r ∧ r.length = a.length ∧
      ∀ η, (unsigned r η : Int) = ((unsigned a η : Int) - unsigned b η) % 2 ^ a.length) ∧
    (∃ r, fbvmult a b = .ok r ∧ r.length = a.length ∧ ∀ η, unsigned r η = unsigned a η * unsigned b η % 2 ^ a.length) :=
  ⟨fbvadd_ok h, fbvsub_ok h, fbvmult_ok ha h⟩

example : fbvmult [tt codeOrder, tt _, tt _] [ff _, var _ "a", tt _] = .ok [tt _, (var _ "a").not, tt _] := by decide +kernel

/-- C105, fixed size: the comparisons compare numbers without sign. -/
theorem c105_compare (a b : List (Fn o)) (h : a.length = b.length) :
    (∃ c, fbveq a b = .ok c ∧ ∀ η, c.ev η = decide (unsigned a η = unsigned b η)) ∧
    (∃ c, fbvneq a b = .ok c ∧ ∀ η, c.ev η = decide (unsigned a η ≠ unsigned b η)) ∧
    (∃ c, fbvless a b = .ok c ∧ ∀ η, c.ev η = decide (unsigned a η < unsigned b η)) ∧
    (∃ c, fbvleq a b = .ok c ∧ ∀ η, c.ev η = decide (unsigned a η ≤ unsigned b η)) ∧
    (∃ c, fbvgreater a b = .ok c ∧ ∀ η, c.ev η = decide (unsigned b η < unsigned a η)) ∧
    (∃ c, fbvgeq a b = .ok c ∧ ∀ η, c.ev η = decide (unsigned b η ≤ unsigned a η)) := by
  refine ⟨fbveq_ok' h, ?_, fbvless_ok h, fbvleq_ok h, fbvless_ok h.symm, fbvleq_ok h.symm⟩
  refine ⟨(eqList a b).not, by simp [fbvneq, h], fun η => ?_⟩
  rw [not_ev, eqList_ev η a b h]
  simp [bits_eq_unsigned h η]

example : fbvless [ff codeOrder, var _ "a"] [tt _, ff _] = .ok (tt _) ∧ fbvgeq [ff codeOrder, var _ "a"] [ff _, tt _] =
    .ok (var _ "a") := by decide +kernel

/-- C105, fixed size: bitwise operations and the multiplexer. -/
theorem c105_bitwise (p : Fn o) (a b : List (Fn o)) (h : a.length = b.length) :
    (∀ (fn : Fn o → Fn o → Fn o) (op : Bool → Bool → Bool), (∀ f g η, (fn f g).ev η = op (f.ev η) (g.ev η)) →
      ∃ r, fbvBitwise fn a b = .ok r ∧ ∀ η, bits r η = List.zipWith op (bits a η) (bits b η)) ∧
    (∀ η, bits (fbvNot a) η = (bits a η).map (!·)) ∧
    (∀ c, ∃ r, fbvMUX p c a b = .ok r ∧ r.length = a.length ∧
      ∀ η, p.ev η = true → bits r η = if c.ev η then bits a η else bits b η) ∧
    (∀ η, (isZero a).ev η = decide (unsigned a η = 0)) := by
  refine ⟨fun fn op hop => ⟨genBitwise fn a b, by simp [fbvBitwise, h], fun η => ?_⟩, fun η => bits_not a η, fun c => ?_, fun η => ?_⟩
  · unfold genBitwise bits
    rw [List.map_zipWith, List.zipWith_map]
    congr 1
    funext f g
    exact hop f g η
  · unfold fbvMUX
    rw [if_neg (by simpa using h)]
    refine branchList_ok (n := a.length) (R := fun η m => m = if c.ev η then bits a η else bits b η)
      (fun p' hp => ⟨a, rfl, rfl, fun η hη => by rw [if_pos (hp η hη).2]⟩)
      (fun p' hp => ⟨b, rfl, h.symm, fun η hη => by rw [if_neg (by simp [(hp η hη).2])]⟩)
  · clear h
    induction a with
    | nil => simp [isZero, unsigned, Bv.uv, bits]
    | cons x a ih =>
      have : isZero (x :: a) = (isZero a).and x.not := rfl
      rw [this, and_ev, ih, not_ev, unsigned_cons]
      cases x.ev η <;> simp

example : fbvMUX (tt codeOrder) (var _ "a") [tt _, ff _] [ff _, ff _] = .ok [var _ "a", ff _] := by decide +kernel

/-- C105, fixed size, division and remainder: right for divisors other than 0 when the result leaves the top bit clear,
which the quotient does for divisors from 2 on and the remainder for divisors up to half the number of values, and right
for the constant powers of two.  The part that is missing is results that need the top bit. -/
theorem c105_div_partial (p : Fn o) (a b : List (Fn o)) (ha : a ≠ []) (h : a.length = b.length) :
    ∃ q r, fbvdiv p a b = .ok q ∧ fbvmod p a b = .ok r ∧ q.length = a.length ∧ r.length = a.length ∧
      ∀ η, p.ev η = true →
        (2 ≤ unsigned b η → unsigned q η = unsigned a η / unsigned b η) ∧
        (0 < unsigned b η → 2 * (unsigned a η / unsigned b η) < 2 ^ a.length → unsigned q η = unsigned a η / unsigned b η) ∧
        (0 < unsigned b η → 2 * unsigned b η ≤ 2 ^ a.length → unsigned r η = unsigned a η % unsigned b η) ∧
        (0 < unsigned b η → 2 * (unsigned a η % unsigned b η) < 2 ^ a.length → unsigned r η = unsigned a η % unsigned b η) ∧
        (∀ k, (∀ ζ, unsigned b ζ = 2 ^ k) → unsigned q η = unsigned a η / 2 ^ k ∧ unsigned r η = unsigned a η % 2 ^ k) := by
  obtain ⟨q, r, h1, h2, h3, h4⟩ := fixedExtDiv_ok (p := p) ha h
  refine ⟨q, r, by simp [fbvdiv, h1, Out.bind], by simp [fbvmod, h1, Out.bind], h2, h3, fun η hp => ⟨fun hb => ?_, fun hb hs => ?_,
    fun hb hs => ?_, fun hb hs => ?_, fun k hk => ?_⟩⟩
  · refine ((h4 η hp (by omega)).1 (.inr ?_))
    have hlt := unsigned_lt a η
    have h5 : unsigned a η / unsigned b η * unsigned b η ≤ unsigned a η := Nat.div_mul_le_self _ _
    have h6 : unsigned a η / unsigned b η * 2 ≤ unsigned a η / unsigned b η * unsigned b η := Nat.mul_le_mul_left _ hb
    omega
  · exact (h4 η hp hb).1 (.inr hs)
  · refine (h4 η hp hb).2 (.inr ?_)
    have := Nat.mod_lt (unsigned a η) hb
    omega
  · exact (h4 η hp hb).2 (.inr hs)
  · have hb : 0 < unsigned b η := by rw [hk]; positivity
    have e := constPow2_of hk
    obtain ⟨e1, e2⟩ := h4 η hp hb
    rw [← hk η]
    exact ⟨e1 (.inl e), e2 (.inl e)⟩

example : fbvdiv (tt codeOrder) [tt _, tt _, ff _, tt _] [ff _, ff _, tt _, tt _] = .ok [ff _, tt _, ff _, ff _] ∧
    fbvmod (tt codeOrder) [tt _, tt _, ff _, tt _] [ff _, ff _, tt _, tt _] = .ok [ff _, ff _, ff _, tt _] := by decide +kernel

/-- C105: 14 modulo 15 is 2, since leading ones are removed; and a vector of twice the same variable divided by one of
at most 1 is at most 1, although 3 divided by 1 is 3. -/
theorem c105_div_violated :
    fbvmod (tt codeOrder) [tt _, tt _, tt _, ff _] [tt _, tt _, tt _, tt _] = .ok [ff _, ff _, tt _, ff _] ∧
    fbvdiv (tt codeOrder) [var _ "a", var _ "a"] [ff _, var _ "b"] = .ok [ff _, (var _ "a").or (var _ "b").not] := by
  decide +kernel

/-- C105, fixed size, logical shifts: to the right divides by a power of two and to the left multiplies by one modulo
the number of values, by any symbolic count and for vectors of any size but 0. -/
theorem c105_shift (p : Fn o) (a b : List (Fn o)) (ha : a ≠ []) (h : a.length = b.length) :
    (∃ r, fbvshr p a b = .ok r ∧ r.length = a.length ∧ ∀ η, p.ev η = true → unsigned r η = unsigned a η / 2 ^ unsigned b η) ∧
    (∃ r, fbvshl p a b = .ok r ∧ r.length = a.length ∧
      ∀ η, p.ev η = true → unsigned r η = unsigned a η * 2 ^ unsigned b η % 2 ^ a.length) :=
  ⟨fbvshr_ok (List.length_pos_iff.2 ha) h, fbvshl_ok (List.length_pos_iff.2 ha) h⟩

example : fbvshr (tt codeOrder) [tt _, ff _] [ff _, var _ "a"] = .ok [(var _ "a").not, var _ "a"] ∧
    fbvshl (tt codeOrder) [tt _] [tt _] = .ok [ff _] := by decide +kernel

/-- C105, fixed size, the arithmetic shift of vectors with top bit 0.  The part that is missing is that of the others. -/
theorem c105_ashr_partial (p : Fn o) (a b : List (Fn o)) (ha : a ≠ []) (h : a.length = b.length) :
    ∃ r, fbvashr p a b = .ok r ∧ r.length = a.length ∧
      ∀ η, p.ev η = true → 0 ≤ signed a η → signed r η = signed a η / 2 ^ unsigned b η := by
  obtain ⟨r, h1, h2, h3⟩ := fbvashr_ok (p := p) (List.length_pos_iff.2 ha) h
  exact ⟨r, h1, h2, fun η hp => (h3 η hp).1⟩

example : fbvashr (tt codeOrder) [ff _, tt _, tt _] [ff _, ff _, var _ "a"] = .ok [ff _, (var _ "a").not, tt _] := by
  decide +kernel

/-- C105: every vector with top bit 1 is shifted one place too far. -/
theorem c105_ashr_violated (p : Fn o) (a b : List (Fn o)) (ha : a ≠ []) (h : a.length = b.length) :
    ∃ r, fbvashr p a b = .ok r ∧
      ∀ η, p.ev η = true → signed a η < 0 → signed r η = signed a η / 2 ^ (unsigned b η + 1) := by
  obtain ⟨r, h1, h2, h3⟩ := fbvashr_ok (p := p) (List.length_pos_iff.2 ha) h
  exact ⟨r, h1, fun η hp => (h3 η hp).2⟩

example : fbvashr (tt codeOrder) [tt _, ff _, ff _] [ff _, ff _, ff _] = .ok [tt _, tt _, ff _] := by decide +kernel

/-! ### Any size -/

/-- C105, any size: sums and differences of numbers that leave the top bit clear, and all products, are right and leave
the top bit clear; a difference must not be negative.  The part that is missing is the sums and differences of vectors
whose top bit is used. -/
theorem c105_dyn_partial (a b : List (Fn o)) (ha : a ≠ []) :
    (∃ r, dbvadd a b = .ok r ∧ ∀ η, Clear a η → Clear b η → unsigned r η = unsigned a η + unsigned b η ∧ Clear r η) ∧
    (∃ r, dbvsub a b = .ok r ∧ ∀ η, Clear a η → Clear b η → unsigned b η ≤ unsigned a η →
      unsigned r η = unsigned a η - unsigned b η ∧ Clear r η) ∧
    (∃ r, dbvmult a b = .ok r ∧ ∀ η, unsigned r η = unsigned a η * unsigned b η ∧ Clear r η) := by
  obtain ⟨r, h1, -, h2⟩ := dbvadd_ok (b := b) ha
  obtain ⟨s, g1, -, g2⟩ := dbvsub_ok (b := b) ha
  obtain ⟨t, e1, -, e2⟩ := dbvmult_ok a b
  exact ⟨⟨r, h1, h2⟩, ⟨s, g1, g2⟩, ⟨t, e1, e2⟩⟩

example : Clear [ff codeOrder, var _ "a"] (fun _ => true) := by unfold Clear; decide +kernel
example : dbvadd [ff codeOrder, tt _] [ff _, var _ "a"] = .ok [ff _, var _ "a", (var _ "a").not] ∧
    dbvmult [tt codeOrder, tt _] [tt _, tt _] = .ok [ff _, tt _, ff _, ff _, tt _] := by decide +kernel

/-- C105: 2 plus 1 is 1 if the vector of 2 uses its top bit, and 2 minus 3 is 1. -/
theorem c105_dyn_violated :
    dbvadd [tt codeOrder, ff _] [ff _, tt _] = .ok [tt _] ∧
    dbvsub [ff codeOrder, tt _, ff _] [ff _, tt _, tt _] = .ok [tt _] := by decide +kernel

/-- C105, any size: the comparisons compare numbers without sign, of vectors of any two lengths. -/
theorem c105_dyncompare (a b : List (Fn o)) :
    (∃ c, dbveq a b = .ok c ∧ ∀ η, c.ev η = decide (unsigned a η = unsigned b η)) ∧
    (∃ c, dbvneq a b = .ok c ∧ ∀ η, c.ev η = decide (unsigned a η ≠ unsigned b η)) ∧
    (∃ c, dbvless a b = .ok c ∧ ∀ η, c.ev η = decide (unsigned a η < unsigned b η)) ∧
    (∃ c, dbvleq a b = .ok c ∧ ∀ η, c.ev η = decide (unsigned a η ≤ unsigned b η)) ∧
    (∃ c, dbvgreater a b = .ok c ∧ ∀ η, c.ev η = decide (unsigned b η < unsigned a η)) ∧
    (∃ c, dbvgeq a b = .ok c ∧ ∀ η, c.ev η = decide (unsigned b η ≤ unsigned a η)) :=
  ⟨dbveq_ok a b, dbvneq_ok a b, dbvless_ok a b, dbvleq_ok a b, dbvless_ok b a, dbvleq_ok b a⟩

example : dbvless [tt codeOrder] [tt _, var _ "a"] = .ok (tt _) ∧ dbveq [tt codeOrder] [ff _, ff _, var _ "a"] = .ok (var _ "a") := by
  decide +kernel

/-- C105: `''>''` does not compare its arguments. -/
theorem c105_greater_violated (a b c d : List (Fn o)) : dynGreater a b = dynGreater c d := rfl

/-- C105, any size: bitwise operations that keep 0, and the multiplexer, on numbers that leave the top bit clear. -/
theorem c105_dynbitwise_partial (p : Fn o) (a b : List (Fn o)) :
    (∀ (fn : Fn o → Fn o → Fn o) (op : Bool → Bool → Bool), (∀ f g η, (fn f g).ev η = op (f.ev η) (g.ev η)) → op false false = false →
      ∃ r, dbvBitwise fn a b = .ok r ∧ ∀ η, Clear a η → Clear b η → Clear r η ∧ ∃ x y : List Bool,
        x.length = y.length ∧ Bv.uv x = unsigned a η ∧ Bv.uv y = unsigned b η ∧ unsigned r η = Bv.uv (List.zipWith op x y)) ∧
    (∀ c, ∃ r, dbvMUX p c a b = .ok r ∧ ∀ η, p.ev η = true → Clear a η → Clear b η →
      unsigned r η = (if c.ev η then unsigned a η else unsigned b η) ∧ Clear r η) := by
  obtain ⟨x, y, h1, hx, hy, hv⟩ := zx2_ok a b
  constructor
  · intro fn op hop h00
    refine ⟨bvTrim (genBitwise fn x y), by simp [dbvBitwise, h1, Out.bind], fun η ca cb => ?_⟩
    have hbits : bits (genBitwise fn x y) η = List.zipWith op (bits x η) (bits y η) := by
      unfold genBitwise bits
      rw [List.map_zipWith, List.zipWith_map]
      congr 1
      funext f g
      exact hop f g η
    have hc : Clear (genBitwise fn x y) η := by
      have c1 := clear_mono ca (hv η).1 (by omega)
      have c2 := clear_mono cb (hv η).2 (by omega)
      cases x with
      | nil => simp [genBitwise, Clear, unsigned, Bv.uv, bits]
      | cons u us =>
        cases y with
        | nil => simp [genBitwise, Clear, unsigned, Bv.uv, bits]
        | cons v vs =>
          have : genBitwise fn (u :: us) (v :: vs) = fn u v :: genBitwise fn us vs := rfl
          rw [this, clear_cons, hop, (clear_cons _ _ _).1 c1, (clear_cons _ _ _).1 c2, h00]
    obtain ⟨t1, t2⟩ := trim_clear η _ hc
    refine ⟨t2, bits x η, bits y η, by simp; omega, (hv η).1, (hv η).2, ?_⟩
    rw [t1]
    unfold unsigned
    rw [hbits]
  · intro c
    obtain ⟨r, r1, r2, r3⟩ := branchList_ok (p := p) (c := c) (t := fun _ => .ok x) (e := fun _ => .ok y) (n := max a.length b.length)
      (R := fun η m => Bv.uv m = if c.ev η then unsigned a η else unsigned b η)
      (fun p' hp => ⟨x, rfl, hx, fun η hη => by rw [if_pos (hp η hη).2]; exact (hv η).1⟩)
      (fun p' hp => ⟨y, rfl, hy, fun η hη => by rw [if_neg (by simp [(hp η hη).2])]; exact (hv η).2⟩)
    refine ⟨bvTrim r, by simp only [dbvMUX, h1, Out.bind, r1], fun η hp ca cb => ?_⟩
    have hr : unsigned r η = if c.ev η then unsigned a η else unsigned b η := r3 η hp
    have c1 := clear_mono ca (hv η).1 (by omega)
    have c2 := clear_mono cb (hv η).2 (by omega)
    have hc : Clear r η := by
      unfold Clear at *
      rw [hx, (hv η).1] at c1
      rw [hy, (hv η).2] at c2
      rw [hr, r2]
      split <;> assumption
    obtain ⟨t1, t2⟩ := trim_clear η _ hc
    exact ⟨by rw [t1, hr], t2⟩

example : dbvBitwise Fn.or [ff codeOrder, tt _] [ff _, var _ "a", ff _] = .ok [ff _, var _ "a", tt _] ∧
    dbvMUX (tt codeOrder) (var _ "a") [ff _, tt _] [ff _, tt _, ff _] = .ok [ff _, (var _ "a").not, var _ "a"] := by decide +kernel

/-- C105, any size: bitwise or of 2 and 1 written with their top bits in use is 1. -/
theorem c105_dynbitwise_violated : dbvBitwise Fn.or [tt codeOrder, ff _] [ff _, tt _] = .ok [tt _] := by decide +kernel

/-- C105, any size, division and remainder of numbers that leave the top bit clear. -/
theorem c105_dyndiv_partial (p : Fn o) (a b : List (Fn o)) (ha : a ≠ []) :
    ∃ q r, dbvdiv p a b = .ok q ∧ dbvmod p a b = .ok r ∧ ∀ η, p.ev η = true → Clear a η → Clear b η → 0 < unsigned b η →
      unsigned q η = unsigned a η / unsigned b η ∧ unsigned r η = unsigned a η % unsigned b η ∧ Clear q η ∧ Clear r η := by
  obtain ⟨x, y, h1, hx, hy, hv⟩ := zx2_ok a b
  have hl := List.length_pos_iff.2 ha
  obtain ⟨q, r, g1, g2, g3, g4⟩ := fixedExtDiv_ok (p := p) (a := x) (b := y) (by rintro rfl; simp at hx; omega) (by omega)
  refine ⟨bvTrim q, bvTrim r, by simp [dbvdiv, extDiv, h1, g1, Out.bind], by simp [dbvmod, extDiv, h1, g1, Out.bind],
    fun η hp ca cb hb => ?_⟩
  have c1 := clear_mono ca (hv η).1 (by omega)
  have c2 := clear_mono cb (hv η).2 (by omega)
  obtain ⟨e1, e2⟩ := g4 η hp (by rw [(hv η).2]; exact hb)
  unfold Clear at c1 c2
  rw [show y.length = x.length by omega] at c2
  have d1 : unsigned x η / unsigned y η ≤ unsigned x η := Nat.div_le_self _ _
  have d2 : unsigned x η % unsigned y η ≤ unsigned x η := Nat.mod_le _ _
  have e1 := e1 (.inr (by omega))
  have e2 := e2 (.inr (by omega))
  obtain ⟨t1, t2⟩ := trim_clear η q (by unfold Clear; rw [e1, g2]; omega)
  obtain ⟨t3, t4⟩ := trim_clear η r (by unfold Clear; rw [e2, g3]; omega)
  exact ⟨by rw [t1, e1, (hv η).1, (hv η).2], by rw [t3, e2, (hv η).1, (hv η).2], t2, t4⟩

example : dbvdiv (tt codeOrder) [ff _, tt _, tt _, tt _] [ff _, tt _, tt _] = .ok [ff _, tt _, ff _] ∧
    dbvmod (tt codeOrder) [ff _, tt _, tt _, tt _] [ff _, tt _, tt _] = .ok [ff _, tt _] := by decide +kernel

/-- C105, any size, shifts of numbers that leave the top bit clear: to the right always, to the left as far as there is
room in the longer of the two vectors. -/
theorem c105_dynshift_partial (p : Fn o) (a b : List (Fn o)) (ha : a ≠ []) :
    (∃ r, dbvshr p a b = .ok r ∧ ∀ η, p.ev η = true → Clear a η → unsigned r η = unsigned a η / 2 ^ unsigned b η ∧ Clear r η) ∧
    (∃ r, dbvashr p a b = .ok r ∧ ∀ η, p.ev η = true → Clear a η → unsigned r η = unsigned a η / 2 ^ unsigned b η ∧ Clear r η) ∧
    (∃ r, dbvshl p a b = .ok r ∧ ∀ η, p.ev η = true → 2 * (unsigned a η * 2 ^ unsigned b η) < 2 ^ max a.length b.length →
      unsigned r η = unsigned a η * 2 ^ unsigned b η ∧ Clear r η) := by
  obtain ⟨x, y, h1, hx, hy, hv⟩ := zx2_ok a b
  have hl := List.length_pos_iff.2 ha
  have hpos : 0 < x.length := by omega
  refine ⟨?_, ?_, ?_⟩
  · obtain ⟨r, g1, g2, g3⟩ := fbvshr_ok (p := p) hpos (show x.length = y.length by omega)
    refine ⟨bvTrim r, by simp [dbvshr, h1, g1, Out.bind], fun η hp ca => ?_⟩
    have c1 := clear_mono ca (hv η).1 (by omega)
    have e := g3 η hp
    have d1 : unsigned x η / 2 ^ unsigned y η ≤ unsigned x η := Nat.div_le_self _ _
    obtain ⟨t1, t2⟩ := trim_clear η r (by unfold Clear at *; rw [e, g2]; omega)
    exact ⟨by rw [t1, e, (hv η).1, (hv η).2], t2⟩
  · obtain ⟨r, g1, g2, g3⟩ := fbvashr_ok (p := p) hpos (show x.length = y.length by omega)
    refine ⟨bvTrim r, by simp [dbvashr, h1, g1, Out.bind], fun η hp ca => ?_⟩
    have c1 := clear_mono ca (hv η).1 (by omega)
    have hlt : unsigned x η < 2 ^ (x.length - 1) := by
      unfold Clear at c1
      obtain ⟨m, hm⟩ : ∃ m, x.length = m + 1 := ⟨x.length - 1, by omega⟩
      rw [hm, pow_succ] at c1
      rw [hm, Nat.add_sub_cancel]
      omega
    have hs : signed x η = unsigned x η := signed_small rfl hpos (by exact_mod_cast hlt)
    have e := (g3 η hp).1 (by rw [hs]; positivity)
    rw [hs] at e
    have hnn : 0 ≤ signed r η := by rw [e]; positivity
    have hu := unsigned_signed hnn
    rw [e] at hu
    have hu : unsigned r η = unsigned x η / 2 ^ unsigned y η := by exact_mod_cast hu
    have d1 : unsigned x η / 2 ^ unsigned y η ≤ unsigned x η := Nat.div_le_self _ _
    obtain ⟨t1, t2⟩ := trim_clear η r (by unfold Clear at *; rw [hu, g2]; omega)
    exact ⟨by rw [t1, hu, (hv η).1, (hv η).2], t2⟩
  · obtain ⟨r, g1, g2, g3⟩ := fbvshl_ok (p := p) hpos (show x.length = y.length by omega)
    refine ⟨bvTrim r, by simp [dbvshl, h1, g1, Out.bind], fun η hp hfit => ?_⟩
    have e := g3 η hp
    rw [(hv η).1, (hv η).2, hx, Nat.mod_eq_of_lt (by omega)] at e
    obtain ⟨t1, t2⟩ := trim_clear η r (by unfold Clear; rw [e, g2, hx]; exact hfit)
    exact ⟨by rw [t1, e], t2⟩

example : dbvshr (tt codeOrder) [ff _, tt _, tt _] [ff _, tt _] = .ok [ff _, tt _] ∧
    dbvshl (tt codeOrder) [ff _, ff _, tt _, tt _] [ff _, tt _] = .ok [ff _, tt _, tt _, ff _] := by decide +kernel

/-- C105, any size: 3 shifted to the left by 1 is 2, since the vector does not grow and leading ones are removed. -/
theorem c105_dynshift_violated :
    dbvshl (tt codeOrder) [ff _, tt _, tt _] [ff _, tt _] = .ok [tt _, ff _] := by decide +kernel

/-- C105: the comparisons, the division and the shifts of fixed size refuse vectors of different lengths, and so does
the multiplication when neither of them is constant. -/
theorem c105_lengths (p : Fn o) (a b : List (Fn o)) (h : a.length ≠ b.length) :
    fbvless a b = .fail ∧ fbvleq a b = .fail ∧ fbvgreater a b = .fail ∧ fbvgeq a b = .fail ∧
    fbvdiv p a b = .fail ∧ fbvmod p a b = .fail ∧ fbvshl p a b = .fail ∧ fbvshr p a b = .fail ∧
    (a ≠ [] → fbvashr p a b = .fail) ∧ (depends a ≠ [] → depends b ≠ [] → fbvmult a b = .fail) := by
  have h' := h.symm
  refine ⟨by simp [fbvless, h], by simp [fbvleq, fbvless, fbveq, h, Out.bind], by simp [fbvgreater, fbvless, h'],
    by simp [fbvgeq, fbvleq, fbvless, fbveq, h', Out.bind], by simp [fbvdiv, fixedExtDiv, h, Out.bind],
    by simp [fbvmod, fixedExtDiv, h, Out.bind], by simp [fbvshl, shiftBy, h], by simp [fbvshr, shiftBy, h], ?_, ?_⟩
  · intro ha
    cases a with
    | nil => exact absurd rfl ha
    | cons x a => simp only [fbvashr, shiftBy, hd, Out.bind, if_pos h]
  · intro ha hb
    rw [fbvmult, if_neg ha, if_neg hb, if_pos h]

example : fbvless [tt codeOrder] [tt _, ff _] = .fail ∧ fbvmod (tt codeOrder) [tt _, ff _] [tt _] = .fail := by
  decide +kernel

end Voss.Ugen
