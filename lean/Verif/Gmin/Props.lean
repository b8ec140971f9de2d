import Verif.Gmin.Lemmas
/-
C107: the smallest and the largest value of a symbolic vector.

`signed bv η` and `unsigned bv η` are the numbers that the vector is under the assignment `η`
(Verif/Gen/Spec.lean).
-/
namespace Voss.Gmin
open Voss.Pre Voss.Pre.Fn Voss.Gen
open Voss.Bv (uv tc uv_lt)
variable {o : Order}

/-- C107, vectors of Booleans with sign: `get_minimum_value` gives a value that the vector takes, and no value is
smaller. -/
theorem c107_minimum (bv : List (Fn o)) (h : bv ≠ []) :
    ∃ v, getMin bv = .ok v ∧ (∃ η, signed bv η = v) ∧ ∀ η, v ≤ signed bv η := by
  obtain ⟨b, bs, rfl⟩ := List.exists_cons_of_ne_nil h
  obtain ⟨d, ds, e, s⟩ := findMin_top b bs
  obtain ⟨η, q1, q2⟩ := s.ex
  refine ⟨tc (d :: ds), by rw [getMin, e]; exact read_signed d ds, ⟨η, ?_⟩, fun ζ => ?_⟩
  · show tc (b.ev η :: bits bs η) = _
    rw [q1, q2]
  · show _ ≤ tc (b.ev ζ :: bits bs ζ)
    have hl : (bits bs ζ).length = ds.length := by simp [bits, s.len]
    rw [tc, tc, hl]
    by_cases hd : b.ev ζ = d
    · have := s.best ζ hd
      rw [hd]; omega
    · rcases s.dig with h | h
      · subst h
        have : b.ev ζ = false := by simpa using hd
        rw [this]
        have := uv_lt ds
        zify at this
        simp; omega
      · exact absurd (h ζ) hd

/-- C107: `get_maximum_value` gives a value that the vector takes, and no value is larger. -/
theorem c107_maximum (bv : List (Fn o)) (h : bv ≠ []) :
    ∃ v, getMax bv = .ok v ∧ (∃ η, signed bv η = v) ∧ ∀ η, signed bv η ≤ v := by
  obtain ⟨b, bs, rfl⟩ := List.exists_cons_of_ne_nil h
  obtain ⟨d, ds, e, s⟩ := findMax_top b bs
  obtain ⟨η, q1, q2⟩ := s.ex
  refine ⟨tc (d :: ds), by rw [getMax, e]; exact read_signed d ds, ⟨η, ?_⟩, fun ζ => ?_⟩
  · show tc (b.ev η :: bits bs η) = _
    rw [q1, q2]
  · show tc (b.ev ζ :: bits bs ζ) ≤ _
    have hl : (bits bs ζ).length = ds.length := by simp [bits, s.len]
    rw [tc, tc, hl]
    by_cases hd : b.ev ζ = d
    · have := s.best ζ hd
      rw [hd]; omega
    · rcases s.dig with h | h
      · subst h
        have : b.ev ζ = true := by simpa using hd
        rw [this]
        have := uv_lt (bits bs ζ)
        rw [hl] at this
        zify at this
        simp; omega
      · exact absurd (h ζ) hd

/-- A vector with the values 1, 2, -1 and -2. -/
def sample (o : Order) : List (Fn o) := [var o "x", (var o "y").or (var o "x"), (var o "y").not]

example : getMin (sample codeOrder) = .ok (-2) ∧ getMax (sample codeOrder) = .ok 2 := by decide +kernel
/-- The empty vector has no value. -/
example : getMin ([] : List (Fn codeOrder)) = .fail ∧ getMax ([] : List (Fn codeOrder)) = .fail := by decide +kernel

/-- C107, vectors of expressions with sign: the minimum is right if no value is negative, the maximum if not all values
are. -/
theorem c107_bexpr_partial (bv : List (Fn o)) (h : bv ≠ []) :
    ((∀ η, 0 ≤ signed bv η) → ∃ v, bddGetMin bv = .ok v ∧ (∃ η, signed bv η = v) ∧ ∀ η, v ≤ signed bv η) ∧
    ((∃ η, 0 ≤ signed bv η) → ∃ v, bddGetMax bv = .ok v ∧ (∃ η, signed bv η = v) ∧ ∀ η, signed bv η ≤ v) := by
  constructor
  · intro hp
    obtain ⟨v, e, ⟨η, hη⟩, hv⟩ := c107_minimum bv h
    obtain ⟨b, bs, rfl⟩ := List.exists_cons_of_ne_nil h
    obtain ⟨d, ds, e', s⟩ := findMin_top b bs
    rw [getMin, e'] at e
    have : tc (d :: ds) = v := by
      have := e.symm.trans (read_signed d ds)
      simpa using this.symm
    refine ⟨v, ?_, ⟨η, hη⟩, hv⟩
    rw [bddGetMin, e']
    show Ugen.bv2num 0 _ = _
    rw [read_unsigned, ← Bv.tc_nonneg_uv (d :: ds) (by rw [this, ← hη]; exact hp η), this]
  · rintro ⟨ξ, hp⟩
    obtain ⟨v, e, ⟨η, hη⟩, hv⟩ := c107_maximum bv h
    obtain ⟨b, bs, rfl⟩ := List.exists_cons_of_ne_nil h
    obtain ⟨d, ds, e', s⟩ := findMax_top b bs
    rw [getMax, e'] at e
    have : tc (d :: ds) = v := by
      have := e.symm.trans (read_signed d ds)
      simpa using this.symm
    refine ⟨v, ?_, ⟨η, hη⟩, hv⟩
    rw [bddGetMax, e']
    show Ugen.bv2num 0 _ = _
    rw [read_unsigned, ← Bv.tc_nonneg_uv (d :: ds) (by rw [this]; exact le_trans hp (hv ξ)), this]

example : bddGetMin (ff codeOrder :: sample codeOrder) = .ok 1 ∧ bddGetMax (ff codeOrder :: sample codeOrder) = .ok 7 := by
  decide +kernel

/-- C107: otherwise it is never right: if some value is negative, the minimum that is given is positive, and larger
than this value; if all are, the same holds of the maximum. -/
theorem c107_bexpr_violated (bv : List (Fn o)) :
    ((∃ η, signed bv η < 0) → ∃ v, bddGetMin bv = .ok v ∧ 0 < v ∧ ∃ η, signed bv η < v) ∧
    ((∀ η, signed bv η < 0) → ∃ v, bddGetMax bv = .ok v ∧ ∀ η, signed bv η < v) := by
  cases bv with
  | nil => exact ⟨fun ⟨η, h⟩ => by simp [signed, bits, tc] at h, fun h => by simpa [signed, bits, tc] using h fun _ => false⟩
  | cons b bs =>
    constructor
    · rintro ⟨η, h⟩
      obtain ⟨d, ds, e, s⟩ := findMin_top b bs
      have hb : b.ev η = true := (tc_neg_head (b.ev η) (bits bs η)).1 h
      have hd : d = true := by
        rcases s.dig with h' | h'
        · exact h'
        · rw [← h' η, hb]
      have : 0 < uv (d :: ds) := by
        rw [hd, uv]
        simp
      refine ⟨uv (d :: ds), ?_, by exact_mod_cast this, η, by omega⟩
      rw [bddGetMin, e]
      exact read_unsigned _
    · intro h
      obtain ⟨d, ds, e, s⟩ := findMax_top b bs
      refine ⟨uv (d :: ds), ?_, fun η => by have := h η; omega⟩
      rw [bddGetMax, e]
      exact read_unsigned _

example : bddGetMin [var codeOrder "x", var _ "y"] = .ok 2 ∧ bddGetMax [var codeOrder "x", var _ "y"] = .ok 1 := by
  decide +kernel

/-- C107, vectors of expressions without sign: right if the first digit does not depend on variables. -/
theorem c107_unsigned_partial (b : Fn o) (bs : List (Fn o)) (h : b = tt o ∨ b = ff o) :
    (∃ v : Nat, bddGetMin (b :: bs) = .ok v ∧ (∃ η, unsigned (b :: bs) η = v) ∧ ∀ η, v ≤ unsigned (b :: bs) η) ∧
    (∃ v : Nat, bddGetMax (b :: bs) = .ok v ∧ (∃ η, unsigned (b :: bs) η = v) ∧ ∀ η, unsigned (b :: bs) η ≤ v) := by
  have hc : ∀ η ζ, b.ev η = b.ev ζ := by
    rcases h with rfl | rfl <;> simp
  constructor
  · obtain ⟨d, ds, e, s⟩ := findMin_top b bs
    obtain ⟨η, q1, q2⟩ := s.ex
    refine ⟨uv (d :: ds), by rw [bddGetMin, e]; exact read_unsigned _, ⟨η, ?_⟩, fun ζ => ?_⟩
    · show uv (b.ev η :: bits bs η) = _
      rw [q1, q2]
    · show _ ≤ uv (b.ev ζ :: bits bs ζ)
      have hd : b.ev ζ = d := by rw [← q1]; exact hc _ _
      have := s.best ζ hd
      rw [hd, uv, uv, show (bits bs ζ).length = ds.length by simp [bits, s.len]]
      omega
  · obtain ⟨d, ds, e, s⟩ := findMax_top b bs
    obtain ⟨η, q1, q2⟩ := s.ex
    refine ⟨uv (d :: ds), by rw [bddGetMax, e]; exact read_unsigned _, ⟨η, ?_⟩, fun ζ => ?_⟩
    · show uv (b.ev η :: bits bs η) = _
      rw [q1, q2]
    · show uv (b.ev ζ :: bits bs ζ) ≤ _
      have hd : b.ev ζ = d := by rw [← q1]; exact hc _ _
      have := s.best ζ hd
      rw [hd, uv, uv, show (bits bs ζ).length = ds.length by simp [bits, s.len]]
      omega

example : bddGetMin (tt codeOrder :: sample codeOrder) = .ok 9 ∧ bddGetMax (tt codeOrder :: sample codeOrder) = .ok 15 := by
  decide +kernel

/-- C107: otherwise it is never right: there is a value below the minimum that is given, one above the maximum, and the
maximum is less than the minimum. -/
theorem c107_unsigned_violated (b : Fn o) (bs : List (Fn o)) (h1 : b ≠ tt o) (h2 : b ≠ ff o) :
    ∃ v w : Nat, bddGetMin (b :: bs) = .ok v ∧ bddGetMax (b :: bs) = .ok w ∧ w < v ∧
      (∃ η, unsigned (b :: bs) η < v) ∧ ∃ η, w < unsigned (b :: bs) η := by
  obtain ⟨d, ds, e, s⟩ := findMin_top b bs
  obtain ⟨d', ds', e', s'⟩ := findMax_top b bs
  obtain ⟨η, hη⟩ := nonconst h1 h2 false
  obtain ⟨ζ, hζ⟩ := nonconst h1 h2 true
  have hd : d = true := by
    rcases s.dig with h | h
    · exact h
    · rw [← h ζ, hζ]
  have hd' : d' = false := by
    rcases s'.dig with h | h
    · exact h
    · rw [← h η, hη]
  subst hd hd'
  have u1 : unsigned (b :: bs) η < 2 ^ bs.length := by
    show uv (b.ev η :: bits bs η) < _
    have := uv_lt (bits bs η)
    rw [hη, uv]
    simpa [bits] using this
  have u2 : 2 ^ bs.length ≤ unsigned (b :: bs) ζ := by
    show _ ≤ uv (b.ev ζ :: bits bs ζ)
    rw [hζ, uv]
    simp [bits]
  have u3 : 2 ^ bs.length ≤ uv (true :: ds) := by
    rw [uv, s.len]; simp
  have u4 : uv (false :: ds') < 2 ^ bs.length := by
    have := uv_lt ds'
    rw [s'.len] at this
    rw [uv]; simpa using this
  exact ⟨uv (true :: ds), uv (false :: ds'), by rw [bddGetMin, e]; exact read_unsigned _,
    by rw [bddGetMax, e']; exact read_unsigned _, by omega, ⟨η, by omega⟩, ζ, by omega⟩

end Voss.Gmin
