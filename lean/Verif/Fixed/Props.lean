import Verif.Fixed.Model
import Verif.Lst.Props
import Mathlib.Tactic.Ring

/-! C114: bit-vectors as lists of a fixed size. -/

namespace Voss.Fixed

open Voss.Lst (Res)

/-- The number that bits stand for, most significant bit first. -/
def unsigned : List Bool → Int
  | [] => 0
  | b :: l => (if b then 2 ^ l.length else 0) + unsigned l

/-- The number in two's complement. -/
def signed : List Bool → Int
  | [] => 0
  | b :: l => (if b then -(2 ^ l.length) else 0) + unsigned l

theorem unsigned_range (l : List Bool) : 0 ≤ unsigned l ∧ unsigned l < 2 ^ l.length := by
  induction l with
  | nil => simp [unsigned]
  | cons b l ih =>
    have : (2 : Int) ^ (l.length + 1) = 2 * 2 ^ l.length := by ring
    cases b <;> simp only [unsigned, List.length_cons, this, if_true, Bool.false_eq_true, if_false] <;> omega

theorem unsigned_append (a b : List Bool) : unsigned (a ++ b) = unsigned a * 2 ^ b.length + unsigned b := by
  induction a with
  | nil => simp [unsigned]
  | cons x a ih =>
    cases x <;> simp only [unsigned, List.cons_append, List.length_append, ih, if_true, Bool.false_eq_true, if_false] <;> ring

theorem signed_mod (l : List Bool) (k : Nat) (h : k ≤ l.length) : signed l % 2 ^ k = unsigned l % 2 ^ k := by
  cases l with
  | nil => rfl
  | cons b l =>
    have e : signed (b :: l) = unsigned (b :: l) + 2 ^ k * (if b then -(2 ^ (l.length + 1 - k)) else 0) := by
      have : (2 : Int) ^ k * 2 ^ (l.length + 1 - k) = 2 * 2 ^ l.length := by
        rw [← pow_add, show k + (l.length + 1 - k) = l.length + 1 by simp at h; omega]; ring
      cases b
      · simp [signed, unsigned]
      · simp only [signed, unsigned, if_true, mul_neg, this]; ring
    rw [e, Int.add_mul_emod_self_left]

theorem unsigned_drop (l : List Bool) (k : Nat) (h : k ≤ l.length) :
    unsigned (l.drop (l.length - k)) = unsigned l % 2 ^ k := by
  have e := unsigned_append (l.take (l.length - k)) (l.drop (l.length - k))
  have r := unsigned_range (l.drop (l.length - k))
  have hl : (l.drop (l.length - k)).length = k := by simp; omega
  rw [List.take_append_drop] at e
  rw [hl] at e r
  rw [e, Int.add_comm, Int.add_mul_emod_self_right, Int.emod_eq_of_lt r.1 r.2]

theorem signed_replicate (b : Bool) (l : List Bool) (n : Nat) : signed (List.replicate n b ++ b :: l) = signed (b :: l) := by
  have key : ∀ n : Nat, (if b then -(2 ^ (n + (l.length + 1))) else (0 : Int)) + unsigned (List.replicate n b ++ b :: l) =
      signed (b :: l) := by
    intro n
    induction n with
    | zero => cases b <;> simp [signed, unsigned]; ring
    | succ n ih =>
      rw [← ih]
      cases b
      · simp [List.replicate_succ, unsigned]
      · simp only [List.replicate_succ, List.cons_append, unsigned, if_true, List.length_append, List.length_replicate,
          List.length_cons]
        ring
  cases n with
  | zero => rfl
  | succ n =>
    rw [← key n, List.replicate_succ, List.cons_append, signed]
    simp

theorem unsigned_zeros (l : List Bool) (n : Nat) : unsigned (List.replicate n false ++ l) = unsigned l := by
  induction n with
  | zero => rfl
  | succ n ih => simpa [List.replicate_succ, unsigned] using ih

theorem replicate_eq {α : Type} (n : Int) (h : 0 ≤ n) (x : α) : Plist.replicate n x = some (List.replicate n.toNat x) := by
  have : ∀ k, Plist.replicateGo k x = List.replicate k x := by
    intro k
    induction k with
    | zero => rfl
    | succ k ih => rw [Plist.replicateGo, ih, List.replicate_succ]
  unfold Plist.replicate
  rw [if_neg (by omega), this]

variable {α : Type}

/-- What `fixed_bv2list` makes of a vector that is not longer than the list. -/
theorem extend_eq (zero : α) (bits : Nat) (s : Bool) (b : α) (l : List α) (h : l.length + 1 ≤ bits) :
    extend zero bits s (b :: l) = .ok (List.replicate (bits - (l.length + 1)) (if s then b else zero) ++ b :: l) := by
  unfold extend
  simp only [List.length_cons]
  rw [if_neg (by omega)]
  by_cases e : l.length + 1 = bits
  · rw [if_pos (by omega), show bits - (l.length + 1) = 0 by omega]; rfl
  · rw [if_neg (by omega)]
    have hn : ((bits : Int) - ((l.length + 1 : Nat) : Int)).toNat = bits - (l.length + 1) := by omega
    cases s <;> simp only [List.head?_cons, if_true, Bool.false_eq_true, if_false] <;>
      rw [replicate_eq _ (by omega), hn]

/-- Without truncation, or if it is not needed: the list has the size asked for and stands for the same number, as a signed
number if the sign is extended, otherwise as an unsigned one. -/
theorem c114_extend (zero : α) (bits : Nat) (s t : Bool) (l : List α) (hl : l ≠ []) (h : l.length ≤ bits)
    (hm : l.length < 2147483648) :
    ∃ r, fixedList zero bits s t l = .ok r ∧ r.length = bits ∧ ∀ ev : α → Bool, ev zero = false →
      if s then signed (r.map ev) = signed (l.map ev) else unsigned (r.map ev) = unsigned (l.map ev) := by
  cases l with
  | nil => exact absurd rfl hl
  | cons b l =>
    have e : fixedList zero bits s t (b :: l) = extend zero bits s (b :: l) := by
      unfold fixedList
      cases t with
      | false => rfl
      | true =>
        have hmin : min (((b :: l).length : Nat) : Int) (bits : Int) = ((b :: l).length : Nat) := by omega
        simp only [if_true, hmin]
        rw [(Lst.c66_lastn_partial (b :: l) _ (by omega) (by omega)).1]
        simp
    simp only [List.length_cons] at h
    rw [e, extend_eq zero bits s b l h]
    refine ⟨_, rfl, by simp; omega, ?_⟩
    intro ev hz
    cases s
    · simp only [Bool.false_eq_true, if_false, List.map_append, List.map_replicate, hz]
      exact unsigned_zeros _ _
    · simp only [if_true, List.map_append, List.map_replicate, List.map_cons]
      exact signed_replicate _ _ _

/-- With truncation the list has the size asked for and stands for the number modulo a power of two. -/
theorem c114_truncate (zero : α) (bits : Nat) (s : Bool) (l : List α) (h : bits ≤ l.length) (hm : l.length < 2147483648) :
    ∃ r, fixedList zero bits s true l = .ok r ∧ r.length = bits ∧ ∀ ev : α → Bool,
      unsigned (r.map ev) = signed (l.map ev) % 2 ^ bits ∧ unsigned (r.map ev) = unsigned (l.map ev) % 2 ^ bits := by
  have hd : (l.drop (l.length - bits)).length = bits := by simp; omega
  refine ⟨l.drop (l.length - bits), ?_, hd, ?_⟩
  · unfold fixedList
    have hmin : min ((l.length : Nat) : Int) (bits : Int) = bits := by omega
    simp only [if_true, hmin]
    rw [(Lst.c66_lastn_partial l _ (by omega) (by omega)).1, if_pos (by omega)]
    simp only [Int.toNat_natCast]
    unfold extend
    rw [hd]; simp
  · intro ev
    have := unsigned_drop (l.map ev) bits (by simpa using h)
    rw [List.length_map, ← List.map_drop] at this
    rw [this, signed_mod _ _ (by simpa using h)]
    exact ⟨rfl, rfl⟩

/-- Without truncation a vector that is longer than the list is refused. -/
theorem c114_refuse (zero : α) (bits : Int) (s : Bool) (l : List α) (h : bits < l.length) :
    fixedList zero bits s false l = .own := by
  unfold fixedList extend
  simp only [Bool.false_eq_true, if_false]
  rw [if_pos (by omega)]

/-- Negation of "a size that is not possible is refused": with truncation a negative size is undefined behaviour. -/
theorem c114_negative_violated (zero : α) (bits : Int) (s : Bool) (l : List α) (h : bits < 0) (hb : -2147483648 ≤ bits) :
    fixedList zero bits s true l = .ub := by
  unfold fixedList
  have hmin : min ((l.length : Nat) : Int) bits = bits := by omega
  simp only [if_true, hmin]
  rw [(Lst.c66_lastn_violated l bits h hb).1]

/-- As in the documentation, with 5 bits: `fixed_bv2list 5 T '-3` and `fixed_bv2list 5 F '-3`. -/
example : fixedList false 5 true false [true, false, true] = .ok [true, true, true, false, true] ∧
    fixedList false 5 false false [true, false, true] = .ok [false, false, true, false, true] ∧
    fixedList false 2 true true [true, false, true] = .ok [false, true] ∧
    signed [true, false, true] = -3 := by decide

end Voss.Fixed
