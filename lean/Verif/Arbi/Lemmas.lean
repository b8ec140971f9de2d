import Verif.Arbi.Spec
import Mathlib.Tactic.Ring
import Mathlib.Tactic.Linarith
/- Helper lemmas: words, trim, addition, negation, comparison. -/
namespace Voss.Arbi

theorem toInt_cases (w : W) :
    (w.msb = true ∧ w.toInt = (w.toNat : Int) - 2^64 ∧ 2^63 ≤ w.toNat ∧ w.toNat < 2^64) ∨
    (w.msb = false ∧ w.toInt = (w.toNat : Int) ∧ w.toNat < 2^63) := by
  have h := w.isLt
  rw [BitVec.toInt_eq_msb_cond]
  rcases hb : w.msb with _ | _
  · right
    have := BitVec.msb_eq_false_iff_two_mul_lt.mp hb
    refine ⟨rfl, by simp, by omega⟩
  · left
    have := BitVec.msb_eq_true_iff_two_mul_ge.mp hb
    refine ⟨rfl, by simp, by omega, by omega⟩

theorem val_cons (d : W) (ds : List W) (h : ds ≠ []) :
    val (d :: ds) = (d.toNat : Int) + 2^64 * val ds := by
  cases ds with
  | nil => exact absurd rfl h
  | cons a l => rfl

@[simp] theorem val_single (d : W) : val [d] = d.toInt := rfl

theorem val_cons' (d : W) (ds : List W) :
    val (d :: ds) = (d.toNat : Int) + 2^64 * (if ds = [] then (if d.msb then -1 else 0) else val ds) := by
  cases ds with
  | nil =>
    simp only [val_single, if_true]
    rcases toInt_cases d with ⟨a, b, c⟩ | ⟨a, b, c⟩ <;> rw [a, b] <;> simp <;> omega
  | cons a l => rfl

theorem signExt_toInt (w : W) : (signExt w).toInt = if w.msb then -1 else 0 := by
  unfold signExt isNeg; split <;> decide

theorem signExt_msb (w : W) : (signExt w).msb = w.msb := by
  unfold signExt isNeg; rcases w.msb with _ | _ <;> decide

/-! ### top -/

theorem top_append (x : List W) (d : W) : top (x ++ [d]) = d := by
  simp [top]

theorem top_cons (d : W) (ds : List W) (h : ds ≠ []) : top (d :: ds) = top ds := by
  cases ds with
  | nil => exact absurd rfl h
  | cons a l => simp [top]

theorem top_single (d : W) : top [d] = d := rfl

/-- Value in terms of the leading digit. -/
theorem val_append (x : List W) (d : W) : val (x ++ [d]) = (uval x : Int) + 2^(64 * x.length) * d.toInt := by
  induction x with
  | nil => simp [uval]
  | cons a l ih =>
    have : l ++ [d] ≠ [] := by simp
    rw [List.cons_append, val_cons _ _ this, ih, uval]
    push_cast
    rw [List.length_cons, Nat.mul_add, pow_add]
    ring

theorem uval_lt (x : List W) : uval x < 2^(64 * x.length) := by
  induction x with
  | nil => simp [uval]
  | cons a l ih =>
    have := a.isLt
    rw [uval, List.length_cons, Nat.mul_add, pow_add]
    have h1 : uval l + 1 ≤ 2^(64*l.length) := ih
    have := Nat.mul_le_mul_left (2^64) h1
    rw [Nat.mul_comm (2^(64*l.length))]
    omega

theorem uval_append (x y : List W) : uval (x ++ y) = uval x + 2^(64 * x.length) * uval y := by
  induction x with
  | nil => simp [uval]
  | cons a l ih =>
    rw [List.cons_append, uval, ih, uval, List.length_cons, show 64 * (l.length + 1) = 64 * l.length + 64 by ring, pow_add]
    ring

theorem val_eq_uval (x : List W) (h : x ≠ []) :
    val x = (uval x : Int) - (if (top x).msb then 2^(64 * x.length) else 0) := by
  obtain ⟨l, d, rfl⟩ : ∃ l d, x = l ++ [d] := ⟨x.dropLast, x.getLast h, (List.dropLast_concat_getLast h).symm⟩
  rw [val_append, uval_append, top_append]
  simp only [uval, List.length_append, List.length_singleton, Nat.mul_add, pow_add]
  rcases toInt_cases d with ⟨a, b, c⟩ | ⟨a, b, c⟩ <;> rw [a, b] <;> push_cast <;> simp <;> ring

/-- The sign of the value is the sign of the top digit. -/
theorem val_neg_iff (x : List W) (h : x ≠ []) : val x < 0 ↔ (top x).msb = true := by
  rw [val_eq_uval x h]
  have := uval_lt x
  have h2 : (uval x : Int) < 2^(64*x.length) := by exact_mod_cast this
  split
  · rename_i hh; simp only [hh, iff_true]; omega
  · rename_i hh; simp only [hh]; constructor
    · intro; omega
    · intro hc; exact absurd hc (by simp)

theorem val_bounds (x : List W) (h : x ≠ []) :
    -(2^(64 * x.length - 1) : Int) ≤ val x ∧ val x < 2^(64 * x.length - 1) := by
  obtain ⟨l, d, rfl⟩ : ∃ l d, x = l ++ [d] := ⟨x.dropLast, x.getLast h, (List.dropLast_concat_getLast h).symm⟩
  rw [val_append]
  have h1 := uval_lt l
  have h2 : (uval l : Int) + 1 ≤ 2^(64*l.length) := by exact_mod_cast h1
  have h3 : (0:Int) ≤ uval l := by positivity
  have e : 64 * (l ++ [d]).length - 1 = 64 * l.length + 63 := by simp; omega
  rw [e, pow_add]
  have hp : (0:Int) < 2^(64*l.length) := by positivity
  have hd : -(2^63 : Int) ≤ d.toInt ∧ d.toInt + 1 ≤ 2^63 := by
    rcases toInt_cases d with ⟨a, b, c⟩ | ⟨a, b, c⟩ <;> omega
  generalize (2:Int)^(64*l.length) = P at *
  constructor
  · have := Int.mul_le_mul_of_nonneg_left hd.1 hp.le
    linarith
  · have := Int.mul_le_mul_of_nonneg_left hd.2 hp.le
    linarith

/-! ### trim -/

theorem redundant_iff (lo hi : W) :
    redundant lo hi = true ↔ (lo.toInt < 0 ∧ hi = -1#64) ∨ (0 ≤ lo.toInt ∧ hi = 0#64) := by
  unfold redundant isNeg
  rcases toInt_cases lo with ⟨a, b, c⟩ | ⟨a, b, c⟩
  · have : lo.toInt < 0 := by omega
    have h2 : ¬ 0 ≤ lo.toInt := by omega
    simp [a, this, h2]
  · have : ¬ lo.toInt < 0 := by omega
    have h2 : 0 ≤ lo.toInt := by omega
    simp [a, this, h2]

theorem norm_iff_rev (x : List W) :
    Norm x ↔ x ≠ [] ∧ ∀ hi lo rest, x.reverse = hi :: lo :: rest → redundant lo hi = false := by
  constructor
  · rintro ⟨h1, h2⟩
    refine ⟨h1, ?_⟩
    intro hi lo rest h
    have hx : x = rest.reverse ++ [lo, hi] := by
      have := congrArg List.reverse h
      simpa using this
    have := h2 _ _ _ hx
    rw [← redundant_iff] at this
    simpa using this
  · rintro ⟨h1, h2⟩
    refine ⟨h1, ?_⟩
    intro init lo hi h
    rw [← redundant_iff]
    have := h2 hi lo init.reverse (by rw [h]; simp)
    simp [this]

theorem trimRev_ne_nil (l : List W) (h : l ≠ []) : trimRev l ≠ [] := by
  fun_induction trimRev l <;> simp_all

theorem trimRev_norm (l : List W) :
    ∀ hi lo rest, trimRev l = hi :: lo :: rest → redundant lo hi = false := by
  fun_induction trimRev l with
  | case1 hi lo rest hr ih => exact ih
  | case2 hi lo rest hr =>
    intro a b c h
    simp only [List.cons.injEq] at h
    obtain ⟨rfl, rfl, _⟩ := h
    simpa using hr
  | case3 l hne =>
    intro a b c h
    exact absurd h (hne a b c)

theorem val_drop_redundant (init : List W) (lo hi : W) (h : redundant lo hi = true) :
    val (init ++ [lo, hi]) = val (init ++ [lo]) := by
  have e : init ++ [lo, hi] = (init ++ [lo]) ++ [hi] := by simp
  rw [e, val_append, val_append, uval_append]
  simp only [uval, List.length_append, List.length_singleton, Nat.mul_add, pow_add]
  rw [redundant_iff] at h
  push_cast
  rcases h with ⟨h1, rfl⟩ | ⟨h1, rfl⟩
  · rcases toInt_cases lo with ⟨a, b, c⟩ | ⟨a, b, c⟩
    · rw [b]; have : (-1#64).toInt = -1 := by decide
      rw [this]; ring
    · omega
  · rcases toInt_cases lo with ⟨a, b, c⟩ | ⟨a, b, c⟩
    · omega
    · rw [b]; simp

theorem trimRev_val (l : List W) : val (trimRev l).reverse = val l.reverse := by
  fun_induction trimRev l with
  | case1 hi lo rest hr ih =>
    rw [ih]
    have := val_drop_redundant rest.reverse lo hi hr
    simpa using this.symm
  | case2 hi lo rest hr => rfl
  | case3 l hne => rfl

theorem trim_val (x : List W) : val (trim x) = val x := by
  unfold trim; rw [trimRev_val, List.reverse_reverse]

theorem trim_norm (x : List W) (h : x ≠ []) : Norm (trim x) := by
  rw [norm_iff_rev]
  unfold trim
  refine ⟨by simpa using trimRev_ne_nil _ (by simpa using h), ?_⟩
  rw [List.reverse_reverse]
  exact trimRev_norm _

theorem trimRev_of_norm (l : List W) (h : ∀ hi lo rest, l = hi :: lo :: rest → redundant lo hi = false) :
    trimRev l = l := by
  match l with
  | [] => rfl
  | [a] => rfl
  | a :: b :: c => rw [trimRev]; simp [h a b c rfl]

theorem trim_of_norm (x : List W) (h : Norm x) : trim x = x := by
  unfold trim
  rw [trimRev_of_norm _ ((norm_iff_rev x).mp h).2, List.reverse_reverse]

theorem norm_single (w : W) : Norm [w] := by
  refine ⟨by simp, ?_⟩
  intro init lo hi h
  have := congrArg List.length h
  simp at this

theorem trim_length_le (x : List W) : (trim x).length ≤ x.length := by
  have : ∀ l : List W, (trimRev l).length ≤ l.length := by
    intro l
    fun_induction trimRev l with
    | case1 hi lo rest hr ih => simp only [List.length_cons] at *; omega
    | case2 => simp
    | case3 => simp
  unfold trim; simpa using this x.reverse

/-! ### Canonical arrays are determined by their value -/

/-- Magnitude of a canonical array with more than one digit. -/
theorem norm_abs_lower (x : List W) (h : Norm x) (hl : 2 ≤ x.length) :
    val x < -(2^(64 * (x.length - 1) - 1) : Int) ∨ (2^(64 * (x.length - 1) - 1) : Int) ≤ val x := by
  obtain ⟨hne, h⟩ := h
  obtain ⟨l, hi, rfl⟩ : ∃ l d, x = l ++ [d] := ⟨x.dropLast, x.getLast hne, (List.dropLast_concat_getLast hne).symm⟩
  have hl1 : l ≠ [] := by rintro rfl; simp at hl
  obtain ⟨i, lo, rfl⟩ : ∃ i d, l = i ++ [d] := ⟨l.dropLast, l.getLast hl1, (List.dropLast_concat_getLast hl1).symm⟩
  have hh := h i lo hi (by simp)
  rw [val_append, uval_append]
  have h1 := uval_lt i
  have h2 : (uval i : Int) + 1 ≤ 2^(64*i.length) := by exact_mod_cast h1
  have h3 : (0:Int) ≤ uval i := by positivity
  have e : 64 * ((i ++ [lo] ++ [hi]).length - 1) - 1 = 64 * i.length + 63 := by simp; omega
  rw [e]
  simp only [uval, List.length_append, List.length_singleton, Nat.mul_add, pow_add]
  push_cast
  have hp : (0:Int) < 2^(64*i.length) := by positivity
  generalize (2:Int)^(64*i.length) = P at *
  have hlo : (0:Int) ≤ lo.toNat ∧ (lo.toNat:Int) + 1 ≤ 2^64 := by have := lo.isLt; omega
  by_cases hneg : hi.toInt < 0
  · left
    by_cases hm1 : hi = -1#64
    · subst hm1
      have : (-1#64).toInt = -1 := by decide
      rw [this]
      have hlo0 : 0 ≤ lo.toInt := by
        by_contra hc; exact hh (Or.inl ⟨by omega, rfl⟩)
      have hlo2 : (lo.toNat : Int) + 1 ≤ 2^63 := by
        rcases toInt_cases lo with ⟨a, b, c⟩ | ⟨a, b, c⟩ <;> omega
      have := Int.mul_le_mul_of_nonneg_left hlo2 hp.le
      nlinarith
    · have hle : hi.toInt ≤ -2 := by
        by_contra hc
        have : hi.toInt = (-1#64).toInt := by rw [show (-1#64).toInt = -1 by decide]; omega
        exact hm1 (BitVec.eq_of_toInt_eq this)
      have a1 := Int.mul_le_mul_of_nonneg_left hlo.2 hp.le
      have a2 := Int.mul_le_mul_of_nonneg_left hle (show (0:Int) ≤ P * 2^64 by positivity)
      nlinarith
  · right
    by_cases h0 : hi = 0#64
    · subst h0
      have hlo0 : lo.toInt < 0 := by
        by_contra hc; exact hh (Or.inr ⟨by omega, rfl⟩)
      have hlo2 : 2^63 ≤ (lo.toNat : Int) := by
        rcases toInt_cases lo with ⟨a, b, c⟩ | ⟨a, b, c⟩ <;> omega
      have := Int.mul_le_mul_of_nonneg_left hlo2 hp.le
      simp
      nlinarith
    · have hge : 1 ≤ hi.toInt := by
        by_contra hc
        have : hi.toInt = (0#64).toInt := by rw [show (0#64).toInt = 0 by decide]; omega
        exact h0 (BitVec.eq_of_toInt_eq this)
      have a1 := Int.mul_le_mul_of_nonneg_left hlo.1 hp.le
      have a2 := Int.mul_le_mul_of_nonneg_left hge (show (0:Int) ≤ P * 2^64 by positivity)
      nlinarith

end Voss.Arbi
