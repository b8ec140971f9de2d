import Verif.Lp.Model
import Mathlib.Algebra.BigOperators.Ring.Finset
import Mathlib.Algebra.Order.BigOperators.Group.Finset
import Mathlib.Tactic.Ring
import Mathlib.Tactic.Linarith
import Mathlib.Tactic.FieldSimp

/-! Linear algebra for the simplex method. -/
namespace Voss.Lp

open Finset

/-- The sum of `f 1`, …, `f n`. -/
def sm (n : Nat) (f : Nat → ℚ) : ℚ := ∑ j ∈ range n, f (j + 1)

theorem sm_add (n : Nat) (f g : Nat → ℚ) : sm n (fun j => f j + g j) = sm n f + sm n g := by
  simp [sm, Finset.sum_add_distrib]

theorem sm_sub (n : Nat) (f g : Nat → ℚ) : sm n (fun j => f j - g j) = sm n f - sm n g := by
  simp [sm, Finset.sum_sub_distrib]

theorem sm_mul (n : Nat) (x : ℚ) (f : Nat → ℚ) : sm n (fun j => x * f j) = x * sm n f := by
  simp [sm, Finset.mul_sum]

theorem sm_congr {n : Nat} {f g : Nat → ℚ} (h : ∀ j, 1 ≤ j → j ≤ n → f j = g j) : sm n f = sm n g := by
  unfold sm
  apply Finset.sum_congr rfl
  intro j hj
  rw [Finset.mem_range] at hj
  exact h _ (by omega) (by omega)

theorem sm_zero {n : Nat} {f : Nat → ℚ} (h : ∀ j, 1 ≤ j → j ≤ n → f j = 0) : sm n f = 0 := by
  rw [sm_congr h]; simp [sm]

theorem sm_split (n m : Nat) (f : Nat → ℚ) : sm (n + m) f = sm n f + sm m (fun j => f (n + j)) := by
  unfold sm
  rw [Finset.sum_range_add]
  rfl

theorem sm_nonneg {n : Nat} {f : Nat → ℚ} (h : ∀ j, 1 ≤ j → j ≤ n → 0 ≤ f j) : 0 ≤ sm n f := by
  unfold sm
  apply Finset.sum_nonneg
  intro j hj
  rw [Finset.mem_range] at hj
  exact h _ (by omega) (by omega)

theorem sm_pick {n : Nat} (f : Nat → ℚ) {k : Nat} (h1 : 1 ≤ k) (h2 : k ≤ n) : sm n (fun j => if k = j then f j else 0) = f k := by
  unfold sm
  rw [Finset.sum_eq_single (k - 1)]
  · beta_reduce
    rw [if_pos (by omega)]; congr 1; omega
  · intro j _ hj
    beta_reduce
    rw [if_neg (by omega)]
  · intro h
    rw [Finset.mem_range] at h
    omega

theorem sm_le {n : Nat} {f : Nat → ℚ} (h : ∀ j, 1 ≤ j → j ≤ n → 0 ≤ f j) {k : Nat} (h1 : 1 ≤ k) (h2 : k ≤ n) : f k ≤ sm n f := by
  have h3 : sm n f = sm n (fun j => if k = j then f j else 0) + sm n (fun j => if k = j then 0 else f j) := by
    rw [← sm_add]
    apply sm_congr
    intro j _ _
    by_cases hk : k = j <;> simp [hk]
  rw [h3, sm_pick f h1 h2]
  have : 0 ≤ sm n (fun j => if k = j then 0 else f j) := by
    apply sm_nonneg
    intro j a b
    split
    · exact le_refl _
    · exact h j a b
  linarith

theorem sm_swap (n m : Nat) (f : Nat → Nat → ℚ) : sm n (fun j => sm m (fun i => f i j)) = sm m (fun i => sm n (fun j => f i j)) := by
  unfold sm
  exact Finset.sum_comm

abbrev Mat := Nat → Nat → ℚ

/-- The matrix after a pivot. -/
def piv (A : Mat) (i j : Nat) : Mat := fun r c => if r = i then A i c / A i j else A r c - A r j * (A i c / A i j)

/-- How far a vector is from a row. -/
def res (n : Nat) (A : Mat) (r : Nat) (v : Nat → ℚ) : ℚ := sm n (fun j => A r j * v j) - A r 0

def Sol (m n : Nat) (A : Mat) (v : Nat → ℚ) : Prop := ∀ i, 1 ≤ i → i ≤ m → res n A i v = 0

theorem res_piv_self (n : Nat) (A : Mat) (i j : Nat) (v : Nat → ℚ) : res n (piv A i j) i v = res n A i v / A i j := by
  unfold res piv
  simp only [if_true]
  rw [sm_congr (g := fun c => (A i j)⁻¹ * (A i c * v c)) (by intro c _ _; rw [div_eq_mul_inv]; ring), sm_mul]
  rw [div_eq_mul_inv, div_eq_mul_inv]; ring

theorem res_piv (n : Nat) (A : Mat) {i r : Nat} (j : Nat) (v : Nat → ℚ) (h : r ≠ i) :
    res n (piv A i j) r v = res n A r v - A r j * (res n A i v / A i j) := by
  unfold res piv
  simp only [if_neg h]
  rw [sm_congr (g := fun c => A r c * v c - (A r j * (A i j)⁻¹) * (A i c * v c)) (by intro c _ _; rw [div_eq_mul_inv]; ring),
    sm_sub, sm_mul]
  rw [div_eq_mul_inv, div_eq_mul_inv]; ring

theorem sol_piv {m n : Nat} {A : Mat} {i j : Nat} (h1 : 1 ≤ i) (h2 : i ≤ m) (hp : A i j ≠ 0) (v : Nat → ℚ) :
    Sol m n (piv A i j) v ↔ Sol m n A v := by
  constructor
  · intro h r r1 r2
    have hi := h i h1 h2
    rw [res_piv_self, div_eq_zero_iff] at hi
    have hi' := hi.resolve_right hp
    by_cases hr : r = i
    · rw [hr]; exact hi'
    · have := h r r1 r2
      rw [res_piv n A j v hr, hi'] at this
      simpa using this
  · intro h r r1 r2
    have hi := h i h1 h2
    by_cases hr : r = i
    · rw [hr, res_piv_self, hi, zero_div]
    · rw [res_piv n A j v hr, hi, h r r1 r2]; simp

theorem obj_piv {m n : Nat} {A : Mat} {i j : Nat} (h1 : 1 ≤ i) (h2 : i ≤ m) {v : Nat → ℚ} (h : Sol m n A v) :
    res n (piv A i j) 0 v = res n A 0 v := by
  rw [res_piv n A j v (by omega), h i h1 h2]; simp

/-- `β` gives each row a unit column. -/
def Canon (m n : Nat) (A : Mat) (β : Nat → Nat) : Prop :=
  ∀ i, 1 ≤ i → i ≤ m → 1 ≤ β i ∧ β i ≤ n ∧ ∀ r, r ≤ m → A r (β i) = if r = i then 1 else 0

theorem canon_piv {m n : Nat} {A : Mat} {β : Nat → Nat} (h : Canon m n A β) {i j : Nat} (i2 : i ≤ m) (j1 : 1 ≤ j)
    (j2 : j ≤ n) (hp : A i j ≠ 0) : Canon m n (piv A i j) (fun k => if k = i then j else β k) := by
  intro k k1 k2
  by_cases hk : k = i
  · subst hk
    simp only [if_true]
    refine ⟨j1, j2, ?_⟩
    intro r hr
    unfold piv
    by_cases hrk : r = k
    · simp [hrk, div_self hp]
    · simp [hrk, div_self hp]
  · obtain ⟨a, b, c⟩ := h k k1 k2
    simp only [if_neg hk]
    refine ⟨a, b, ?_⟩
    intro r hr
    have hz : A i (β k) = 0 := by rw [c i i2, if_neg (fun e => hk e.symm)]
    unfold piv
    by_cases hri : r = i
    · rw [if_pos hri, hz, zero_div, if_neg (by omega)]
    · rw [if_neg hri, hz, c r hr]; simp

theorem nonneg_piv {m : Nat} {A : Mat} (h : ∀ i, 1 ≤ i → i ≤ m → 0 ≤ A i 0) {i j : Nat} (i1 : 1 ≤ i) (i2 : i ≤ m) (hp : 0 < A i j)
    (hr : ∀ r, 1 ≤ r → r ≤ m → 0 < A r j → A i 0 / A i j ≤ A r 0 / A r j) : ∀ r, 1 ≤ r → r ≤ m → 0 ≤ piv A i j r 0 := by
  intro r r1 r2
  have hq : 0 ≤ A i 0 / A i j := div_nonneg (h i i1 i2) (le_of_lt hp)
  unfold piv
  by_cases hri : r = i
  · rw [if_pos hri]; exact hq
  · rw [if_neg hri]
    by_cases hpos : 0 < A r j
    · have h1 := hr r r1 r2 hpos
      have h2 : A r j * (A i 0 / A i j) ≤ A r j * (A r 0 / A r j) := mul_le_mul_of_nonneg_left h1 (le_of_lt hpos)
      have h3 : A r j * (A r 0 / A r j) = A r 0 := by field_simp
      linarith
    · have h1 : A r j * (A i 0 / A i j) ≤ 0 := mul_nonpos_of_nonpos_of_nonneg (not_lt.mp hpos) hq
      have := h r r1 r2
      linarith

/-- A vector with given values in the basic columns. -/
def spread (m : Nat) (β : Nat → Nat) (w : Nat → ℚ) : Nat → ℚ := fun j => sm m (fun i => if β i = j then w i else 0)

theorem sm_spread {m n : Nat} {β : Nat → Nat} (hβ : ∀ i, 1 ≤ i → i ≤ m → 1 ≤ β i ∧ β i ≤ n) (f w : Nat → ℚ) :
    sm n (fun j => f j * spread m β w j) = sm m (fun i => f (β i) * w i) := by
  unfold spread
  rw [sm_congr (g := fun j => sm m (fun i => if β i = j then f j * w i else 0))
    (by
      intro j _ _
      rw [← sm_mul]
      apply sm_congr
      intro i _ _
      by_cases hb : β i = j <;> simp [hb]),
    sm_swap]
  apply sm_congr
  intro i i1 i2
  exact sm_pick (fun j => f j * w i) (hβ i i1 i2).1 (hβ i i1 i2).2

theorem spread_nonneg {m : Nat} {β : Nat → Nat} {w : Nat → ℚ} (h : ∀ i, 1 ≤ i → i ≤ m → 0 ≤ w i) (j : Nat) :
    0 ≤ spread m β w j := by
  apply sm_nonneg
  intro i a b
  split
  · exact h i a b
  · exact le_refl _

/-- The value of a basic column. -/
theorem spread_basic {m n : Nat} {A : Mat} {β : Nat → Nat} (h : Canon m n A β) (w : Nat → ℚ) {k : Nat} (k1 : 1 ≤ k) (k2 : k ≤ m) :
    spread m β w (β k) = w k := by
  unfold spread
  rw [sm_congr (g := fun i => if k = i then w i else 0), sm_pick w k1 k2]
  intro i i1 i2
  by_cases hk : k = i
  · subst hk; simp
  · rw [if_neg hk, if_neg]
    intro hb
    have a := (h k k1 k2).2.2 k k2
    have b := (h i i1 i2).2.2 k k2
    rw [hb] at b
    rw [a] at b
    simp [hk] at b

theorem spread_off {m : Nat} {β : Nat → Nat} {w : Nat → ℚ} {j : Nat} (h : ∀ i, 1 ≤ i → i ≤ m → β i ≠ j) : spread m β w j = 0 := by
  apply sm_zero
  intro i a b
  rw [if_neg (h i a b)]

/-- The basic solution. -/
def bv (m : Nat) (A : Mat) (β : Nat → Nat) : Nat → ℚ := spread m β (fun i => A i 0)

theorem sm_canon {m n : Nat} {A : Mat} {β : Nat → Nat} (h : Canon m n A β) (w : Nat → ℚ) {r : Nat} (hr : r ≤ m) :
    sm n (fun j => A r j * spread m β w j) = if r = 0 then 0 else w r := by
  rw [sm_spread (fun i a b => ⟨(h i a b).1, (h i a b).2.1⟩)]
  rw [sm_congr (g := fun i => if r = i then w i else 0)
    (by
      intro i a b
      rw [(h i a b).2.2 r hr]
      by_cases e : r = i <;> simp [e])]
  by_cases h0 : r = 0
  · rw [if_pos h0]
    apply sm_zero
    intro j a _
    rw [if_neg (by omega)]
  · rw [if_neg h0, sm_pick w (by omega) hr]

theorem sol_bv {m n : Nat} {A : Mat} {β : Nat → Nat} (h : Canon m n A β) : Sol m n A (bv m A β) := by
  intro i a b
  unfold res bv
  rw [sm_canon h _ b, if_neg (by omega)]; simp

theorem obj_bv {m n : Nat} {A : Mat} {β : Nat → Nat} (h : Canon m n A β) : res n A 0 (bv m A β) = -A 0 0 := by
  unfold res bv
  rw [sm_canon h _ (Nat.zero_le _), if_pos rfl]; simp

/-- The basic solution moved along a column. -/
def ray (m : Nat) (A : Mat) (β : Nat → Nat) (jj : Nat) (x : ℚ) : Nat → ℚ :=
  fun j => bv m A β j + x * ((if jj = j then 1 else 0) - spread m β (fun i => A i jj) j)

theorem res_ray {m n : Nat} {A : Mat} {β : Nat → Nat} {jj : Nat} (j1 : 1 ≤ jj) (j2 : jj ≤ n) (x : ℚ) (r : Nat) :
    res n A r (ray m A β jj x) = res n A r (bv m A β) +
      x * (A r jj - sm n (fun j => A r j * spread m β (fun i => A i jj) j)) := by
  unfold res ray
  rw [sm_congr (g := fun j => A r j * bv m A β j + x * ((if jj = j then A r j else 0) - A r j * spread m β (fun i => A i jj) j))
    (by intro j _ _; by_cases e : jj = j <;> simp [e] <;> ring),
    sm_add, sm_mul, sm_sub, sm_pick (fun j => A r j) j1 j2]
  ring

theorem sol_ray {m n : Nat} {A : Mat} {β : Nat → Nat} (h : Canon m n A β) {jj : Nat} (j1 : 1 ≤ jj) (j2 : jj ≤ n) (x : ℚ) :
    Sol m n A (ray m A β jj x) := by
  intro i a b
  rw [res_ray j1 j2, sol_bv h i a b, sm_canon h _ b, if_neg (by omega)]; simp

theorem obj_ray {m n : Nat} {A : Mat} {β : Nat → Nat} (h : Canon m n A β) {jj : Nat} (j1 : 1 ≤ jj) (j2 : jj ≤ n) (x : ℚ) :
    res n A 0 (ray m A β jj x) = -A 0 0 + x * A 0 jj := by
  rw [res_ray j1 j2, obj_bv h, sm_canon h _ (Nat.zero_le _), if_pos rfl]; simp

theorem ray_nonneg {m : Nat} {A : Mat} {β : Nat → Nat} (hb : ∀ i, 1 ≤ i → i ≤ m → 0 ≤ A i 0) {jj : Nat}
    (hj : ∀ i, 1 ≤ i → i ≤ m → A i jj ≤ 0) {x : ℚ} (hx : 0 ≤ x) (j : Nat) : 0 ≤ ray m A β jj x j := by
  unfold ray
  have h1 : 0 ≤ bv m A β j := spread_nonneg hb j
  have h2 : 0 ≤ spread m β (fun i => -A i jj) j := spread_nonneg (by intro i a b; have := hj i a b; linarith) j
  have h3 : spread m β (fun i => -A i jj) j = - spread m β (fun i => A i jj) j := by
    unfold spread
    rw [neg_eq_neg_one_mul, ← sm_mul]
    apply sm_congr
    intro i _ _
    split <;> simp
  rw [h3] at h2
  have h4 : 0 ≤ x * ((if jj = j then (1 : ℚ) else 0) - spread m β (fun i => A i jj) j) := by
    apply mul_nonneg hx
    split <;> linarith
  linarith

end Voss.Lp
