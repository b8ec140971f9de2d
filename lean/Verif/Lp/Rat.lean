import Mathlib.Algebra.Order.Ring.Rat
import Mathlib.Algebra.Order.Field.Basic
import Mathlib.Data.Rat.Lemmas
import Mathlib.Data.Int.GCD
import Mathlib.Tactic.FieldSimp
import Mathlib.Tactic.Ring
import Mathlib.Tactic.Linarith
import Mathlib.Tactic.Positivity

/-
Model of the rationals of lp.c:1546-1742 (`struct Rational`, lp.h:26-29).
Simplified: integers are `Int` (`Verif/Arbi` has their digits); the division of integers that leave no rest is `/`.
-/
namespace Voss.Lp

structure Frac where
  n : Int
  d : Int
deriving DecidableEq

/-- lp.c:1610-1646 `rat_return`; `none` is the end of the program for the denominator 0. -/
def ratReturn (n d : Int) : Option Frac :=
  if d.sign = 0 then none
  else
    let neg := decide (n.sign ≠ d.sign)
    let g : Int := (Int.gcd |n| |d| : Nat)
    let rn := |n| / g
    some ⟨if neg then -rn else rn, |d| / g⟩

/-- lp.c:1600-1607 `arbi2rat`. -/
def ofArbi (i : Int) : Frac := ⟨i, 1⟩

/-- lp.c:1648-1652 `rat_copy`. -/
def Frac.copy (x : Frac) : Option Frac := ratReturn x.n x.d

/-- lp.c:1654-1664 `rat_neg`. -/
def Frac.neg (x : Frac) : Option Frac := ratReturn (-x.n) x.d

/-- lp.c:1666-1680 `rat_cmp`. -/
def Frac.cmp (x y : Frac) : Ordering := compare (x.n * y.d) (y.n * x.d)

/-- lp.c:1682-1699 `rat_add`. -/
def Frac.add (a b : Frac) : Option Frac := ratReturn (a.d * b.n + b.d * a.n) (a.d * b.d)

/-- lp.c:1701-1710 `rat_sub`. -/
def Frac.sub (a b : Frac) : Option Frac := b.neg.bind a.add

/-- lp.c:1712-1724 `rat_mlt`. -/
def Frac.mlt (a b : Frac) : Option Frac := ratReturn (a.n * b.n) (a.d * b.d)

/-- lp.c:1726-1730 `rat_inverse`. -/
def Frac.inverse (x : Frac) : Option Frac := ratReturn x.d x.n

/-- lp.c:1732-1742 `rat_div`. -/
def Frac.div (x y : Frac) : Option Frac := y.inverse.bind x.mlt

/-! Specification: the rational that a fraction stands for, and lowest terms. -/

def Frac.val (f : Frac) : ℚ := (f.n : ℚ) / f.d

def Frac.Lowest (f : Frac) : Prop := 0 < f.d ∧ Int.gcd f.n f.d = 1

/-- A result that is a fraction in lowest terms for a rational. -/
def Is (o : Option Frac) (q : ℚ) : Prop := ∃ f, o = some f ∧ f.Lowest ∧ f.val = q

theorem ratReturn_is (n d : Int) (hd : d ≠ 0) : Is (ratReturn n d) ((n : ℚ) / d) := by
  unfold ratReturn
  rw [if_neg (by simpa using hd)]
  have hg : 0 < Int.gcd |n| |d| := Int.gcd_pos_of_ne_zero_right _ (by simpa using hd)
  obtain ⟨a, ha⟩ : ((Int.gcd |n| |d| : Nat) : Int) ∣ |n| := Int.gcd_dvd_left ..
  obtain ⟨b, hb⟩ : ((Int.gcd |n| |d| : Nat) : Int) ∣ |d| := Int.gcd_dvd_right ..
  generalize hgg : Int.gcd |n| |d| = g at *
  have hab : Int.gcd a b = 1 := by
    have h1 : g * 1 = g * Int.gcd a b := by
      conv_lhs => rw [mul_one, ← hgg, ha, hb]
      rw [Int.gcd_mul_left]
      simp
    exact (Nat.eq_of_mul_eq_mul_left hg h1).symm
  have g0 : (0 : Int) < (g : Int) := by exact_mod_cast hg
  have hb0 : 0 < b := by
    have : 0 < |d| := abs_pos.2 hd
    rw [hb] at this
    exact (mul_pos_iff_of_pos_left g0).1 this
  have ha0 : 0 ≤ a := by
    have : 0 ≤ |n| := abs_nonneg n
    rw [ha] at this
    exact nonneg_of_mul_nonneg_right this g0
  refine ⟨_, rfl, ?_, ?_⟩
  · rw [ha, hb, Int.mul_ediv_cancel_left _ (ne_of_gt g0), Int.mul_ediv_cancel_left _ (ne_of_gt g0)]
    refine ⟨hb0, ?_⟩
    split
    · rw [Int.neg_gcd]; exact hab
    · exact hab
  · unfold Frac.val
    simp only []
    rw [ha, hb, Int.mul_ediv_cancel_left _ (ne_of_gt g0), Int.mul_ediv_cancel_left _ (ne_of_gt g0)]
    have hbq : (b : ℚ) ≠ 0 := by exact_mod_cast ne_of_gt hb0
    have hdq : (d : ℚ) ≠ 0 := by exact_mod_cast hd
    rw [div_eq_div_iff hbq hdq]
    have key : (if decide (n.sign ≠ d.sign) = true then -a else a) * d = n * b := by
      rcases lt_trichotomy d 0 with h | h | h
      · have hd' : d = -(g * b) := by rw [← hb, abs_of_neg h]; ring
        rcases lt_trichotomy n 0 with h' | h' | h'
        · have hn' : n = -(g * a) := by rw [← ha, abs_of_neg h']; ring
          rw [Int.sign_eq_neg_one_of_neg h, Int.sign_eq_neg_one_of_neg h']
          simp only [ne_eq, not_true_eq_false, decide_false, Bool.false_eq_true, if_false]
          rw [hd', hn']; ring
        · have : a = 0 := by
            rw [h', abs_zero] at ha
            rcases mul_eq_zero.1 ha.symm with e | e
            · omega
            · exact e
          rw [this, h']; simp
        · have hn' : n = g * a := by rw [← ha, abs_of_pos h']
          rw [Int.sign_eq_neg_one_of_neg h, Int.sign_eq_one_of_pos h']
          simp only [ne_eq, show ¬ (1 : Int) = -1 by decide, not_false_eq_true, decide_true, if_true]
          rw [hd', hn']; ring
      · exact absurd h hd
      · have hd' : d = g * b := by rw [← hb, abs_of_pos h]
        rcases lt_trichotomy n 0 with h' | h' | h'
        · have hn' : n = -(g * a) := by rw [← ha, abs_of_neg h']; ring
          rw [Int.sign_eq_one_of_pos h, Int.sign_eq_neg_one_of_neg h']
          simp only [ne_eq, show ¬ (-1 : Int) = 1 by decide, not_false_eq_true, decide_true, if_true]
          rw [hd', hn']; ring
        · have : a = 0 := by
            rw [h', abs_zero] at ha
            rcases mul_eq_zero.1 ha.symm with e | e
            · omega
            · exact e
          rw [this, h']; simp
        · have hn' : n = g * a := by rw [← ha, abs_of_pos h']
          rw [Int.sign_eq_one_of_pos h, Int.sign_eq_one_of_pos h']
          simp only [ne_eq, not_true_eq_false, decide_false, Bool.false_eq_true, if_false]
          rw [hd', hn']; ring
    exact_mod_cast key

theorem Frac.Lowest.dq {f : Frac} (h : f.Lowest) : (f.d : ℚ) ≠ 0 := by exact_mod_cast ne_of_gt h.1

theorem Is.congr {o : Option Frac} {p q : ℚ} (h : Is o p) (e : p = q) : Is o q := e ▸ h

/-- Fractions in lowest terms that stand for the same rational are the same. -/
theorem lowest_unique {f g : Frac} (hf : f.Lowest) (hg : g.Lowest) (h : f.val = g.val) : f = g := by
  unfold Frac.val at h
  rw [div_eq_div_iff hf.dq hg.dq] at h
  have h' : f.n * g.d = g.n * f.d := by exact_mod_cast h
  have d1 : f.d ∣ g.d := by
    have : f.d ∣ f.n * g.d := by rw [h']; exact Dvd.intro_left _ rfl
    exact Int.dvd_of_dvd_mul_right_of_gcd_one this (by rw [Int.gcd_comm]; exact hf.2)
  have d2 : g.d ∣ f.d := by
    have : g.d ∣ g.n * f.d := by rw [← h']; exact Dvd.intro_left _ rfl
    exact Int.dvd_of_dvd_mul_right_of_gcd_one this (by rw [Int.gcd_comm]; exact hg.2)
  have hd : f.d = g.d := Int.dvd_antisymm (le_of_lt hf.1) (le_of_lt hg.1) d1 d2
  have hn : f.n = g.n := by
    rw [hd] at h'
    exact mul_right_cancel₀ (ne_of_gt hg.1) h'
  cases f; cases g
  simp only [] at hd hn
  rw [hd, hn]

theorem add_is {a b : Frac} (ha : a.Lowest) (hb : b.Lowest) : Is (a.add b) (a.val + b.val) := by
  refine (ratReturn_is _ _ (mul_ne_zero (ne_of_gt ha.1) (ne_of_gt hb.1))).congr ?_
  have := ha.dq
  have := hb.dq
  unfold Frac.val
  push_cast
  field_simp
  ring

theorem neg_is {a : Frac} (ha : a.Lowest) : Is a.neg (- a.val) := by
  refine (ratReturn_is _ _ (ne_of_gt ha.1)).congr ?_
  have := ha.dq
  unfold Frac.val
  push_cast
  field_simp

theorem mlt_is {a b : Frac} (ha : a.Lowest) (hb : b.Lowest) : Is (a.mlt b) (a.val * b.val) := by
  refine (ratReturn_is _ _ (mul_ne_zero (ne_of_gt ha.1) (ne_of_gt hb.1))).congr ?_
  have := ha.dq
  have := hb.dq
  unfold Frac.val
  push_cast
  field_simp

theorem val_zero {a : Frac} (ha : a.Lowest) : a.val = 0 ↔ a.n = 0 := by
  unfold Frac.val
  rw [div_eq_zero_iff]
  constructor
  · rintro (h | h)
    · exact_mod_cast h
    · exact absurd h ha.dq
  · intro h; left; exact_mod_cast h

theorem inverse_is {a : Frac} (ha : a.Lowest) (h0 : a.val ≠ 0) : Is a.inverse (a.val)⁻¹ := by
  have hn : a.n ≠ 0 := fun h => h0 ((val_zero ha).2 h)
  refine (ratReturn_is _ _ hn).congr ?_
  unfold Frac.val
  rw [inv_div]

theorem cmp_is {a b : Frac} (ha : a.Lowest) (hb : b.Lowest) : a.cmp b = compare a.val b.val := by
  have h1 : (0 : ℚ) < a.d := by exact_mod_cast ha.1
  have h2 : (0 : ℚ) < b.d := by exact_mod_cast hb.1
  have hlt : a.n * b.d < b.n * a.d ↔ a.val < b.val := by
    unfold Frac.val
    rw [div_lt_div_iff₀ h1 h2]
    exact_mod_cast Iff.rfl
  have heq : a.n * b.d = b.n * a.d ↔ a.val = b.val := by
    unfold Frac.val
    rw [div_eq_div_iff ha.dq hb.dq]
    exact_mod_cast Iff.rfl
  unfold Frac.cmp
  rcases lt_trichotomy a.val b.val with h | h | h
  · rw [compare_lt_iff_lt.2 h, compare_lt_iff_lt.2 (hlt.2 h)]
  · rw [compare_eq_iff_eq.2 h, compare_eq_iff_eq.2 (heq.2 h)]
  · rw [compare_gt_iff_gt.2 h, compare_gt_iff_gt.2]
    rcases lt_trichotomy (a.n * b.d) (b.n * a.d) with g | g | g
    · exact absurd (hlt.1 g) (not_lt.2 (le_of_lt h))
    · exact absurd (heq.1 g) (ne_of_gt h)
    · exact g

end Voss.Lp
