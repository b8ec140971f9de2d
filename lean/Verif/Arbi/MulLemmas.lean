import Verif.Arbi.CmpLemmas
import Mathlib.Algebra.BigOperators.Intervals
import Mathlib.Algebra.BigOperators.Ring.Finset
import Mathlib.Algebra.Order.BigOperators.Group.Finset
import Mathlib.Algebra.Order.Ring.Abs
/- Helper lemmas: multiplication. -/
namespace Voss.Arbi
open Finset

def Acc4.total (a : Acc4) : Nat := a.p0 + 2^32 * a.p1 + 2^64 * a.p2 + 2^96 * a.p3

theorem mulStep_spec (xx yy : Nat) (hx : xx < 2^64) (hy : yy < 2^64) (a : Acc4)
    (h0 : a.p0 + 3 * 2^32 ≤ 2^64) (h1 : a.p1 + 3 * 2^32 ≤ 2^64)
    (h2 : a.p2 + 3 * 2^32 ≤ 2^64) (h3 : a.p3 + 3 * 2^32 ≤ 2^64) :
    (mulStep xx yy a).total = a.total + xx * yy ∧
    (mulStep xx yy a).p0 ≤ a.p0 + 3 * 2^32 ∧ (mulStep xx yy a).p1 ≤ a.p1 + 3 * 2^32 ∧
    (mulStep xx yy a).p2 ≤ a.p2 + 3 * 2^32 ∧ (mulStep xx yy a).p3 ≤ a.p3 + 3 * 2^32 := by
  have hxe : xx = xx % 2^32 + 2^32 * (xx / 2^32) := by omega
  have hye : yy = yy % 2^32 + 2^32 * (yy / 2^32) := by omega
  have hxl : xx % 2^32 < 2^32 := by omega
  have hyl : yy % 2^32 < 2^32 := by omega
  have hxh : xx / 2^32 < 2^32 := by omega
  have hyh : yy / 2^32 < 2^32 := by omega
  have bound : ∀ a b : Nat, a < 2^32 → b < 2^32 → a * b < 2^64 := by
    intro a b ha hb
    calc a * b ≤ 2^32 * b := Nat.mul_le_mul_right _ ha.le
      _ < 2^32 * 2^32 := Nat.mul_lt_mul_of_pos_left hb (by norm_num)
      _ = 2^64 := by norm_num
  have prod : xx * yy = (xx % 2^32) * (yy % 2^32) + 2^32 * ((xx % 2^32) * (yy / 2^32))
      + 2^32 * ((xx / 2^32) * (yy % 2^32)) + 2^64 * ((xx / 2^32) * (yy / 2^32)) := by
    conv_lhs => rw [hxe, hye]
    ring
  rw [prod]
  unfold mulStep Acc4.total u64
  simp only
  have b1 := bound _ _ hxl hyl
  have b2 := bound _ _ hxl hyh
  have b3 := bound _ _ hxh hyl
  have b4 := bound _ _ hxh hyh
  generalize xx % 2^32 * (yy % 2^32) = A at *
  generalize xx % 2^32 * (yy / 2^32) = B at *
  generalize xx / 2^32 * (yy % 2^32) = C at *
  generalize xx / 2^32 * (yy / 2^32) = D at *
  obtain ⟨p0, p1, p2, p3⟩ := a
  simp only at *
  omega

/-- Digit `i` of a list, zero beyond the end. -/
def dg (x : List W) (i : Nat) : Nat := (x.getD i 0#64).toNat

theorem dg_of_le (x : List W) (i : Nat) (h : x.length ≤ i) : dg x i = 0 := by
  simp [dg, List.getD, List.getElem?_eq_none h]

theorem dg_of_get (x : List W) (i : Nat) (d : W) (h : x[i]? = some d) : dg x i = d.toNat := by
  unfold dg; simp [List.getD, h]

theorem dg_take (x : List W) (n i : Nat) (h : i < n) : dg (x.take n) i = dg x i := by
  unfold dg; simp [List.getD, h]

theorem uval_eq_sum (x : List W) (n : Nat) (h : x.length ≤ n) : uval x = ∑ i ∈ range n, (2^64)^i * dg x i := by
  induction x generalizing n with
  | nil => simp [uval, dg]
  | cons a l ih =>
    cases n with
    | zero => simp at h
    | succ n =>
      rw [Finset.sum_range_succ', uval, ih n (by simpa using h), Finset.mul_sum]
      simp only [pow_zero, one_mul]
      rw [Nat.add_comm]
      congr 1
      apply Finset.sum_congr rfl
      intro i _
      have : dg (a :: l) (i+1) = dg l i := by simp [dg]
      rw [this]; ring

theorem mulCol_spec (ax ay : List W) (i : Nat) : ∀ (n j : Nat) (a : Acc4),
    j + n ≤ ax.length → (∀ t, t < n → j + t ≤ i ∧ i - (j + t) < ay.length) →
    (∀ M, a.p0 ≤ M → a.p1 ≤ M → a.p2 ≤ M → a.p3 ≤ M → M + n * (3 * 2^32) ≤ 2^64 →
    ∃ b, mulCol ax ay i n j a = some b ∧
      b.total = a.total + ∑ t ∈ range n, dg ax (j + t) * dg ay (i - (j + t)) ∧
      b.p0 ≤ a.p0 + n * (3 * 2^32) ∧ b.p1 ≤ a.p1 + n * (3 * 2^32) ∧
      b.p2 ≤ a.p2 + n * (3 * 2^32) ∧ b.p3 ≤ a.p3 + n * (3 * 2^32)) := by
  intro n
  induction n with
  | zero => intro j a _ _ M _ _ _ _ _; exact ⟨a, rfl, by simp, by simp, by simp, by simp, by simp⟩
  | succ n ih =>
    intro j a hj ht M h0 h1 h2 h3 hM
    have ht0 := ht 0 (by omega)
    obtain ⟨xx, hxx⟩ : ∃ xx, ax[j]? = some xx := ⟨ax[j]'(by omega), by simp⟩
    obtain ⟨yy, hyy⟩ : ∃ yy, ay[i-j]? = some yy := ⟨ay[i-j]'(by omega), by simp⟩
    rw [mulCol, hxx, hyy]
    simp only
    have hs := mulStep_spec xx.toNat yy.toNat xx.isLt yy.isLt a (by omega) (by omega) (by omega) (by omega)
    obtain ⟨b, e1, e2, e3⟩ := ih (j+1) (mulStep xx.toNat yy.toNat a) (by omega)
      (fun t h => by have := ht (t+1) (by omega); omega)
      (M + 3 * 2^32) (by omega) (by omega) (by omega) (by omega) (by omega)
    refine ⟨b, e1, ?_, by omega, by omega, by omega, by omega⟩
    rw [e2, hs.1, Finset.sum_range_succ']
    have : ∑ t ∈ range n, dg ax (j + 1 + t) * dg ay (i - (j + 1 + t))
        = ∑ t ∈ range n, dg ax (j + (t + 1)) * dg ay (i - (j + (t + 1))) := by
      apply Finset.sum_congr rfl
      intro t _
      rw [show j + 1 + t = j + (t + 1) by omega]
    rw [this, Nat.add_zero, dg_of_get _ _ _ hxx, dg_of_get _ _ _ hyy]
    omega

/-- Column sum of the schoolbook product of two arrays. -/
def col (X Y : List W) (i : Nat) : Nat := ∑ j ∈ range (i+1), dg X j * dg Y (i - j)

theorem col_code (ax ay : List W) (lx ly : Nat)
    (hlx : 0 < lx) (hly : 0 < ly) (i : Nat) :
    ∑ t ∈ range ((if i < lx then i else lx-1) + 1 - (i - (if i < ly then i else ly-1))),
      dg ax ((i - (if i < ly then i else ly-1)) + t) * dg ay (i - ((i - (if i < ly then i else ly-1)) + t))
    = col (ax.take lx) (ay.take ly) i := by
  unfold col
  set jm := (if i < lx then i else lx-1) with hjm
  set km := (if i < ly then i else ly-1) with hkm
  rw [← Finset.sum_Ico_eq_sum_range (fun j => dg ax j * dg ay (i - j))]
  have hj : jm < lx ∧ jm ≤ i := by rw [hjm]; split <;> omega
  have hk : km < ly ∧ km ≤ i := by rw [hkm]; split <;> omega
  have e : ∀ j ∈ Ico (i - km) (jm + 1), dg ax j * dg ay (i - j) = dg (ax.take lx) j * dg (ay.take ly) (i - j) := by
    intro j hh
    simp only [mem_Ico] at hh
    rw [dg_take _ _ _ (by omega), dg_take _ _ _ (by omega)]
  rw [Finset.sum_congr rfl e]
  apply Finset.sum_subset
  · intro j hh; simp only [mem_Ico, mem_range] at hh ⊢; omega
  · intro j h1 h2
    simp only [mem_Ico, mem_range, not_and] at h1 h2
    by_cases hjl : j < lx
    · have : j < i - km := by
        by_contra hc
        have := h2 (by omega)
        rw [hjm] at this
        split at this <;> omega
      have : ly ≤ i - j := by
        rw [hkm] at this
        split at this <;> omega
      rw [dg_of_le (ay.take ly) _ (by simp; omega), Nat.mul_zero]
    · rw [dg_of_le (ax.take lx) _ (by simp; omega), Nat.zero_mul]

theorem sum_col (X Y : List W) (n : Nat) (h : n = X.length + Y.length) :
    ∑ i ∈ range n, (2^64)^i * col X Y i = uval X * uval Y := by
  have h1 : ∀ i ∈ range n, (2^64)^i * col X Y i
      = ∑ j ∈ range (i+1), ((2^64)^j * dg X j) * ((2^64)^(i-j) * dg Y (i-j)) := by
    intro i _
    unfold col
    rw [Finset.mul_sum]
    apply Finset.sum_congr rfl
    intro j hj
    simp only [mem_range] at hj
    have : (2^64 : Nat)^i = (2^64)^j * (2^64)^(i-j) := by rw [← pow_add]; congr 1; omega
    rw [this]; ring
  rw [Finset.sum_congr rfl h1]
  rw [Finset.sum_range_diag_flip n (fun j k => ((2^64)^j * dg X j) * ((2^64)^k * dg Y k))]
  have h2 : ∀ m ∈ range n, ∑ k ∈ range (n - m), ((2^64)^m * dg X m) * ((2^64)^k * dg Y k)
      = (2^64)^m * dg X m * uval Y := by
    intro m hm
    rw [← Finset.mul_sum]
    by_cases hmx : m < X.length
    · rw [← uval_eq_sum Y (n - m) (by omega)]
    · rw [dg_of_le X m (by omega)]; simp
  rw [Finset.sum_congr rfl h2, ← Finset.sum_mul, ← uval_eq_sum X n (by omega)]

theorem merge_toNat (a b : Nat) :
    (BitVec.ofNat 64 (a % 2^32) ||| (BitVec.ofNat 64 b <<< 32)).toNat = a % 2^32 + 2^32 * (b % 2^32) := by
  rw [BitVec.toNat_or, BitVec.toNat_shiftLeft, BitVec.toNat_ofNat, BitVec.toNat_ofNat, Nat.shiftLeft_eq]
  have e1 : a % 2^32 % 2^64 = a % 2^32 := by omega
  have e2 : b % 2^64 * 2^32 % 2^64 = 2^32 * (b % 2^32) := by omega
  rw [e1, e2, Nat.or_comm]
  have := Nat.two_pow_add_eq_or_of_lt (show a % 2^32 < 2^32 by omega) (b % 2^32)
  rw [← this]; omega

theorem mulLoop_spec (ax ay : List W) (lx ly : Nat) (hx : lx ≤ ax.length) (hy : ly ≤ ay.length)
    (hlx : 0 < lx) (hly : 0 < ly) (hN : lx ≤ 2^29) :
    ∀ (n i p0 p1 : Nat), i + n ≤ lx + ly →
      p0 ≤ lx * (3 * 2^32) + 2^32 → p1 ≤ lx * (3 * 2^32) + 2^32 →
      ∃ ds c, mulLoop ax ay lx ly n i p0 p1 = some ds ∧ ds.length = n ∧
        uval ds + (2^64)^n * c = p0 + 2^32 * p1 +
          ∑ t ∈ range n, (2^64)^t * col (ax.take lx) (ay.take ly) (i + t) := by
  intro n
  induction n with
  | zero => intro i p0 p1 _ _ _; exact ⟨[], p0 + 2^32 * p1, rfl, rfl, by simp [uval]⟩
  | succ n ih =>
    intro i p0 p1 hi h0 h1
    rw [mulLoop]
    have hcc := col_code ax ay lx ly hlx hly i
    simp only
    generalize hjm : (if i < lx then i else lx-1) = jm at *
    generalize hkm : (if i < ly then i else ly-1) = km at *
    have hj : jm < lx ∧ jm ≤ i := by rw [← hjm]; split <;> omega
    have hk : km < ly ∧ km ≤ i := by rw [← hkm]; split <;> omega
    have hjk : i - km ≤ jm + 1 := by
      rw [← hjm, ← hkm]; split <;> split <;> omega
    have hn : (jm + 1 - (i - km)) * (3 * 2^32) ≤ lx * (3 * 2^32) := Nat.mul_le_mul_right _ (by omega)
    obtain ⟨M, hM⟩ : ∃ M, M = lx * (3 * 2^32) + 2^32 := ⟨_, rfl⟩
    obtain ⟨b, e1, e2, e3⟩ := mulCol_spec ax ay i (jm + 1 - (i - km)) (i - km) ⟨p0, p1, 0, 0⟩
      (by omega) (by intro t ht; omega) M (hM ▸ h0) (hM ▸ h1) (Nat.zero_le _) (Nat.zero_le _) (by omega)
    rw [e1]
    simp only at e3 ⊢
    rw [hcc] at e2
    have hu1 : u64 (b.p1 + b.p0 / 2^32) = b.p1 + b.p0 / 2^32 := by unfold u64; omega
    have hu2 : u64 (b.p2 + (b.p1 + b.p0 / 2^32) / 2^32) = b.p2 + (b.p1 + b.p0 / 2^32) / 2^32 := by
      unfold u64; omega
    rw [hu1, hu2]
    obtain ⟨ds, c, f1, f2, f3⟩ := ih (i+1) (b.p2 + (b.p1 + b.p0 / 2^32) / 2^32) b.p3 (by omega)
      (by omega) (by omega)
    rw [f1]
    simp only
    refine ⟨_, c, rfl, by simp [f2], ?_⟩
    rw [uval, merge_toNat, Finset.sum_range_succ']
    have e4 : ∑ t ∈ range n, (2^64)^(t+1) * col (ax.take lx) (ay.take ly) (i + (t+1))
        = 2^64 * ∑ t ∈ range n, (2^64)^t * col (ax.take lx) (ay.take ly) (i + 1 + t) := by
      rw [Finset.mul_sum]
      apply Finset.sum_congr rfl
      intro t _
      rw [show i + 1 + t = i + (t+1) by omega]; ring
    rw [e4]
    simp only [pow_zero, one_mul, Nat.add_zero]
    generalize ∑ t ∈ range n, (2^64)^t * col (ax.take lx) (ay.take ly) (i + 1 + t) = S at *
    generalize col (ax.take lx) (ay.take ly) i = K at *
    unfold Acc4.total at e2
    simp only at e2
    have e5 : (2^64)^(n+1) * c = 2^64 * ((2^64)^n * c) := by ring
    rw [e5]
    generalize (2^64)^n * c = Z at *
    omega

/-- The digits used by the product loop are those of the absolute value. -/
theorem abs_digits (x : List W) (hx : Norm x) :
    x.length ≤ (if cmp0 x < 0 then neg x else x).length ∧
    (uval ((if cmp0 x < 0 then neg x else x).take x.length) : Int) = |val x| := by
  have hc := cmp0_spec x hx
  have hne := hx.ne_nil
  have lx : 1 ≤ x.length := List.length_pos_iff.mpr hne
  by_cases hv : val x < 0
  · have h1 : cmp0 x < 0 := by rw [hc]; simp [icmp, hv]
    rw [if_pos h1]
    obtain ⟨n1, n2⟩ := neg_spec x hne
    have hb := val_bounds (neg x) n2.ne_nil
    have hl : x.length ≤ (neg x).length := by
      by_contra hcon
      have hlow := norm_abs_lower x hx (by have := List.length_pos_iff.mpr n2.ne_nil; omega)
      have hp := pow_le_pow_int (show 64 * (neg x).length - 1 ≤ 64 * (x.length - 1) - 1 by omega)
      have hpos : (0:Int) < 2^(64 * (x.length - 1) - 1) := by positivity
      omega
    refine ⟨hl, ?_⟩
    have hsplit := List.take_append_drop x.length (neg x)
    have hu : uval (neg x) = uval ((neg x).take x.length) + 2^(64 * x.length) * uval ((neg x).drop x.length) := by
      conv_lhs => rw [← hsplit]
      rw [uval_append, List.length_take, Nat.min_eq_left hl]
    have hval := val_eq_uval (neg x) n2.ne_nil
    have hpos : ¬ (top (neg x)).msb = true := by
      rw [← val_neg_iff _ n2.ne_nil]; omega
    rw [if_neg hpos, n1] at hval
    have hbx := val_bounds x hne
    have hp2 : (2:Int)^(64 * x.length) = 2 * 2^(64 * x.length - 1) := by
      rw [← pow_succ']; congr 1; omega
    have hut := uval_lt ((neg x).take x.length)
    rw [List.length_take, Nat.min_eq_left hl] at hut
    have hz : uval ((neg x).drop x.length) = 0 := by
      by_contra hcon
      have h5 : 2^(64 * x.length) * 1 ≤ 2^(64 * x.length) * uval ((neg x).drop x.length) :=
        Nat.mul_le_mul_left _ (by omega)
      have h6 : (2:Int)^(64 * x.length) ≤ (uval (neg x) : Int) := by
        rw [hu]; push_cast
        have : (2:Int)^(64 * x.length) * 1 ≤ 2^(64 * x.length) * (uval ((neg x).drop x.length) : Int) := by
          exact_mod_cast h5
        have : (0:Int) ≤ uval ((neg x).take x.length) := by positivity
        linarith
      have : (0:Int) < 2^(64 * x.length - 1) := by positivity
      omega
    rw [hz, Nat.mul_zero, Nat.add_zero] at hu
    rw [← hu, abs_of_neg hv]; omega
  · have h1 : ¬ cmp0 x < 0 := by
      rw [hc]; unfold icmp; rw [if_neg hv]; split <;> omega
    rw [if_neg h1]
    refine ⟨le_refl _, ?_⟩
    rw [List.take_length]
    have hval := val_eq_uval x hne
    have hpos : ¬ (top x).msb = true := by rw [← val_neg_iff _ hne]; omega
    rw [if_neg hpos] at hval
    rw [abs_of_nonneg (by omega)]; omega

theorem abs_bound (x : List W) (hx : Norm x) : |val x| ≤ 2^(64 * x.length - 1) := by
  have := val_bounds x hx.ne_nil
  rw [abs_le]; omega

theorem cmp0_neg_iff (x : List W) (hx : Norm x) : cmp0 x < 0 ↔ val x < 0 := by
  rw [cmp0_spec x hx]; unfold icmp
  split
  · simp [*]
  · split <;> simp [*]

theorem mulSlow_spec (x y : List W) (hx : Norm x) (hy : Norm y) (hl : x.length ≤ 2^29) :
    ∃ p, mulSlow x y = .ok p ∧ val p = val x * val y ∧ Norm p := by
  obtain ⟨ax1, ax2⟩ := abs_digits x hx
  obtain ⟨ay1, ay2⟩ := abs_digits y hy
  have lx : 1 ≤ x.length := List.length_pos_iff.mpr hx.ne_nil
  have ly : 1 ≤ y.length := List.length_pos_iff.mpr hy.ne_nil
  unfold mulSlow
  simp only
  generalize hax : (if cmp0 x < 0 then neg x else x) = ax at *
  generalize hay : (if cmp0 y < 0 then neg y else y) = ay at *
  obtain ⟨ap, c, e1, e2, e3⟩ := mulLoop_spec ax ay x.length y.length ax1 ay1 (by omega) (by omega) hl
    (x.length + y.length) 0 0 0 (by omega) (by omega) (by omega)
  rw [e1]
  simp only
  have e4 := sum_col (ax.take x.length) (ay.take y.length) (x.length + y.length) (by simp; omega)
  simp only [Nat.zero_add, Nat.mul_zero] at e3
  rw [e4] at e3
  have hprod : (uval (ax.take x.length) * uval (ay.take y.length) : Int) = |val x * val y| := by
    rw [ax2, ay2, abs_mul]
  have hbnd : |val x * val y| < 2^(64 * (x.length + y.length) - 1) := by
    have b1 := abs_bound x hx
    have b2 := abs_bound y hy
    rw [abs_mul]
    calc |val x| * |val y| ≤ 2^(64 * x.length - 1) * 2^(64 * y.length - 1) := by
          apply mul_le_mul b1 b2 (abs_nonneg _) (by positivity)
      _ = 2^(64 * (x.length + y.length) - 2) := by rw [← pow_add]; congr 1; omega
      _ < 2^(64 * (x.length + y.length) - 1) := by
          apply pow_lt_pow_right₀ (by norm_num) (by omega)
  have hapne : ap ≠ [] := by intro h; rw [h] at e2; simp at e2; omega
  have hp2 : (2:Int)^(64 * (x.length + y.length)) = 2 * 2^(64 * (x.length + y.length) - 1) := by
    rw [← pow_succ']; congr 1; omega
  have hc0 : c = 0 := by
    by_contra hcon
    have h5 : (2^64)^(x.length + y.length) * 1 ≤ (2^64)^(x.length + y.length) * c :=
      Nat.mul_le_mul_left _ (by omega)
    have h6 : (2^64)^(x.length + y.length) ≤ uval (ax.take x.length) * uval (ay.take y.length) := by omega
    rw [← pow_mul] at h6
    have h7 : (2:Int)^(64 * (x.length + y.length)) ≤ (uval (ax.take x.length) * uval (ay.take y.length) : Int) := by
      exact_mod_cast h6
    rw [hprod] at h7
    have : (0:Int) < 2^(64 * (x.length + y.length) - 1) := by positivity
    omega
  rw [hc0, Nat.mul_zero, Nat.add_zero] at e3
  have hu : (uval ap : Int) = |val x * val y| := by
    rw [← hprod, e3]; push_cast; rfl
  have hvap : val ap = |val x * val y| := by
    have hval := val_eq_uval ap hapne
    have hb := val_bounds ap hapne
    rw [e2] at hval hb
    split at hval
    · omega
    · omega
  have hsx := cmp0_neg_iff x hx
  have hsy := cmp0_neg_iff y hy
  refine ⟨_, rfl, ?_, ?_⟩
  · rw [trim_val]
    split
    · rename_i h
      rw [(neg_spec ap hapne).1, hvap]
      rw [ne_eq, hsx, hsy, eq_iff_iff] at h
      have : val x * val y ≤ 0 := by
        by_cases h1 : val x < 0
        · have : ¬ val y < 0 := by tauto
          exact mul_nonpos_of_nonpos_of_nonneg (by omega) (by omega)
        · have : val y < 0 := by tauto
          exact mul_nonpos_of_nonneg_of_nonpos (by omega) (by omega)
      rw [abs_of_nonpos this]; ring
    · rename_i h
      rw [hvap]
      rw [ne_eq, hsx, hsy, eq_iff_iff, not_not] at h
      apply abs_of_nonneg
      by_cases h1 : val x < 0
      · exact mul_nonneg_of_nonpos_of_nonpos (by omega) (by have := h.mp h1; omega)
      · have : ¬ val y < 0 := by tauto
        exact mul_nonneg (by omega) (by omega)
  · apply trim_norm
    split
    · exact (neg_spec ap hapne).2.ne_nil
    · exact hapne

theorem toInt_zero_iff (w : W) : w = 0#64 ↔ w.toInt = 0 := by
  constructor
  · rintro rfl; decide
  · intro h; exact BitVec.eq_of_toInt_eq (by rw [h]; decide)

theorem toInt_bounds (w : W) : -2^63 ≤ w.toInt ∧ w.toInt < 2^63 := by
  rcases toInt_cases w with ⟨a, b, c⟩ | ⟨a, b, c⟩ <;> omega

/-- Signed 64-bit division agrees with truncating integer division unless it overflows. -/
theorem sdiv_toInt (a b : W) (h : ¬ (a = minWord ∧ b = -1#64)) : (a.sdiv b).toInt = a.toInt.tdiv b.toInt := by
  rw [BitVec.toInt_sdiv_of_ne_or_ne]
  by_cases h1 : a = minWord
  · right; intro h2; exact h ⟨h1, h2⟩
  · left; intro h2; apply h1; rw [h2]; decide

theorem mul_spec (x y : List W) (hx : Norm x) (hy : Norm y) (hl : x.length ≤ 2^29)
    (htrap : ¬ (x = [-1#64] ∧ y = [minWord])) :
    ∃ p, mul x y = .ok p ∧ val p = val x * val y ∧ Norm p := by
  unfold mul
  split
  · rename_i wx wy
    have hslow := mulSlow_spec [wx] [wy] hx hy hl
    split
    · rename_i h; subst h
      exact ⟨_, rfl, by simp [fromWord], norm_single _⟩
    · split
      · rename_i h; subst h
        exact ⟨_, rfl, by simp [fromWord], norm_single _⟩
      · rename_i h1 h2
        simp only
        have hx0 : wx.toInt ≠ 0 := mt (toInt_zero_iff wx).mpr h1
        have hno : ¬ (wx * wy = minWord ∧ wx = -1#64) := by
          rintro ⟨ha, rfl⟩
          apply htrap
          refine ⟨rfl, ?_⟩
          have : wy = minWord := by
            have h3 : -1#64 * wy = -wy := by rw [BitVec.neg_mul]; simp
            rw [h3] at ha
            have := congrArg (fun z => -z) ha
            simp only [BitVec.neg_neg] at this
            rw [this]; decide
          rw [this]
        have hd1 : cdiv (wx * wy) wx = .ok ((wx*wy).sdiv wx) := by
          unfold cdiv; rw [if_neg h1, if_neg hno]
        rw [hd1]
        simp only [Res.bind]
        split
        · rename_i hq
          have hq' : wy.toInt = (wx*wy).toInt.tdiv wx.toInt := by
            rw [← sdiv_toInt _ _ hno, ← hq]
          -- the product did not overflow
          have hexact : (wx * wy).toInt = wx.toInt * wy.toInt := by
            have hdm := Int.mul_tdiv_add_tmod (wx*wy).toInt wx.toInt
            rw [← hq'] at hdm
            have hlt : ((wx*wy).toInt.tmod wx.toInt).natAbs < wx.toInt.natAbs := by
              rw [Int.natAbs_tmod]
              exact Nat.mod_lt _ (by omega)
            have hcong : ∃ k : Int, (wx*wy).toInt = wx.toInt * wy.toInt + 2^64 * k := by
              rw [BitVec.toInt_mul]
              refine ⟨((wx.toInt * wy.toInt).bmod (2^64) - wx.toInt * wy.toInt) / 2^64, ?_⟩
              have : ((2:Int)^64) ∣ (wx.toInt * wy.toInt).bmod (2^64) - wx.toInt * wy.toInt := by
                apply Int.dvd_of_emod_eq_zero
                rw [← Int.emod_eq_emod_iff_emod_sub_eq_zero]
                exact_mod_cast Int.bmod_emod
              rw [Int.mul_ediv_cancel' this]; ring
            obtain ⟨k, hk⟩ := hcong
            have hb := toInt_bounds wx
            have : k = 0 := by omega
            rw [hk, this]; ring
          have hno2 : ¬ (wx * wy = minWord ∧ wy = -1#64) := by
            rintro ⟨ha, rfl⟩
            rw [ha] at hexact
            have e1 : minWord.toInt = -2^63 := by decide
            have e2 : (-1#64).toInt = -1 := by decide
            rw [e1, e2] at hexact
            have := toInt_bounds wx
            omega
          have hd2 : cdiv (wx * wy) wy = .ok ((wx*wy).sdiv wy) := by
            unfold cdiv; rw [if_neg h2, if_neg hno2]
          rw [hd2]
          simp only
          split
          · exact ⟨_, rfl, by simpa [fromWord] using hexact, norm_single _⟩
          · exact hslow
        · exact hslow
  · exact mulSlow_spec x y hx hy hl

end Voss.Arbi
