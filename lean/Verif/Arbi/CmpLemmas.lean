import Verif.Arbi.AddLemmas
/- Helper lemmas: comparison and bitwise operations. -/
namespace Voss.Arbi

/-- -1, 0 or 1 according to the order of two integers. -/
def icmp (a b : Int) : Int := if a < b then -1 else if a > b then 1 else 0

theorem icmp_mul_add (P u v : Int) (a b : Int) (hu : 0 ≤ u ∧ u < P) (hv : 0 ≤ v ∧ v < P) :
    icmp (u + P * a) (v + P * b) = if a < b then -1 else if a > b then 1 else icmp u v := by
  have hP : 0 < P := by omega
  rcases lt_trichotomy a b with h | h | h
  · have : P * (a + 1) ≤ P * b := Int.mul_le_mul_of_nonneg_left (by omega) hP.le
    have : u + P * a < v + P * b := by nlinarith
    simp [icmp, h, this]
  · subst h; simp [icmp]
  · have : P * (b + 1) ≤ P * a := Int.mul_le_mul_of_nonneg_left (by omega) hP.le
    have h1 : v + P * b < u + P * a := by nlinarith
    have h2 : ¬ u + P * a < v + P * b := by omega
    have h3 : ¬ a < b := by omega
    simp [icmp, h, h1, h2, h3]

theorem cmpDigits_spec (l1 : List W) : ∀ l2, l1.length = l2.length →
    cmpDigits l1 l2 = icmp (uval l1.reverse) (uval l2.reverse) := by
  induction l1 with
  | nil => intro l2 h; cases l2 <;> simp at h; simp [cmpDigits, icmp]
  | cons a as ih =>
    intro l2 h
    cases l2 with
    | nil => simp at h
    | cons b bs =>
      simp only [List.length_cons, Nat.add_right_cancel_iff] at h
      rw [cmpDigits, ih bs h, List.reverse_cons, List.reverse_cons, uval_append, uval_append]
      simp only [uval, Nat.mul_zero, Nat.add_zero, List.length_reverse]
      push_cast
      rw [h]
      have h1 := uval_lt as.reverse
      have h2 := uval_lt bs.reverse
      simp only [List.length_reverse] at h1 h2
      rw [h] at h1
      rw [icmp_mul_add _ _ _ _ _ ⟨by positivity, by exact_mod_cast h1⟩ ⟨by positivity, by exact_mod_cast h2⟩]
      simp only [Nat.cast_lt, gt_iff_lt]

theorem pow_le_pow_int {a b : Nat} (h : a ≤ b) : (2:Int)^a ≤ 2^b := by
  exact_mod_cast Nat.pow_le_pow_right (by decide) h

theorem cmp_spec (x y : List W) (hx : Norm x) (hy : Norm y) : cmp x y = icmp (val x) (val y) := by
  have lx : 1 ≤ x.length := List.length_pos_iff.mpr hx.ne_nil
  have ly : 1 ≤ y.length := List.length_pos_iff.mpr hy.ne_nil
  have bx := val_bounds x hx.ne_nil
  have bY := val_bounds y hy.ne_nil
  have sx := val_neg_iff x hx.ne_nil
  have sy := val_neg_iff y hy.ne_nil
  unfold cmp isNeg
  split
  · rename_i h
    have := norm_abs_lower x hx (by omega)
    have hp := pow_le_pow_int (show 64 * y.length - 1 ≤ 64 * (x.length - 1) - 1 by omega)
    have hpos : (0:Int) < 2^(64 * (x.length - 1) - 1) := by positivity
    split
    · rename_i hm
      have := sx.mpr hm
      have : val x < val y := by omega
      simp [icmp, this]
    · rename_i hm
      have := mt sx.mp hm
      have h1 : val y < val x := by omega
      have h2 : ¬ val x < val y := by omega
      simp [icmp, h1, h2]
  · split
    · rename_i h
      have := norm_abs_lower y hy (by omega)
      have hp := pow_le_pow_int (show 64 * x.length - 1 ≤ 64 * (y.length - 1) - 1 by omega)
      have hpos : (0:Int) < 2^(64 * (y.length - 1) - 1) := by positivity
      split
      · rename_i hm
        have := sy.mpr hm
        have h1 : val y < val x := by omega
        have h2 : ¬ val x < val y := by omega
        simp [icmp, h1, h2]
      · rename_i hm
        have := mt sy.mp hm
        have : val x < val y := by omega
        simp [icmp, this]
    · have hl : x.length = y.length := by omega
      obtain ⟨l, d, rfl⟩ : ∃ l d, x = l ++ [d] := ⟨x.dropLast, x.getLast hx.1, (List.dropLast_concat_getLast hx.1).symm⟩
      obtain ⟨m, e, rfl⟩ : ∃ l d, y = l ++ [d] := ⟨y.dropLast, y.getLast hy.1, (List.dropLast_concat_getLast hy.1).symm⟩
      simp only [List.length_append, List.length_singleton, Nat.add_right_cancel_iff] at hl
      rw [top_append, top_append, val_append, val_append]
      simp only [List.reverse_append, List.reverse_singleton, List.singleton_append, List.tail_cons]
      rw [cmpDigits_spec _ _ (by simpa using hl), List.reverse_reverse, List.reverse_reverse, hl]
      have h1 := uval_lt l
      have h2 := uval_lt m
      rw [hl] at h1
      rw [icmp_mul_add _ _ _ _ _ ⟨by positivity, by exact_mod_cast h1⟩ ⟨by positivity, by exact_mod_cast h2⟩]

theorem cmp0_spec (x : List W) (hx : Norm x) : cmp0 x = icmp (val x) 0 := by
  have sx := val_neg_iff x hx.ne_nil
  unfold cmp0 isNeg
  split
  · rename_i h
    obtain ⟨a, ha⟩ := List.length_eq_one_iff.mp h.2
    subst ha
    rw [top_single] at h
    rw [h.1]; decide
  · rename_i h
    split
    · rename_i hm
      have := sx.mpr hm
      simp [icmp, this]
    · rename_i hm
      have h1 := mt sx.mp hm
      have : val x ≠ 0 := by
        intro hv
        by_cases h2 : 2 ≤ x.length
        · have := norm_abs_lower x hx h2
          have hpos : (0:Int) < 2^(64 * (x.length - 1) - 1) := by positivity
          omega
        · have lx : 1 ≤ x.length := List.length_pos_iff.mpr hx.ne_nil
          have hl : x.length = 1 := by omega
          obtain ⟨a, ha⟩ := List.length_eq_one_iff.mp hl
          subst ha
          apply h
          refine ⟨?_, rfl⟩
          rw [top_single]
          rw [val_single] at hv
          exact BitVec.eq_of_toInt_eq (by rw [hv]; decide)
      have h2 : 0 < val x := by omega
      simp [icmp, h1, h2]

theorem cmpa_spec (x y : List W) (hx : Norm x) (hy : Norm y) : cmpa x y = icmp |val x| |val y| := by
  unfold cmpa
  have h1 := abs_spec x hx
  have h2 := abs_spec y hy
  rw [cmp_spec _ _ h1.2 h2.2, h1.1, h2.1]

/-- Canonical arrays with the same value are the same array. -/
theorem norm_ext (x y : List W) (hx : Norm x) (hy : Norm y) (h : val x = val y) : x = y := by
  have hl : x.length = y.length := by
    rcases lt_trichotomy x.length y.length with h1 | h1 | h1
    · exfalso
      have c1 := norm_abs_lower y hy (by have := List.length_pos_iff.mpr hx.ne_nil; omega)
      have hp := pow_le_pow_int (show 64 * x.length - 1 ≤ 64 * (y.length - 1) - 1 by omega)
      have := val_bounds x hx.ne_nil
      omega
    · exact h1
    · exfalso
      have c1 := norm_abs_lower x hx (by have := List.length_pos_iff.mpr hy.ne_nil; omega)
      have hp := pow_le_pow_int (show 64 * y.length - 1 ≤ 64 * (x.length - 1) - 1 by omega)
      have := val_bounds y hy.ne_nil
      omega
  have key : ∀ (x y : List W), x.length = y.length → val x = val y → x = y := by
    intro x
    induction x with
    | nil => intro y hl _; exact (List.length_eq_zero_iff.mp hl.symm).symm
    | cons a as ih =>
      intro y hl hv
      cases y with
      | nil => simp at hl
      | cons b bs =>
        simp only [List.length_cons, Nat.add_right_cancel_iff] at hl
        cases as with
        | nil =>
          have : bs = [] := List.length_eq_zero_iff.mp hl.symm
          subst this
          simp only [val_single] at hv
          rw [BitVec.eq_of_toInt_eq hv]
        | cons c cs =>
          have hb : bs ≠ [] := by rintro rfl; simp at hl
          rw [val_cons _ _ (by simp), val_cons _ _ hb] at hv
          have h1 := a.isLt
          have h2 := b.isLt
          have h3 : a.toNat = b.toNat ∧ val (c :: cs) = val bs := by omega
          rw [BitVec.eq_of_toNat_eq h3.1, ih bs hl h3.2]
  exact key x y hl h

/-! ### bits -/

theorem ibit_add_mul (a : Nat) (ha : a < 2^64) (v : Int) (i : Nat) :
    ibit ((a:Int) + 2^64 * v) i = if i < 64 then a.testBit i else ibit v (i - 64) := by
  unfold ibit
  split
  · rename_i h
    obtain ⟨k, hk⟩ : ∃ k, 64 = i + 1 + k := ⟨63 - i, by omega⟩
    have e : (2:Int)^64 = 2^i * (2 * 2^k) := by
      rw [show (64:Nat) = i + (1 + k) by omega, pow_add, pow_add]; ring
    rw [e, mul_assoc, Int.add_mul_ediv_left _ _ (by positivity)]
    rw [mul_assoc, Int.add_mul_emod_self_left]
    rw [Nat.testBit_eq_decide_div_mod_eq]
    have : ((a:Int) / 2^i % 2) = ((a / 2^i % 2 : Nat) : Int) := by push_cast; rfl
    rw [this]
    by_cases hh : a / 2^i % 2 = 1 <;> simp [hh]
    omega
  · rename_i h
    obtain ⟨k, rfl⟩ : ∃ k, i = 64 + k := ⟨i - 64, by omega⟩
    rw [pow_add, ← Int.ediv_ediv_of_nonneg (by positivity), Int.add_mul_ediv_left _ _ (by positivity)]
    have : (a:Int) / 2^64 = 0 := Int.ediv_eq_zero_of_lt (by positivity) (by exact_mod_cast ha)
    rw [this, Int.zero_add]; simp

theorem ibit_zero (i : Nat) : ibit 0 i = false := by simp [ibit]

theorem ibit_neg_one (i : Nat) : ibit (-1) i = true := by
  unfold ibit
  have : (-1 : Int) / 2^i = -1 := by
    rw [Int.neg_ediv]
    by_cases h : i = 0
    · subst h; decide
    · have h2 : (1:Int) < 2^i := by exact_mod_cast Nat.one_lt_two_pow h
      have : (1:Int) / 2^i = 0 := Int.ediv_eq_zero_of_lt (by omega) h2
      have h3 : ¬ ((2:Int)^i ∣ 1) := by
        intro hd
        have := Int.le_of_dvd (by decide) hd
        omega
      rw [this, if_neg h3, Int.sign_eq_one_of_pos (by positivity)]; rfl
  rw [this]; decide

theorem ibit_val_cons (d : W) (ds : List W) (i : Nat) :
    ibit (val (d :: ds)) i = if i < 64 then d.getLsbD i else ibit (valE ds d) (i - 64) := by
  rw [val_cons']
  have : (if ds = [] then (if d.msb then (-1:Int) else 0) else val ds) = valE ds d := by
    unfold valE; by_cases h : ds = [] <;> simp [h]
  rw [this, ibit_add_mul _ d.isLt]
  rfl

theorem ibit_valE_nil (w : W) (i : Nat) : ibit (valE [] w) i = w.msb := by
  unfold valE
  simp only [if_true]
  rcases h : w.msb <;> simp [ibit_zero, ibit_neg_one]

theorem ibit_valE (ys : List W) (wy : W) (i : Nat) :
    ibit (valE ys wy) i = if i < 64 then (nextDigit ys wy).getLsbD i
      else ibit (valE ys.tail (nextDigit ys wy)) (i - 64) := by
  rw [valE_step, ibit_add_mul _ (nextDigit ys wy).isLt]
  rfl

/-- `op` acts on each bit position by `f`. -/
def Bitwise (op : W → W → W) (f : Bool → Bool → Bool) : Prop :=
  ∀ a b i, i < 64 → (op a b).getLsbD i = f (a.getLsbD i) (b.getLsbD i)

theorem Bitwise.msb {op f} (h : Bitwise op f) (a b : W) : (op a b).msb = f a.msb b.msb := by
  have := h a b 63 (by decide)
  simpa [BitVec.msb_eq_getLsbD_last] using this

theorem bvLoop_length (op : W → W → W) (s : W) (xs : List W) : ∀ ys, (bvLoop op s xs ys).length = xs.length := by
  induction xs with
  | nil => intro ys; cases ys <;> simp [bvLoop]
  | cons a xs ih => intro ys; cases ys <;> simp [bvLoop, ih]

theorem bvLoop_bits (op : W → W → W) (f : Bool → Bool → Bool) (hop : Bitwise op f) (s : W) (xs : List W) :
    ∀ (ys : List W) (wy : W), xs ≠ [] → ys.length ≤ xs.length →
      (if ys = [] then s = signExt wy else s = signExt (top ys)) →
      ∀ i, ibit (val (bvLoop op s xs ys)) i = f (ibit (val xs) i) (ibit (valE ys wy) i) := by
  induction xs with
  | nil => intro _ _ h; exact absurd rfl h
  | cons a xs ih =>
    intro ys wy _ hl hs i
    have e : bvLoop op s (a :: xs) ys = op a (nextDigit ys wy) :: bvLoop op s xs ys.tail := by
      cases ys with
      | nil => simp only [if_true] at hs; simp [bvLoop, nextDigit, hs]
      | cons b t => simp [bvLoop, nextDigit]
    rw [e, ibit_val_cons, ibit_val_cons, ibit_valE ys wy]
    split
    · rename_i hi; rw [hop _ _ _ hi]
    · have hl2 := tail_ne_nil_len ys xs a hl
      cases hxs : xs with
      | nil =>
        subst hxs
        have ht : ys.tail = [] := List.length_eq_zero_iff.mp (by simpa using hl2)
        rw [ht]
        simp only [bvLoop]
        rw [ibit_valE_nil, ibit_valE_nil, ibit_valE_nil, hop.msb]
      | cons x2 xs2 =>
        rw [← hxs]
        have hne : xs ≠ [] := by rw [hxs]; simp
        have hne2 : bvLoop op s xs ys.tail ≠ [] := by
          intro h
          have := bvLoop_length op s xs ys.tail
          rw [h] at this; exact hne (List.length_eq_zero_iff.mp this.symm)
        have v1 : valE (bvLoop op s xs ys.tail) (op a (nextDigit ys wy)) = val (bvLoop op s xs ys.tail) := by
          simp [valE, hne2]
        have v2 : valE xs a = val xs := by simp [valE, hne]
        rw [v1, v2]
        refine ih ys.tail _ hne hl2 ?_ _
        cases ys with
        | nil =>
          simp only [if_true, List.tail_nil] at hs ⊢
          rw [hs]; simp only [nextDigit]
          unfold signExt isNeg
          rcases wy.msb <;> decide
        | cons b t =>
          simp only [reduceCtorEq, if_false, List.tail_cons] at hs ⊢
          by_cases ht : t = []
          · subst ht; rw [hs]; simp [nextDigit, top_single]
          · simp only [ht, if_false]; rw [hs, top_cons _ _ ht]

theorem bvop_spec (op : W → W → W) (f : Bool → Bool → Bool) (hop : Bitwise op f)
    (hcomm : (∀ a b, f a b = f b a)) (x y : List W) (hx : x ≠ []) (hy : y ≠ []) :
    Norm (bvop op x y) ∧ ∀ i, ibit (val (bvop op x y)) i = f (ibit (val x) i) (ibit (val y) i) := by
  unfold bvop
  split
  · rename_i a b
    refine ⟨norm_single _, ?_⟩
    intro i
    simp only [fromWord]
    rw [ibit_val_cons, ibit_val_cons, ibit_val_cons]
    split
    · rename_i hi; exact hop _ _ _ hi
    · rw [ibit_valE_nil, ibit_valE_nil, ibit_valE_nil, hop.msb]
  · split
    rename_i x' y' h
    split at h
    · rename_i hlt
      obtain ⟨rfl, rfl⟩ := Prod.mk.inj h
      refine ⟨trim_norm _ (by rw [ne_eq, ← List.length_eq_zero_iff, bvLoop_length]; exact mt List.length_eq_zero_iff.mp hy), ?_⟩
      intro i
      rw [trim_val, bvLoop_bits op f hop _ _ _ 0#64 hy (by omega) (by simp [hx])]
      rw [hcomm]; simp [valE, hx]
    · obtain ⟨rfl, rfl⟩ := Prod.mk.inj h
      refine ⟨trim_norm _ (by rw [ne_eq, ← List.length_eq_zero_iff, bvLoop_length]; exact mt List.length_eq_zero_iff.mp hx), ?_⟩
      intro i
      rw [trim_val, bvLoop_bits op f hop _ _ _ 0#64 hx (by omega) (by simp [hy])]
      simp [valE, hy]

theorem bvNot_spec (x : List W) (hx : x ≠ []) :
    Norm (bvNot x) ∧ ∀ i, ibit (val (bvNot x)) i = !ibit (val x) i := by
  have hop : Bitwise (fun a _ => ~~~ a) (fun a _ => !a) := by
    intro a b i hi; simp [hi]
  unfold bvNot bvop
  split
  · rename_i a
    refine ⟨norm_single _, ?_⟩
    intro i
    simp only [fromWord]
    rw [ibit_val_cons, ibit_val_cons]
    split
    · rename_i hi; exact hop a a _ hi
    · rw [ibit_valE_nil, ibit_valE_nil]; exact hop.msb a a
  · simp only [Nat.lt_irrefl, if_false]
    refine ⟨trim_norm _ (by rw [ne_eq, ← List.length_eq_zero_iff, bvLoop_length]; exact mt List.length_eq_zero_iff.mp hx), ?_⟩
    intro i
    rw [trim_val, bvLoop_bits _ _ hop _ _ _ 0#64 hx (by omega) (by simp [hx])]

/-- Integers with the same bits are equal. -/
theorem ibit_ext (a b : Int) (h : ∀ i, ibit a i = ibit b i) : a = b := by
  have step : ∀ n : Nat, a % 2^n = b % 2^n := by
    intro n
    induction n with
    | zero => simp [Int.emod_one]
    | succ n ih =>
      have ea := Int.emod_def a (2^n)
      have eb := Int.emod_def b (2^n)
      have hn := h n
      unfold ibit at hn
      have e1 : a / 2^n % 2 = b / 2^n % 2 := by
        have c1 := Int.emod_two_eq (a / 2^n)
        have c2 := Int.emod_two_eq (b / 2^n)
        rcases c1 with c1 | c1 <;> rcases c2 with c2 | c2 <;> simp [c1, c2] at hn <;> rw [c1, c2]
      have m : ∀ z : Int, z % 2^(n+1) = z % 2^n + 2^n * (z / 2^n % 2) := by
        intro z
        have hp : (0:Int) ≤ 2^n := by positivity
        rw [pow_succ, Int.emod_def, ← Int.ediv_ediv_of_nonneg hp, Int.emod_def z, Int.emod_def (z / 2^n)]
        ring
      rw [m, m, ih, e1]
  by_contra hne
  obtain ⟨n, hn⟩ : ∃ n : Nat, (a - b).natAbs < 2^n := ⟨(a-b).natAbs, Nat.lt_two_pow_self⟩
  have hd : (2^n : Int) ∣ a - b := Int.dvd_of_emod_eq_zero (Int.emod_eq_emod_iff_emod_sub_eq_zero.mp (step n))
  have := Int.natAbs_dvd_natAbs.mpr hd
  rw [Int.natAbs_pow] at this
  have := Nat.le_of_dvd (by omega) this
  simp at this
  omega

end Voss.Arbi
