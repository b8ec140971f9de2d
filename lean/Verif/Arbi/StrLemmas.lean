import Verif.Arbi.GcdLemmas
import Mathlib.Data.Nat.Digits.Lemmas
/- Helper lemmas for printing and parsing. -/
namespace Voss.Arbi

def dchar (d : Nat) : Char := digitTable.getD d '?'

theorem i2c_eq : ∀ d < 36, i2c d = dchar d := by decide

/-- Digits most significant first, nothing for zero. -/
def digs (base n : Nat) : List Char := ((Nat.digits base n).map dchar).reverse

theorem digs_zero (base : Nat) : digs base 0 = [] := by simp [digs]

theorem digs_step (base n : Nat) (hb : 2 ≤ base) (hn : 0 < n) :
    digs base n = digs base (n / base) ++ [dchar (n % base)] := by
  unfold digs
  rw [Nat.digits_def' (by omega) hn]
  simp

theorem emit_true (base : Nat) (hb : 2 ≤ base) (hb2 : base ≤ 36) (q : Nat) (hq : 0 < q) :
    ∀ (m w : Nat) (acc : List Char), w < base^m →
      digs base q ++ emit base true m w acc = digs base (w + base^m * q) ++ acc := by
  intro m
  induction m with
  | zero => intro w acc hw; simp at hw; subst hw; simp [emit]
  | succ m ih =>
    intro w acc hw
    have hn : 0 < w + base^(m+1) * q := by positivity
    have e1 : (w + base^(m+1) * q) % base = w % base := by
      rw [pow_succ, mul_comm (base^m), mul_assoc, Nat.add_mul_mod_self_left]
    have e2 : (w + base^(m+1) * q) / base = w / base + base^m * q := by
      rw [pow_succ, mul_comm (base^m), mul_assoc, Nat.add_mul_div_left _ _ (by omega)]
    rw [digs_step base _ hb hn, e1, e2]
    have hlt : w / base < base^m := by
      rw [Nat.div_lt_iff_lt_mul (by omega)]; rwa [pow_succ] at hw
    have hi := ih (w / base) (dchar (w % base) :: acc) hlt
    rw [List.append_assoc, List.singleton_append, ← hi]
    have hd : w % base < 36 := lt_of_lt_of_le (Nat.mod_lt _ (by omega)) hb2
    simp only [emit, Bool.true_or, if_true]
    congr 1
    rw [← i2c_eq _ hd]
    congr 1

theorem emit_false (base : Nat) (hb : 2 ≤ base) (hb2 : base ≤ 36) :
    ∀ (m w : Nat) (acc : List Char), w < base^m →
      emit base false m w acc = digs base w ++ acc := by
  intro m
  induction m with
  | zero => intro w acc hw; simp at hw; subst hw; simp [emit, digs]
  | succ m ih =>
    intro w acc hw
    by_cases h0 : w = 0
    · subst h0; simp [emit, digs]
    have hlt : w / base < base^m := by
      rw [Nat.div_lt_iff_lt_mul (by omega)]; rwa [pow_succ] at hw
    have hi := ih (w / base) (dchar (w % base) :: acc) hlt
    rw [digs_step base w hb (by omega), List.append_assoc, List.singleton_append, ← hi]
    have hd : w % base < 36 := lt_of_lt_of_le (Nat.mod_lt _ (by omega)) hb2
    have : ((w : Int) ≠ 0) := by omega
    simp only [emit, Bool.false_or, decide_eq_true this, if_true]
    rw [← i2c_eq _ hd]
    congr 1

theorem strLoop_spec (base : Nat) (hb : 2 ≤ base) (hb2 : base ≤ 36) (bb : W) (m : Nat)
    (hbb : bb.toInt = (base:Int)^m) (hm : 1 ≤ m) :
    ∀ (n : Nat) (r : List W) (acc : List Char), Norm r → 0 ≤ val r → val r ≤ n →
      ∃ N, ∀ dfuel fuel, N ≤ dfuel → N ≤ fuel →
        strLoop dfuel base (fromWord bb) m fuel r acc = some (.ok (digs base (val r).toNat ++ acc)) := by
  have hbb2 : 2 ≤ bb.toInt := by
    rw [hbb]
    calc (2:Int) = 2^1 := by norm_num
      _ ≤ (base:Int)^1 := by simpa using (by exact_mod_cast hb : (2:Int) ≤ base)
      _ ≤ (base:Int)^m := pow_le_pow_right₀ (by exact_mod_cast (by omega : 1 ≤ base)) hm
  have hvb : val (fromWord bb) = bb.toInt := by simp [fromWord]
  intro n
  induction n with
  | zero =>
    intro r acc hr h0 hn
    have hz : val r = 0 := by omega
    refine ⟨1, fun dfuel fuel _ hf => ?_⟩
    obtain ⟨f, rfl⟩ : ∃ f, fuel = f + 1 := ⟨fuel - 1, by omega⟩
    have : cmp0 r = 0 := by rw [cmp0_spec r hr, hz]; rfl
    simp [strLoop, this, hz, digs_zero]
  | succ n ih =>
    intro r acc hr h0 hn
    by_cases hz : val r = 0
    · refine ⟨1, fun dfuel fuel _ hf => ?_⟩
      obtain ⟨f, rfl⟩ : ∃ f, fuel = f + 1 := ⟨fuel - 1, by omega⟩
      have : cmp0 r = 0 := by rw [cmp0_spec r hr, hz]; rfl
      simp [strLoop, this, hz, digs_zero]
    · have hc : cmp0 r ≠ 0 := by
        rw [cmp0_spec r hr, ne_eq, icmp_eq_zero]; exact hz
      obtain ⟨N, q, w, hdm, hq, hw, f1, f2, _⟩ := divmod_total r (fromWord bb) hr (norm_single _)
        (by rw [hvb, abs_of_nonneg (by omega)]; exact hbb2) (nonneg_ne_min _ (by rw [hvb]; omega))
      rw [hvb] at f1 f2
      have f2 := f2 (by omega)
      have hq0 : 0 ≤ val q := by
        by_contra hcon
        have : val q * bb.toInt ≤ (-1) * bb.toInt := mul_le_mul_of_nonneg_right (by omega) (by omega)
        omega
      have hqlt : val q < val r := by
        by_cases hq00 : val q = 0
        · omega
        · have : val q * 2 ≤ val q * bb.toInt := mul_le_mul_of_nonneg_left hbb2 hq0
          omega
      -- w is one word
      have hwl : w.length = 1 := by
        by_contra hne
        have := List.length_pos_iff.mpr hw.ne_nil
        have hl := norm_abs_lower w hw (by omega)
        have hp := pow_le_pow_int (show 63 ≤ 64 * (w.length - 1) - 1 by omega)
        have := toInt_bounds bb
        omega
      obtain ⟨ww, rfl⟩ := List.length_eq_one_iff.mp hwl
      have hww : val [ww] = ww.toInt := by simp
      rw [hww] at f1 f2
      obtain ⟨N', h'⟩ := ih q (emit base (cmp0 q ≠ 0) m ww.toInt acc) hq hq0 (by omega)
      refine ⟨max N N' + 1, fun dfuel fuel hd hf => ?_⟩
      obtain ⟨f, rfl⟩ : ∃ f, fuel = f + 1 := ⟨fuel - 1, by omega⟩
      unfold strLoop
      rw [if_neg hc, hdm dfuel (by omega)]
      simp only [List.headD_cons]
      rw [h' dfuel f (by omega) (by omega)]
      congr 2
      obtain ⟨wn, hwn⟩ : ∃ wn : Nat, ww.toInt = wn := ⟨ww.toInt.toNat, by omega⟩
      obtain ⟨qn, hqn⟩ : ∃ qn : Nat, val q = qn := ⟨(val q).toNat, by omega⟩
      have hwlt : wn < base^m := by
        have := f2.2; rw [hbb, hwn] at this; exact_mod_cast this
      have hrv : (val r).toNat = wn + base^m * qn := by
        rw [f1, hbb, hwn, hqn]
        have : ((qn:Int) * (base:Int)^m + wn) = ((wn + base^m * qn : Nat) : Int) := by push_cast; ring
        rw [this]; exact Int.toNat_natCast _
      rw [hrv, hwn, hqn]
      simp only [Int.toNat_natCast]
      by_cases hqz : qn = 0
      · have : cmp0 q = 0 := by rw [cmp0_spec q hq, hqn, hqz]; rfl
        simp only [this, ne_eq, not_true_eq_false, decide_false]
        rw [emit_false base hb hb2 m wn acc hwlt, hqz, digs_zero]; simp
      · have : cmp0 q ≠ 0 := by rw [cmp0_spec q hq, ne_eq, icmp_eq_zero, hqn]; omega
        simp only [ne_eq, this, not_false_eq_true, decide_true]
        exact emit_true base hb hb2 qn (by omega) m wn acc hwlt

theorem chunk_ok : ∀ base < 37, 2 ≤ base →
    (chunkLoop (BitVec.ofNat 64 base) 64 (BitVec.ofNat 64 (base*base*base*base)) 4).1.toInt =
      (base:Int)^(chunkLoop (BitVec.ofNat 64 base) 64 (BitVec.ofNat 64 (base*base*base*base)) 4).2 ∧
    1 ≤ (chunkLoop (BitVec.ofNat 64 base) 64 (BitVec.ofNat 64 (base*base*base*base)) 4).2 := by
  decide +kernel

theorem lg_ok : ∀ base < 37, 2 ≤ base →
    4 ≤ lgLoop (base*base*base*base) 32 4 ∧ lgLoop (base*base*base*base) 32 4 ≤ 20 ∧
    2^(lgLoop (base*base*base*base) 32 4) ≤ base^4 := by
  decide +kernel

theorem bitLen_spec (w : Nat) (hw : w < 2^64) : ∀ n m, m + n = 64 → w < 2^(bitLen w n m) ∧ bitLen w n m ≤ 64 := by
  intro n
  induction n with
  | zero => intro m hm; simp at hm; subst hm; exact ⟨by simpa [bitLen] using hw, by simp [bitLen]⟩
  | succ n ih =>
    intro m hm
    unfold bitLen
    split
    · rename_i h
      refine ⟨?_, by omega⟩
      rcases (Nat.div_eq_zero_iff).mp h with h | h
      · have : 0 < 2^m := by positivity
        omega
      · exact h
    · exact ih (m+1) (by omega)

theorem digs_length (base n : Nat) (hb : 2 ≤ base) (hn : 0 < n) :
    base^((digs base n).length - 1) ≤ n := by
  have := Nat.base_pow_length_digits_le' (base - 2) n (by omega)
  have e : base - 2 + 2 = base := by omega
  rw [e] at this
  have hl : (digs base n).length = (Nat.digits base n).length := by simp [digs]
  rw [hl]
  have hpos : 0 < (Nat.digits base n).length := by
    rw [List.length_pos_iff]; exact Nat.digits_ne_nil_iff_ne_zero.mpr (by omega)
  have e2 : base^((Nat.digits base n).length) = base * base^((Nat.digits base n).length - 1) := by
    rw [← pow_succ']; congr 1; omega
  rw [e2] at this
  exact Nat.le_of_mul_le_mul_left this (by omega)

theorem size_ok (base n N : Nat) (hb : 2 ≤ base) (hb2 : base < 37) (hn : 0 < n) (hN : n < 2^N) :
    (digs base n).length ≤ (4 * N + lgLoop (base*base*base*base) 32 4 - 1) / lgLoop (base*base*base*base) 32 4 := by
  obtain ⟨h1, h2, h3⟩ := lg_ok base hb2 hb
  generalize lgLoop (base*base*base*base) 32 4 = L at *
  have hd := digs_length base n hb hn
  generalize (digs base n).length = k at *
  by_contra hcon
  have hk : 1 ≤ k := Nat.pos_of_ne_zero (by rintro rfl; exact hcon (Nat.zero_le _))
  rw [not_le, Nat.div_lt_iff_lt_mul (by omega)] at hcon
  -- 4N ≤ L (k-1)
  have h4 : 4 * N ≤ L * (k - 1) := by
    have : k * L = L * (k - 1) + L := by
      obtain ⟨j, rfl⟩ : ∃ j, k = j + 1 := ⟨k - 1, by omega⟩
      simp; ring
    omega
  have h5 : 2^(4 * N) ≤ (base^(k-1))^4 := by
    calc 2^(4*N) ≤ 2^(L * (k-1)) := Nat.pow_le_pow_right (by omega) h4
      _ = (2^L)^(k-1) := by rw [pow_mul]
      _ ≤ (base^4)^(k-1) := Nat.pow_le_pow_left h3 _
      _ = (base^(k-1))^4 := by rw [← pow_mul, ← pow_mul, mul_comm]
  have h6 : (base^(k-1))^4 < (2^N)^4 := Nat.pow_lt_pow_left (by omega) (by omega)
  have e6 : (2^N)^4 = 2^(4*N) := by rw [← pow_mul, mul_comm]
  rw [e6] at h6
  omega

theorem fmtNat_eq (base n : Nat) (hb : 2 ≤ base) (hb2 : base ≤ 36) : fmtNat base n = numeral base n := by
  unfold fmtNat numeral
  split
  · rfl
  · congr 1
    apply List.map_congr_left
    intro d hd
    exact i2c_eq d (lt_of_lt_of_le (Nat.digits_lt_base (by omega) hd) hb2)

theorem numeral_eq (base n : Nat) (hn : n ≠ 0) : numeral base n = digs base n := by
  unfold numeral digs dchar; rw [if_neg hn]

/-- Which numbers are printed correctly. -/
theorem toString_spec (x : List W) (base : Nat) (hx : Norm x) (hb : 2 ≤ base) (hb2 : base ≤ 36)
    (hlen : x.length < 2^22)
    (h16 : x.length = 1 → base = 16 → 0 ≤ val x)
    (hmin : ¬ (x.length = 1 ∧ base = 10) → top x ≠ minWord) :
    ∃ N, ∀ fuel, N ≤ fuel → toString fuel x base = some (.ok (renderInt base (val x))) := by
  by_cases h10 : x.length = 1 ∧ base = 10
  · refine ⟨0, fun fuel _ => ?_⟩
    unfold toString
    rw [if_pos h10]
    obtain ⟨w, rfl⟩ := List.length_eq_one_iff.mp h10.1
    have : top [w] = w := by simp [top]
    rw [this]
    simp only [fmtDec, renderInt, fmtNat_eq 10 _ (by omega) (by omega), val, h10.2]
  have hmin := hmin h10
  by_cases hh : x.length = 1 ∧ base = 16
  · refine ⟨0, fun fuel _ => ?_⟩
    unfold toString
    rw [if_neg h10, if_pos hh]
    have h16 := h16 hh.1 hh.2
    obtain ⟨w, rfl⟩ := List.length_eq_one_iff.mp hh.1
    have e : top [w] = w := by simp [top]
    have e1 : val [w] = w.toInt := by simp
    rw [e1] at h16
    rw [e, fmtNat_eq 16 _ (by omega) (by omega), e1]
    unfold renderInt
    rw [if_neg (by omega), hh.2]
    rcases toInt_cases w with ⟨a, b, c⟩ | ⟨a, b, c⟩
    · omega
    · have : w.toInt.natAbs = w.toNat := by omega
      rw [this]
  by_cases hz : x.length = 1 ∧ top x = 0#64
  · refine ⟨0, fun fuel _ => ?_⟩
    unfold toString
    rw [if_neg h10, if_neg hh, if_pos hz]
    obtain ⟨w, rfl⟩ := List.length_eq_one_iff.mp hz.1
    have e : top [w] = w := by simp [top]
    rw [e] at hz
    rw [hz.2]
    simp [renderInt, numeral]
  have hx0 : val x ≠ 0 := by
    intro h
    apply hz
    have : x = [0#64] := norm_ext x [0#64] hx (norm_single _) (by rw [h]; simp)
    rw [this]; simp [top]
  have ha := abs_spec x hx
  obtain ⟨hc1, hc2⟩ := chunk_ok base (by omega) hb
  obtain ⟨N, hN⟩ := strLoop_spec base hb hb2 _ _ hc1 hc2 (val x).natAbs (abs x) [] ha.2
    (by rw [ha.1]; exact abs_nonneg _) (by rw [ha.1, Int.abs_eq_natAbs])
  refine ⟨N, fun fuel hf => ?_⟩
  unfold toString
  rw [if_neg h10, if_neg hh, if_neg hz, if_neg (by omega), if_neg hmin]
  have hwl : (wabs (top x)).toNat < 2^64 := (wabs (top x)).isLt
  obtain ⟨hbl, hbl2⟩ := bitLen_spec _ hwl 64 0 rfl
  generalize hwb : bitLen (wabs (top x)).toNat 64 0 = wbits at *
  obtain ⟨hl1, hl2, _⟩ := lg_ok base (by omega) hb
  simp only
  rw [if_neg (by omega)]
  rw [hN fuel fuel hf hf, ha.1]
  simp only [List.append_nil]
  have hnat : |val x|.toNat = (val x).natAbs := by rw [Int.abs_eq_natAbs]; rfl
  rw [hnat]
  -- magnitude bound
  have hmag : (val x).natAbs < 2^(wbits + 64 * (x.length - 1)) := by
    obtain ⟨l, t, rfl⟩ : ∃ l d, x = l ++ [d] := ⟨x.dropLast, x.getLast hx.ne_nil, (List.dropLast_concat_getLast hx.ne_nil).symm⟩
    have e : top (l ++ [t]) = t := by simp [top]
    rw [e] at hbl hmin
    rw [val_append]
    have hu := uval_lt l
    have e3 : (l ++ [t]).length - 1 = l.length := by simp
    rw [e3, pow_add]
    have hwa := wabs_toInt t hmin
    have hwn : ((wabs t).toNat : Int) = |t.toInt| := by
      rcases toInt_cases (wabs t) with ⟨a, b, c⟩ | ⟨a, b, c⟩
      · have := abs_nonneg t.toInt; omega
      · omega
    have hP : (0:Int) < 2^(64 * l.length) := by positivity
    have h1 : (uval l : Int) < 2^(64 * l.length) := by exact_mod_cast hu
    have h0 : (0:Int) ≤ uval l := by positivity
    have h2 : |t.toInt| + 1 ≤ 2^wbits := by rw [← hwn]; exact_mod_cast hbl
    have : (((uval l : Int) + 2^(64 * l.length) * t.toInt).natAbs : Int) < 2^wbits * 2^(64 * l.length) := by
      rw [← Int.abs_eq_natAbs]
      have h3 : 2^(64 * l.length) * (|t.toInt| + 1) ≤ 2^(64 * l.length) * 2^wbits := mul_le_mul_of_nonneg_left h2 hP.le
      have h4 : (2:Int)^wbits * 2^(64 * l.length) = 2^(64 * l.length) * 2^wbits := mul_comm _ _
      rw [h4]
      rcases abs_cases t.toInt with ⟨e1, e2⟩ | ⟨e1, e2⟩ <;> rw [e1] at h3
      · rw [abs_of_nonneg (by positivity)]; nlinarith
      · rw [abs_lt]; constructor <;> nlinarith
    exact_mod_cast this
  have hsz := size_ok base (val x).natAbs _ hb (by omega) (by omega) hmag
  have hneg : isNeg (top x) = true ↔ val x < 0 := by
    rw [val_neg_iff x hx.ne_nil]
  unfold renderInt
  rw [numeral_eq base _ (by omega)]
  by_cases hv : val x < 0
  · simp only [hneg.mpr hv, hv, if_true, List.length_cons]
    rw [if_pos (by omega)]
  · have : isNeg (top x) = false := by rw [← Bool.not_eq_true, hneg]; exact hv
    simp only [this, Bool.false_eq_true, if_false, hv]
    rw [if_pos (by omega)]

theorem readNat_cons_aux (base : Nat) : ∀ (s : List Char), 
    s.foldl (fun acc c => acc.bind fun n => (digitVal c).bind fun d => if d < base then some (n * base + d) else none) none = none := by
  intro s
  induction s with
  | nil => rfl
  | cons c cs ih => simpa using ih

theorem c2i_eq : ∀ n < 128, (digitVal (Char.ofNat n) = some (c2i (Char.ofNat n)) ∧ c2i (Char.ofNat n) < 36) ∨
    (digitVal (Char.ofNat n) = none ∧ c2i (Char.ofNat n) = 1000) := by
  decide +kernel

theorem digitVal_big (c : Char) (h : 128 ≤ c.toNat) : digitVal c = none := by
  have h1 : ∀ d ∈ digitTable, d.toNat < 128 := by decide +kernel
  have h2 : c ∉ digitTable := fun hc => by have := h1 c hc; omega
  have h3 : c.toLower = c := by
    unfold Char.toLower
    split
    · rename_i hh
      exfalso
      have := hh.2
      rw [show (c.val ≤ 'Z'.val) = (c.val.toNat ≤ 90) from rfl] at this
      unfold Char.toNat at h
      omega
    · rfl
  unfold digitVal
  rw [if_neg h2, h3, if_neg h2]

theorem digitVal_c2i (c : Char) (d base : Nat) (hb : base ≤ 36) (h : digitVal c = some d) (hd : d < base) :
    c.toNat < 128 ∧ c2i c = d := by
  have hc : c.toNat < 128 := by
    by_contra hcon
    rw [digitVal_big c (by omega)] at h; cases h
  refine ⟨hc, ?_⟩
  have := c2i_eq c.toNat hc
  rw [Char.ofNat_toNat] at this
  rcases this with ⟨h1, _⟩ | ⟨h1, _⟩ <;> rw [h1] at h
  · exact Option.some.inj h
  · cases h

theorem ofNat_small : ∀ n < 64, (BitVec.ofNat 64 n).toInt = n := by decide

theorem norm_len_of_lt (x : List W) (hx : Norm x) (n : Nat) (h0 : 0 ≤ val x) (h : val x < 2^n) :
    x.length ≤ n / 64 + 2 := by
  by_contra hcon
  have := norm_abs_lower x hx (by omega)
  have hp := pow_le_pow_int (show n ≤ 64 * (x.length - 1) - 1 by omega)
  have hp0 : (0:Int) < 2^n := by positivity
  omega

theorem fromDigits_spec (base : Nat) (hb : 2 ≤ base) (hb2 : base ≤ 36) :
    ∀ (s : List Char) (x : List W) (k n : Nat), Norm x → 0 ≤ val x → val x < 2^(6*k) → k + s.length ≤ 2^29 →
      s.foldl (fun acc c => acc.bind fun n => (digitVal c).bind fun d => if d < base then some (n * base + d) else none)
        (some (val x).toNat) = some n →
      ∃ y, fromDigits base s x = .ok y ∧ val y = n ∧ Norm y := by
  intro s
  induction s with
  | nil =>
    intro x k n hx h0 hk hl h
    simp only [List.foldl_nil, Option.some.injEq] at h
    exact ⟨x, rfl, by omega, hx⟩
  | cons c cs ih =>
    intro x k n hx h0 hk hl h
    simp only [List.foldl_cons, Option.bind_some] at h
    cases hd : digitVal c with
    | none => rw [hd, Option.bind_none, readNat_cons_aux] at h; cases h
    | some d =>
      rw [hd, Option.bind_some] at h
      by_cases hlt : d < base
      · rw [if_pos hlt] at h
        obtain ⟨hc1, hc2⟩ := digitVal_c2i c d base hb2 hd hlt
        simp only [List.length_cons] at hl
        have hxl := norm_len_of_lt x hx _ h0 hk
        have hw : (BitVec.ofNat 64 base).toInt = base := ofNat_small _ (by omega)
        have hwd : (BitVec.ofNat 64 d).toInt = d := ofNat_small _ (by omega)
        obtain ⟨y, hy1, hy2, hy3⟩ := mul_spec x (fromWord (BitVec.ofNat 64 base)) hx (norm_single _)
          (by omega) (by
            rintro ⟨rfl, _⟩
            revert h0; decide)
        have ha := add_spec y (fromWord (BitVec.ofNat 64 d)) hy3.ne_nil (by simp [fromWord])
        have e1 : val (fromWord (BitVec.ofNat 64 base)) = base := by simpa [fromWord] using hw
        have e2 : val (fromWord (BitVec.ofNat 64 d)) = d := by simpa [fromWord] using hwd
        have hv : val (add y (fromWord (BitVec.ofNat 64 d))) = val x * base + d := by
          rw [ha.1, hy2, e1, e2]
        obtain ⟨z, hz1, hz2, hz3⟩ := ih (add y (fromWord (BitVec.ofNat 64 d))) (k+1) n ha.2
          (by rw [hv]; positivity) (by
            rw [hv]
            have e : (2:Int)^(6*(k+1)) = 2^(6*k) * 64 := by
              rw [mul_add, pow_add]; norm_num
            rw [e]
            have : (val x + 1) * base ≤ 2^(6*k) * 64 :=
              mul_le_mul (by omega) (by exact_mod_cast (by omega : base ≤ 64)) (by positivity) (by positivity)
            have hd' : (d:Int) < base := by exact_mod_cast hlt
            linarith [add_mul (val x) 1 (base:Int)])
          (by omega) (by
            rw [hv]
            have : (val x * base + d).toNat = (val x).toNat * base + d := by
              obtain ⟨xn, hxn⟩ : ∃ xn : Nat, val x = xn := ⟨(val x).toNat, by omega⟩
              rw [hxn]
              have : ((xn:Int) * base + d) = ((xn * base + d : Nat) : Int) := by push_cast; ring
              rw [this]; exact Int.toNat_natCast _
            rw [this]; exact h)
        refine ⟨z, ?_, hz2, hz3⟩
        simp only [fromDigits, hc2]
        rw [if_neg (by omega), if_neg (by omega), hy1]
        exact hz1
      · rw [if_neg hlt, readNat_cons_aux] at h; cases h

theorem fromString_spec (base : Nat) (hb : 2 ≤ base) (hb2 : base ≤ 36) (s : List Char) (n : Nat)
    (hl : s.length < 2^29) (h : readNat base s = some n) :
    (∃ x, fromString s base = .ok x ∧ val x = n ∧ Norm x) ∧
    (∃ x, fromString ('-' :: s) base = .ok x ∧ val x = -n ∧ Norm x) := by
  obtain ⟨x, h1, h2, h3⟩ := fromDigits_spec base hb hb2 s (fromWord 0#64) 1 n (norm_single _) (by simp [fromWord])
    (by simp [fromWord]) (by omega) (by unfold readNat at h; simpa [fromWord] using h)
  have hf : fromString1 s base = .ok x := by
    unfold fromString1; rw [if_neg (by omega), h1]
  constructor
  · refine ⟨x, ?_, h2, h3⟩
    unfold fromString
    split
    · rename_i cs
      exfalso
      have : digitVal '-' = none := by decide +kernel
      unfold readNat at h
      simp only [List.foldl_cons, Option.bind_some, this, Option.bind_none, readNat_cons_aux] at h
      cases h
    · exact hf
  · have hn := neg_spec x h3.ne_nil
    exact ⟨neg x, by simp [fromString, hf], by rw [hn.1, h2], hn.2⟩

theorem digitVal_dchar : ∀ d < 36, digitVal (dchar d) = some d := by decide +kernel

theorem readNat_digs (base : Nat) (hb : 2 ≤ base) (hb2 : base ≤ 36) : ∀ n, readNat base (digs base n) = some n := by
  intro n
  induction n using Nat.strongRecOn with
  | ind n ih =>
    by_cases h0 : n = 0
    · subst h0; rw [digs_zero]; rfl
    · rw [digs_step base n hb (by omega)]
      have hi := ih (n / base) (Nat.div_lt_self (by omega) (by omega))
      unfold readNat at hi ⊢
      rw [List.foldl_append, hi]
      have hlt := Nat.mod_lt n (show base > 0 by omega)
      simp only [List.foldl_cons, List.foldl_nil, Option.bind_some, digitVal_dchar _ (lt_of_lt_of_le hlt hb2), if_pos hlt]
      congr 1
      exact Nat.div_add_mod' n base

theorem readNat_numeral (base : Nat) (hb : 2 ≤ base) (hb2 : base ≤ 36) (n : Nat) : readNat base (numeral base n) = some n := by
  by_cases h : n = 0
  · subst h
    have : digitVal '0' = some 0 := by decide +kernel
    simp [numeral, readNat, this]; omega
  · rw [numeral_eq base n h]; exact readNat_digs base hb hb2 n

end Voss.Arbi
