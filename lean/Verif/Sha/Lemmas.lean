import Verif.Sha.Model
import Mathlib.Data.List.GetD

/- The words of the program agree with those of the standard in their low halves. -/
namespace Voss.Sha

/-- The low half of a word. -/
def lo (x : W64) : W32 := x.setWidth 32

/-- The low halves of the registers. -/
def loR (r : Regs W64) : Regs W32 := ⟨lo r.a, lo r.b, lo r.c, lo r.d, lo r.e, lo r.f, lo r.g, lo r.h⟩

theorem lo_add (x y : W64) : lo (x + y) = lo x + lo y := by
  unfold lo; exact BitVec.setWidth_add x y (by decide)

theorem lo_xor (x y : W64) : lo (x ^^^ y) = lo x ^^^ lo y := by simp [lo]
theorem lo_and (x y : W64) : lo (x &&& y) = lo x &&& lo y := by simp [lo]
theorem lo_or (x y : W64) : lo (x ||| y) = lo x ||| lo y := by simp [lo]

theorem lo_getLsbD (x : W64) (i : Nat) : (lo x).getLsbD i = (decide (i < 32) && x.getLsbD i) := by
  simp [lo]

theorem mask_getLsbD (i : Nat) : (0xFFFFFFFF : W64).getLsbD i = decide (i < 32) := by
  have : (0xFFFFFFFF : W64) = (BitVec.allOnes 32).setWidth 64 := by decide
  rw [this, BitVec.getLsbD_setWidth, BitVec.getLsbD_allOnes]
  by_cases h : i < 32
  · simp [h]; omega
  · simp [h]

theorem lo_mask (x : W64) : lo (x &&& 0xFFFFFFFF) = lo x := by
  apply BitVec.eq_of_getLsbD_eq
  intro i hi
  rw [lo_getLsbD, lo_getLsbD, BitVec.getLsbD_and, mask_getLsbD]
  simp [hi]

theorem lo_shr (x : W64) (k : Nat) : lo ((x &&& 0xFFFFFFFF) >>> k) = lo x >>> k := by
  apply BitVec.eq_of_getLsbD_eq
  intro i hi
  rw [lo_getLsbD, BitVec.getLsbD_ushiftRight, BitVec.getLsbD_ushiftRight, BitVec.getLsbD_and, mask_getLsbD, lo_getLsbD]
  simp only [hi, decide_true, Bool.true_and]
  rw [Bool.and_comm]

theorem lo_shl (x : W64) (k : Nat) : lo ((x &&& 0xFFFFFFFF) <<< k) = lo x <<< k := by
  apply BitVec.eq_of_getLsbD_eq
  intro i hi
  rw [lo_getLsbD, BitVec.getLsbD_shiftLeft, BitVec.getLsbD_shiftLeft, BitVec.getLsbD_and, mask_getLsbD, lo_getLsbD]
  have h2 : i < 64 := by omega
  have h3 : i - k < 32 := by omega
  simp [hi, h2, h3]

theorem lo_ch (x y z : W64) : lo (ch x y z) = Fips.ch (lo x) (lo y) (lo z) := by
  unfold ch Fips.ch
  rw [lo_xor, lo_and, lo_xor]
  apply BitVec.eq_of_getLsbD_eq
  intro i hi
  simp only [BitVec.getLsbD_xor, BitVec.getLsbD_and, BitVec.getLsbD_not, hi, decide_true, Bool.true_and]
  cases (lo x).getLsbD i <;> cases (lo y).getLsbD i <;> cases (lo z).getLsbD i <;> rfl

theorem lo_maj (x y z : W64) : lo (maj x y z) = Fips.maj (lo x) (lo y) (lo z) := by
  unfold maj Fips.maj
  rw [lo_or, lo_and, lo_or, lo_and]
  apply BitVec.eq_of_getLsbD_eq
  intro i hi
  simp only [BitVec.getLsbD_xor, BitVec.getLsbD_and, BitVec.getLsbD_or]
  cases (lo x).getLsbD i <;> cases (lo y).getLsbD i <;> cases (lo z).getLsbD i <;> rfl

theorem lo_bigSigma0 (x : W64) : lo (bigSigma0 x) = Fips.bigSigma0 (lo x) := by
  simp only [bigSigma0, Fips.bigSigma0, Fips.rotr, lo_mask, lo_xor, lo_or, lo_shr, lo_shl]

theorem lo_bigSigma1 (x : W64) : lo (bigSigma1 x) = Fips.bigSigma1 (lo x) := by
  simp only [bigSigma1, Fips.bigSigma1, Fips.rotr, lo_mask, lo_xor, lo_or, lo_shr, lo_shl]

theorem lo_gamma0 (x : W64) : lo (gamma0 x) = Fips.sigma0 (lo x) := by
  simp only [gamma0, Fips.sigma0, Fips.rotr, lo_mask, lo_xor, lo_or, lo_shr, lo_shl]

theorem lo_gamma1 (x : W64) : lo (gamma1 x) = Fips.sigma1 (lo x) := by
  simp only [gamma1, Fips.sigma1, Fips.rotr, lo_mask, lo_xor, lo_or, lo_shr, lo_shl]

theorem lo_round (s : Regs W64) (k w : W64) : loR (round s k w) = Fips.round (loR s) (lo k) (lo w) := by
  simp only [round, Fips.round, loR, lo_add, lo_bigSigma0, lo_bigSigma1, lo_ch, lo_maj]

theorem byte_and_ff (b : Byte) : (b.setWidth 64 : W64) &&& 0xff = b.setWidth 64 := by
  apply BitVec.eq_of_toNat_eq
  have := b.isLt
  rw [BitVec.toNat_and, BitVec.toNat_setWidth]
  have h1 : b.toNat % 2 ^ 64 = b.toNat := Nat.mod_eq_of_lt (by omega)
  rw [h1]
  exact Nat.and_two_pow_sub_one_of_lt_two_pow (n := 8) (x := b.toNat) (by omega)

theorem getBig_four (a b c d : Byte) : lo (getBig [a, b, c, d]) =
    BitVec.ofNat 32 (((a.toNat * 256 + b.toNat) * 256 + c.toNat) * 256 + d.toNat) := by
  have ha := a.isLt; have hb := b.isLt; have hc := c.isLt; have hd := d.isLt
  apply BitVec.eq_of_toNat_eq
  simp only [getBig, List.foldl_cons, List.foldl_nil, byte_and_ff, lo, BitVec.toNat_setWidth, BitVec.toNat_add,
    BitVec.toNat_mul, BitVec.toNat_ofNat]
  have h256 : (256 : W64).toNat = 256 := rfl
  have h0 : (0 : W64).toNat = 0 := rfl
  rw [h256, h0]
  omega

theorem lo_word (data : List Byte) (i : Nat) (hl : data.length = 64) (hi : i < 16) :
    lo (getBig ((data.drop (4 * i)).take 4)) = Fips.word data i := by
  have h0 : 4 * i < data.length := by omega
  have h1 : 4 * i + 1 < data.length := by omega
  have h2 : 4 * i + 2 < data.length := by omega
  have h3 : 4 * i + 3 < data.length := by omega
  have : (data.drop (4 * i)).take 4 = [data[4 * i], data[4 * i + 1], data[4 * i + 2], data[4 * i + 3]] := by
    rw [List.drop_eq_getElem_cons h0, List.take_succ_cons, List.drop_eq_getElem_cons h1, List.take_succ_cons,
      List.drop_eq_getElem_cons h2, List.take_succ_cons, List.drop_eq_getElem_cons h3, List.take_succ_cons, List.take_zero]
  rw [this, getBig_four, Fips.word, List.getD_eq_getElem _ _ h0, List.getD_eq_getElem _ _ h1,
    List.getD_eq_getElem _ _ h2, List.getD_eq_getElem _ _ h3]

/-- The first words of the schedule agree with the standard. -/
def SchedOk (data : List Byte) (w : List W64) : Prop := ∀ t < w.length, lo (w.getD t 0) = Fips.sched data t

theorem words_ok (data : List Byte) (hl : data.length = 64) : SchedOk data (words data) := by
  intro t ht
  have ht' : t < 16 := by simpa [words] using ht
  rw [List.getD_eq_getElem _ _ ht, Fips.sched, if_pos ht']
  simp only [words, List.getElem_map, List.getElem_range]
  exact lo_word data t hl ht'

theorem sched_grow (data : List Byte) (w : List W64) (h : SchedOk data w) (hl : 16 ≤ w.length) :
    SchedOk data (w ++ [nextWord w w.length]) := by
  intro t ht
  simp only [List.length_append, List.length_cons, List.length_nil] at ht
  by_cases h1 : t < w.length
  · rw [List.getD_append _ _ _ _ h1]; exact h t h1
  · have : t = w.length := by omega
    subst this
    rw [List.getD_append_right _ _ _ _ (Nat.le_refl _), Nat.sub_self]
    simp only [List.getD_cons_zero]
    rw [Fips.sched, if_neg (by omega), nextWord]
    rw [lo_add, lo_add, lo_add, lo_gamma1, lo_gamma0, h _ (by omega), h _ (by omega), h _ (by omega), h _ (by omega)]

theorem schedule_aux (data : List Byte) (hl : data.length = 64) : ∀ n : Nat,
    let w := (List.range n).foldl (fun w i => w ++ [nextWord w (16 + i)]) (words data)
    w.length = 16 + n ∧ SchedOk data w := by
  intro n
  induction n with
  | zero => exact ⟨by simp [words], words_ok data hl⟩
  | succ n ih =>
    rw [List.range_succ, List.foldl_append]
    simp only [List.foldl_cons, List.foldl_nil]
    obtain ⟨ih1, ih2⟩ := ih
    refine ⟨by simp [ih1]; omega, ?_⟩
    have := sched_grow data _ ih2 (by omega)
    rw [ih1] at this
    exact this

theorem lo_schedule (data : List Byte) (hl : data.length = 64) (t : Nat) (ht : t < 64) :
    lo ((schedule data).getD t 0) = Fips.sched data t := by
  obtain ⟨h1, h2⟩ := schedule_aux data hl 48
  exact h2 t (by rw [h1]; exact ht)

/-- The constants as words of the standard. -/
def K32 : List W32 := K.map lo

theorem lo_rounds (data : List Byte) (hl : data.length = 64) (h : Regs W64) : ∀ n ≤ 64,
    loR ((List.range n).foldl (fun s i => round s (K.getD i 0) ((schedule data).getD i 0)) h) =
      (List.range n).foldl (fun r t => Fips.round r (K32.getD t 0) (Fips.sched data t)) (loR h) := by
  intro n hn
  induction n with
  | zero => rfl
  | succ n ih =>
    rw [List.range_succ, List.foldl_append, List.foldl_append]
    simp only [List.foldl_cons, List.foldl_nil]
    rw [lo_round, ih (by omega), lo_schedule data hl n (by omega)]
    congr 1
    have : n < K.length := hn
    rw [K32, List.getD_eq_getElem _ _ this, List.getD_eq_getElem _ _ (by simpa using this), List.getElem_map]

theorem lo_compress (data : List Byte) (hl : data.length = 64) (h : Regs W64) :
    loR (compress h data) = Fips.compress K32 (loR h) data := by
  have := lo_rounds data hl h 64 (Nat.le_refl _)
  simp only [compress, Fips.compress]
  rw [← this]
  simp only [loR, lo_add]
  simp only [BitVec.add_comm]

theorem lo_bytes (x : W64) : putBig x 4 = Fips.bytes (lo x) := by
  have key : ∀ y : W64, (y &&& 0xff).setWidth 8 = BitVec.ofNat 8 y.toNat := by
    intro y
    apply BitVec.eq_of_toNat_eq
    rw [BitVec.toNat_setWidth, BitVec.toNat_and, BitVec.toNat_ofNat]
    have : (0xff : W64).toNat = 2 ^ 8 - 1 := rfl
    rw [this, Nat.and_two_pow_sub_one_eq_mod]
    simp
  simp only [putBig, key, Fips.bytes, List.nil_append, List.cons_append, BitVec.toNat_ushiftRight]
  have hx : (lo x).toNat = x.toNat % 2 ^ 32 := by simp [lo]
  have e : ∀ a b : Nat, a % 256 = b % 256 → BitVec.ofNat 8 a = BitVec.ofNat 8 b := by
    intro a b hab
    apply BitVec.eq_of_toNat_eq
    simpa [BitVec.toNat_ofNat] using hab
  simp only [Nat.shiftRight_eq_div_pow]
  rw [hx]
  rw [e (x.toNat / 2 ^ 8 / 2 ^ 8 / 2 ^ 8) (x.toNat % 2 ^ 32 / 2 ^ 24) (by omega),
    e (x.toNat / 2 ^ 8 / 2 ^ 8) (x.toNat % 2 ^ 32 / 2 ^ 16) (by omega), e (x.toNat / 2 ^ 8) (x.toNat % 2 ^ 32 / 2 ^ 8) (by omega),
    e x.toNat (x.toNat % 2 ^ 32) (by omega)]

end Voss.Sha
