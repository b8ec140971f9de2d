import Verif.Bv.OpLemmas
import Verif.Arbi.StrLemmas
/-
Helper lemmas for bit-vectors: conversion from and to integers.
-/
namespace Voss.Bv
variable {F Env : Type} [Fml F Env]
open Fml
open Voss.Arbi (W Res val Norm)

/-! ### constant lists stay constant -/

/-- The handle denotes a constant. -/
def Const (f : F) : Prop := ∀ ρ ρ' : Env, den f ρ = den f ρ'

theorem const_zero : Const (zero : F) := fun ρ ρ' => by simp [den_zero]
theorem const_one : Const (one : F) := fun ρ ρ' => by simp [den_one]

theorem scalar_const (l : List F) (h : isScalar l = true) : ∀ f ∈ l, Const f := by
  intro f hf ρ ρ'
  have := List.all_eq_true.mp h f hf
  unfold isSymbolic at this
  cases h1 : eqb f (one : F)
  · rw [h1] at this
    simp at this
    rw [eqb_sound f zero this ρ, eqb_sound f zero this ρ', den_zero, den_zero]
  · rw [eqb_sound f one h1 ρ, eqb_sound f one h1 ρ', den_one, den_one]

theorem mem_trim (f : F) : ∀ l : List F, f ∈ trim l → f ∈ l
  | [] => by simp [trim]
  | [a] => by simp [trim]
  | a :: b :: l => by
    unfold trim
    split
    · intro h; exact List.mem_cons_of_mem _ (mem_trim f (b :: l) h)
    · exact id

theorem headD_const (l : List F) (h : ∀ f ∈ l, Const f) : Const (l.headD zero) := by
  cases l with
  | nil => exact const_zero
  | cons a l => exact h a (by simp)

theorem sxTo_const (n : Nat) (l : List F) (h : ∀ f ∈ l, Const f) : ∀ f ∈ sxTo n l, Const f := by
  intro f hf
  unfold sxTo at hf
  rcases List.mem_append.mp hf with hf | hf
  · rw [List.eq_of_mem_replicate hf]; exact headD_const l h
  · exact h f hf

theorem zipWith_const (op : F → F → F) (hop : ∀ a b, Const a → Const b → Const (op a b)) :
    ∀ (l1 l2 : List F), (∀ f ∈ l1, Const f) → (∀ f ∈ l2, Const f) → ∀ f ∈ List.zipWith op l1 l2, Const f
  | [], _, _, _ => by simp
  | _ :: _, [], _, _ => by simp
  | a :: l1, b :: l2, h1, h2 => by
    intro f hf
    simp only [List.zipWith_cons_cons, List.mem_cons] at hf
    rcases hf with rfl | hf
    · exact hop _ _ (h1 a (by simp)) (h2 b (by simp))
    · exact zipWith_const op hop l1 l2 (fun f hf => h1 f (by simp [hf])) (fun f hf => h2 f (by simp [hf])) f hf

theorem iteList_const (c : F) (l1 l2 : List F) (hc : Const c) (h1 : ∀ f ∈ l1, Const f) (h2 : ∀ f ∈ l2, Const f) :
    ∀ f ∈ iteList c l1 l2, Const f := by
  intro f hf
  refine zipWith_const _ ?_ _ _ (sxTo_const _ _ h1) (sxTo_const _ _ h2) f (mem_trim f _ hf)
  intro a b ha hb ρ ρ'
  simp only [den_or, den_and, den_not, hc ρ ρ', ha ρ ρ', hb ρ ρ']

theorem addRec_const (neg : Bool) : ∀ (l1 l2 : List F), (∀ f ∈ l1, Const f) → (∀ f ∈ l2, Const f) →
    (∀ f ∈ (addRec neg l1 l2).1, Const f) ∧ Const (addRec neg l1 l2).2
  | [], _, _, _ => by
    cases neg <;> simp [addRec, const_zero, const_one]
  | _ :: _, [], _, _ => by
    cases neg <;> simp [addRec, const_zero, const_one]
  | a :: l1, b :: l2, h1, h2 => by
    obtain ⟨i1, i2⟩ := addRec_const neg l1 l2 (fun f hf => h1 f (by simp [hf])) (fun f hf => h2 f (by simp [hf]))
    have ha := h1 a (by simp)
    have hb := h2 b (by simp)
    simp only [addRec]
    have hb' : Const (if neg then Fml.not b else b) := by
      cases neg
      · exact hb
      · intro ρ ρ'; simp [den_not, hb ρ ρ']
    refine ⟨?_, ?_⟩
    · intro f hf
      rcases List.mem_cons.mp hf with rfl | hf
      · intro ρ ρ'; simp only [den_xor, ha ρ ρ', hb' ρ ρ', i2 ρ ρ']
      · exact i1 f hf
    · intro ρ ρ'; simp only [den_or, den_and, ha ρ ρ', hb' ρ ρ', i2 ρ ρ']

theorem genAdd_const (neg : Bool) (l1 l2 : List F) (h1 : ∀ f ∈ l1, Const f) (h2 : ∀ f ∈ l2, Const f) :
    ∀ f ∈ genAdd neg l1 l2, Const f := by
  intro f hf
  refine (addRec_const neg _ _ ?_ ?_).1 f (mem_trim f _ hf)
  · intro f hf
    rcases List.mem_cons.mp hf with rfl | hf
    · exact headD_const _ h1
    · exact h1 f hf
  · intro f hf
    rcases List.mem_cons.mp hf with rfl | hf
    · exact headD_const _ h2
    · exact h2 f hf

theorem absList_const (l : List F) (h : ∀ f ∈ l, Const f) : ∀ f ∈ absList l, Const f := by
  refine iteList_const _ _ _ (headD_const _ h) ?_ h
  intro f hf
  refine genAdd_const true _ _ (sxTo_const _ _ ?_) (sxTo_const _ _ h) f (mem_trim f _ hf)
  simp [const_zero]

/-! ### lengths -/

theorem trim_length_le : ∀ l : List F, (trim l).length ≤ l.length
  | [] => by simp [trim]
  | [a] => by simp [trim]
  | a :: b :: l => by
    unfold trim
    split
    · have := trim_length_le (b :: l); simp only [List.length_cons] at *; omega
    · exact le_refl _

theorem genAdd_length_le (neg : Bool) (l1 l2 : List F) (h : l1.length = l2.length) :
    (genAdd neg l1 l2).length ≤ l1.length + 1 := by
  refine (trim_length_le _).trans ?_
  rw [addRec_length _ _ _ (by simpa using h)]; simp

theorem negate_length_le (l : List F) (h : l ≠ []) : (negate l).length ≤ l.length + 1 := by
  refine (trim_length_le _).trans ((genAdd_length_le true _ _ (sx2_length _ _).symm).trans ?_)
  have : 0 < l.length := List.length_pos_iff.mpr h
  simp [sx2, sxTo_length]
  omega

theorem absList_length_le (l : List F) (h : l ≠ []) : (absList l).length ≤ l.length + 1 := by
  refine (trim_length_le _).trans ?_
  have := negate_length_le l h
  simp [sx2, sxTo_length]
  omega

/-! ### bv2int -/

theorem eqb_zero_const {F Env : Type} [Canon F Env] (f : F) (h : Const f) (ρ : Env) : eqb f zero = !den f ρ := by
  cases hd : den f ρ
  · exact (eqb_iff f zero).mpr (fun ρ' => by rw [h ρ' ρ, hd, den_zero])
  · rw [Bool.not_true, ← Bool.not_eq_true, eqb_iff]
    intro hh
    have := hh ρ
    rw [hd, den_zero] at this
    exact absurd this (by simp)

theorem list2int_spec {F Env : Type} [Canon F Env] (ρ : Env) : ∀ (l : List F), (∀ f ∈ l, Const f) → l.length < 2^34 →
    ∃ r p, list2int l = .ok (r, p) ∧ Norm r ∧ Norm p ∧ val r = uv (bits l ρ) ∧ val p = 2^l.length
  | [], _, _ => ⟨_, _, rfl, Arbi.norm_single _, Arbi.norm_single _, by simp [uv, Arbi.fromWord], by simp [Arbi.fromWord]⟩
  | b :: l, hc, hl => by
    obtain ⟨r, p, h1, h2, h3, h4, h5⟩ := list2int_spec ρ l (fun f hf => hc f (by simp [hf])) (by simp at hl; omega)
    have hpl : p.length ≤ 2^29 := by
      have := Arbi.norm_len_of_lt p h3 (l.length + 1) (by rw [h5]; positivity) (by
        rw [h5, pow_succ]; have : (0:Int) < 2^l.length := by positivity
        omega)
      simp at hl
      omega
    obtain ⟨q, q1, q2, q3⟩ := Arbi.mul_spec p (Arbi.fromWord 2#64) h3 (Arbi.norm_single _) hpl (by
      rintro ⟨_, h⟩; simp [Arbi.fromWord, Arbi.minWord] at h)
    simp only [list2int, h1, Res.bind, q1]
    rw [eqb_zero_const b (hc b (by simp)) ρ]
    have e := Arbi.add_spec (if (!den b ρ) = true then Arbi.fromWord 0#64 else p) r (by
      split
      · simp [Arbi.fromWord]
      · exact h3.ne_nil) h2.ne_nil
    refine ⟨_, _, rfl, e.2, q3, ?_, ?_⟩
    · rw [e.1, h4]
      simp only [bits_cons, uv, bits_length]
      cases den b ρ <;> simp [Arbi.fromWord, h5]
    · rw [q2, h5]; simp [Arbi.fromWord, pow_succ]

theorem bv2int_spec {F Env : Type} [Canon F Env] (l : List F) (hne : l ≠ []) (hs : isScalar l = true) (hl : l.length < 2^33) (ρ : Env) :
    ∃ r, bv2int l = some (.ok (.ok r)) ∧ Norm r ∧ val r = sv l ρ := by
  have hc := scalar_const l hs
  have hac := absList_const l hc
  have hlen := absList_length_le l hne
  obtain ⟨r, p, h1, h2, _, h4, _⟩ := list2int_spec ρ (absList l) hac (by omega)
  have hab := sv_absList l hne ρ
  have hu : sv (absList l) ρ = uv (bits (absList l) ρ) := tc_nonneg_uv _ (by change 0 ≤ sv (absList l) ρ; rw [hab]; exact abs_nonneg _)
  have hneg : eqb (l.headD zero) one = den (l.headD zero) ρ := by
    have hcc := headD_const l hc
    cases hd : den (l.headD zero) ρ
    · rw [← Bool.not_eq_true, eqb_iff]
      intro hh; have := hh ρ; rw [hd, den_one] at this; exact absurd this (by simp)
    · exact (eqb_iff _ _).mpr (fun ρ' => by rw [hcc ρ' ρ, hd, den_one])
  have hsign := head_neg l hne ρ
  unfold bv2int
  have hemp : l.isEmpty = false := by cases l <;> simp at hne ⊢
  simp only [hs, Bool.not_true, Bool.false_eq_true, if_false, hemp, h1, Res.bind, hneg]
  have hn := Arbi.neg_spec r h2.ne_nil
  refine ⟨_, rfl, ?_⟩
  cases hd : den (l.headD zero) ρ
  · rw [hd] at hsign
    simp only [Bool.false_eq_true, if_false, false_iff] at hsign ⊢
    refine ⟨h2, ?_⟩
    rw [h4, ← hu, hab, abs_of_nonneg (by omega)]
  · rw [hd] at hsign
    simp only [if_true, true_iff] at hsign ⊢
    refine ⟨hn.2, ?_⟩
    rw [hn.1, h4, ← hu, hab, abs_of_neg hsign]; omega

/-! ### int2bv -/

def c2b (c : Char) : Bool := c = '1'

theorem uv_digits (ds : List Nat) (h : ∀ d ∈ ds, d < 2) :
    uv (((ds.map fun d => Arbi.digitTable.getD d '?').reverse).map c2b) = Nat.ofDigits 2 ds := by
  induction ds with
  | nil => rfl
  | cons d ds ih =>
    have hd : d < 2 := h d (by simp)
    simp only [List.map_cons, List.reverse_cons, List.map_append, List.map_nil, uv_snoc, Nat.ofDigits_cons,
      ih (fun d hd => h d (by simp [hd]))]
    have : (if c2b (Arbi.digitTable.getD d '?') then 1 else 0) = d := by
      interval_cases d <;> decide
    rw [this]; push_cast; ring

theorem uv_numeral (n : Nat) : uv ((Arbi.numeral 2 n).map c2b) = n := by
  unfold Arbi.numeral
  split
  · rename_i h; subst h; decide
  · rw [uv_digits _ (fun d hd => Nat.digits_lt_base (by norm_num) hd), Nat.ofDigits_digits]

theorem numeral_chars (n : Nat) : ∀ c ∈ Arbi.numeral 2 n, c = '0' ∨ c = '1' := by
  intro c hc
  unfold Arbi.numeral at hc
  split at hc
  · simp at hc; exact Or.inl hc
  · simp only [List.mem_reverse, List.mem_map] at hc
    obtain ⟨d, hd, rfl⟩ := hc
    have := Nat.digits_lt_base (b := 2) (by norm_num) hd
    interval_cases d
    · exact Or.inl (by decide)
    · exact Or.inr (by decide)

theorem uv_map_not (l : List Bool) : uv (l.map (!·)) + uv l + 1 = 2^l.length := by
  induction l with
  | nil => simp [uv]
  | cons a l ih =>
    simp only [List.map_cons, uv, List.length_map, List.length_cons, pow_succ]
    cases a <;> simp <;> omega

theorem flip_rev (r : List Char) (h : '1' ∈ r) (hc : ∀ c ∈ r, c = '0' ∨ c = '1') :
    uv (((r.takeWhile (· ≠ '1') ++ (r.dropWhile (· ≠ '1')).take 1 ++
      ((r.dropWhile (· ≠ '1')).drop 1).map (fun c => if c = '1' then '0' else '1')).reverse).map c2b) +
      uv (r.reverse.map c2b) = 2^r.length := by
  induction r with
  | nil => simp at h
  | cons c r ih =>
    rcases hc c (by simp) with rfl | rfl
    · have h' : '1' ∈ r := by simpa using h
      have := ih h' (fun c hc' => hc c (by simp [hc']))
      have e : ('0' :: r).dropWhile (· ≠ '1') = r.dropWhile (· ≠ '1') := by simp [List.dropWhile_cons]
      have e2 : ('0' :: r).takeWhile (· ≠ '1') = '0' :: r.takeWhile (· ≠ '1') := by simp [List.takeWhile_cons]
      rw [e, e2]
      simp only [List.cons_append, List.reverse_cons, List.map_append, List.map_cons, List.map_nil, uv_snoc,
        List.length_cons, pow_succ] at this ⊢
      have hz : c2b '0' = false := by decide
      rw [hz]
      simp at this ⊢
      omega
    · have e : ('1' :: r).dropWhile (· ≠ '1') = '1' :: r := by simp [List.dropWhile_cons]
      have e2 : ('1' :: r).takeWhile (· ≠ '1') = [] := by simp [List.takeWhile_cons]
      rw [e, e2]
      simp only [List.take_succ_cons, List.take_zero, List.drop_succ_cons, List.drop_zero, List.nil_append,
        List.cons_append, List.reverse_cons, List.map_append, List.map_cons, List.map_nil, uv_snoc, List.length_cons, pow_succ]
      have hz : c2b '1' = true := by decide
      rw [hz]
      have hm : ((r.map (fun c => if c = '1' then '0' else '1')).reverse).map c2b = (r.reverse.map c2b).map (!·) := by
        rw [← List.map_reverse, List.map_map, List.map_map]
        apply List.map_congr_left
        intro c hc'
        rcases hc c (by simp at hc'; simp [hc']) with rfl | rfl <;> decide
      rw [hm]
      have := uv_map_not (r.reverse.map c2b)
      simp only [List.length_map, List.length_reverse] at this
      simp only [if_true]
      omega

theorem flipBefore_length (s : List Char) : (flipBefore s).length = s.length := by
  unfold flipBefore
  simp only [List.length_reverse, List.length_append, List.length_map, List.length_take, List.length_drop]
  have := congrArg List.length (List.takeWhile_append_dropWhile (p := fun c : Char => decide (c ≠ '1')) (l := s.reverse))
  simp only [List.length_append, List.length_reverse] at this
  omega

theorem uv_flipBefore (n : Nat) (h : n ≠ 0) :
    (uv ((flipBefore (Arbi.numeral 2 n)).map c2b) : Int) = 2^(Arbi.numeral 2 n).length - n := by
  have h1 : '1' ∈ (Arbi.numeral 2 n).reverse := by
    by_contra hno
    have hall : ∀ c ∈ Arbi.numeral 2 n, c2b c = false := by
      intro c hc
      rcases numeral_chars n c hc with rfl | rfl
      · decide
      · exact absurd (by simpa using hc) (by simpa using hno)
    have : (Arbi.numeral 2 n).map c2b = List.replicate (Arbi.numeral 2 n).length false := by
      rw [List.eq_replicate_iff]
      refine ⟨by simp, ?_⟩
      intro b hb
      obtain ⟨c, hc, rfl⟩ := List.mem_map.mp hb
      exact hall c hc
    have e := uv_numeral n
    rw [this, uv_replicate_false] at e
    omega
  have := flip_rev (Arbi.numeral 2 n).reverse h1 (fun c hc => numeral_chars n c (by simpa using hc))
  rw [List.reverse_reverse, uv_numeral] at this
  have e : uv ((flipBefore (Arbi.numeral 2 n)).map c2b) + n = 2^(Arbi.numeral 2 n).length := by
    rw [← List.length_reverse]; exact this
  have : ((uv ((flipBefore (Arbi.numeral 2 n)).map c2b) + n : Nat) : Int) = 2^(Arbi.numeral 2 n).length := by exact_mod_cast e
  push_cast at this
  omega

theorem bits_chars (s : List Char) (ρ : Env) :
    bits (s.map (fun c => if c = '1' then (one : F) else zero)) ρ = s.map c2b := by
  unfold bits
  rw [List.map_map]
  apply List.map_congr_left
  intro c _
  by_cases h : c = '1' <;> simp [c2b, h, den_one, den_zero]

theorem notSym_const : isSymbolic (one : F) = false ∧ isSymbolic (zero : F) = false := by
  have h1 : eqb (one : F) one = true := eqb_refl _
  have h0 : eqb (zero : F) zero = true := eqb_refl _
  simp [isSymbolic, h1, h0]

theorem int2bv_spec (x : List W) (hx : Norm x) (hl : x.length ≤ 2^21) :
    ∃ l : List F, (∃ N, ∀ fuel, N ≤ fuel → int2bv fuel x = some (.ok l)) ∧ l ≠ [] ∧ Trimmed l ∧ isScalar l = true ∧
      l.length ≤ (Arbi.numeral 2 (val x).natAbs).length + 1 ∧ ∀ ρ : Env, sv l ρ = val x := by
  have hneg := Arbi.cmp0_neg_iff x hx
  set y := if decide (Arbi.cmp0 x < 0) then Arbi.neg x else x with hy
  have ns := Arbi.neg_spec x hx.ne_nil
  have hyv : val y = |val x| ∧ Norm y := by
    rw [hy]
    by_cases h : Arbi.cmp0 x < 0
    · simp only [h, decide_true, if_true]
      rw [abs_of_neg (hneg.mp h)]; exact ns
    · simp only [h, decide_false, Bool.false_eq_true, if_false]
      rw [abs_of_nonneg (by rw [hneg] at h; omega)]; exact ⟨rfl, hx⟩
  have hylen : y.length < 2^22 := by
    have hb : |val x| < 2^(64 * x.length) := by
      have hb := Arbi.val_bounds x hx.ne_nil
      have hlp : 0 < x.length := List.length_pos_iff.mpr hx.ne_nil
      have e : (2:Int)^(64 * x.length) = 2^(64 * x.length - 1) * 2 := by
        rw [← pow_succ]; congr 1; omega
      have hp : (0:Int) < 2^(64 * x.length - 1) := by positivity
      rw [abs_lt, e]
      constructor <;> omega
    have := Arbi.norm_len_of_lt y hyv.2 (64 * x.length) (by rw [hyv.1]; exact abs_nonneg _) (by rw [hyv.1]; exact hb)
    omega
  obtain ⟨N, hN⟩ := Arbi.toString_spec y 2 hyv.2 (by norm_num) (by norm_num) hylen (by norm_num)
    (fun _ ht => by
      have h1 := Arbi.val_neg_iff y hyv.2.ne_nil
      rw [ht] at h1
      have h2 := h1.mpr (by decide)
      rw [hyv.1] at h2
      have := abs_nonneg (val x)
      omega)
  have hr : Arbi.renderInt 2 (val y) = Arbi.numeral 2 (val x).natAbs := by
    unfold Arbi.renderInt
    rw [hyv.1, if_neg (by have := abs_nonneg (val x); omega)]
    simp [Int.natAbs_abs]
  rw [hr] at hN
  set s := if decide (Arbi.cmp0 x < 0) then flipBefore (Arbi.numeral 2 (val x).natAbs) else Arbi.numeral 2 (val x).natAbs with hs
  have hslen : s.length = (Arbi.numeral 2 (val x).natAbs).length := by
    rw [hs]; split
    · exact flipBefore_length _
    · rfl
  refine ⟨trim (trim ((if decide (Arbi.cmp0 x < 0) then one else zero) :: s.map (fun c => if c = '1' then (one : F) else zero))),
    ⟨N, fun fuel hf => ?_⟩, ?_, trimmed_trim _, ?_, ?_, ?_⟩
  · simp only [int2bv]
    rw [← hy, hN fuel hf]
    rfl
  · exact trim_ne_nil _ (trim_ne_nil _ (by simp))
  · unfold isScalar
    rw [List.all_eq_true]
    intro f hf
    have hf := mem_trim f _ (mem_trim f _ hf)
    have hor : f = one ∨ f = zero := by
      rcases List.mem_cons.mp hf with rfl | hf
      · split <;> simp
      · obtain ⟨c, _, rfl⟩ := List.mem_map.mp hf
        split <;> simp
    rcases hor with rfl | rfl
    · rw [notSym_const.1]; rfl
    · rw [notSym_const.2]; rfl
  · refine (trim_length_le _).trans ((trim_length_le _).trans ?_)
    simp [hslen]
  · intro ρ
    rw [sv_trim, sv_trim]
    unfold sv
    rw [bits_cons, bits_chars]
    simp only [tc, List.length_map, hslen]
    by_cases h : Arbi.cmp0 x < 0
    · have hv := hneg.mp h
      have hn0 : (val x).natAbs ≠ 0 := by omega
      rw [hs]
      simp only [h, decide_true, if_true, den_one]
      rw [uv_flipBefore _ hn0]
      omega
    · have hv : ¬ val x < 0 := by rwa [hneg] at h
      rw [hs]
      simp only [h, decide_false, Bool.false_eq_true, if_false, den_zero]
      rw [uv_numeral]
      omega

theorem numeral_length_le (n k : Nat) (h : n < 2^k) (hk : 1 ≤ k) : (Arbi.numeral 2 n).length ≤ k := by
  unfold Arbi.numeral
  split
  · simpa using hk
  · simp only [List.length_reverse, List.length_map]
    exact (Nat.digits_length_le_iff (by norm_num) n).mpr h

end Voss.Bv
