import Verif.Bv.Lemmas
import Verif.Arbi.CmpLemmas
import Mathlib.Data.List.Induction
/-
Helper lemmas for bit-vectors: multiplexing, negation, absolute value, product, comparison, bitwise
operations and shifts.
-/
namespace Voss.Bv
variable {F Env : Type} [Fml F Env]
open Fml
open Voss.Arbi (ibit ibit_neg_one)

theorem bits_zipWith (op : F → F → F) (bop : Bool → Bool → Bool) (ρ : Env)
    (hop : ∀ a b, den (op a b) ρ = bop (den a ρ) (den b ρ)) :
    ∀ (l1 l2 : List F), bits (List.zipWith op l1 l2) ρ = List.zipWith bop (bits l1 ρ) (bits l2 ρ)
  | [], _ => by simp
  | _ :: _, [] => by simp
  | a :: l1, b :: l2 => by simp [hop, bits_zipWith op bop ρ hop l1 l2]

theorem zipWith_snd (l1 l2 : List Bool) (h : l1.length = l2.length) :
    List.zipWith (fun a _ => a) l1 l2 = l1 := by
  induction l1 generalizing l2 with
  | nil => simp
  | cons a l1 ih => cases l2 with
    | nil => simp at h
    | cons b l2 => simp [ih l2 (by simpa using h)]

theorem zipWith_fst (l1 l2 : List Bool) (h : l1.length = l2.length) :
    List.zipWith (fun _ b => b) l1 l2 = l2 := by
  induction l1 generalizing l2 with
  | nil => cases l2 <;> simp at h ⊢
  | cons a l1 ih => cases l2 with
    | nil => simp at h
    | cons b l2 => simp [ih l2 (by simpa using h)]

theorem sx2_length (l1 l2 : List F) : (sx2 l1 l2).1.length = (sx2 l1 l2).2.length := by
  simp [sx2, sxTo_length, Nat.max_comm]

theorem zx2_length (l1 l2 : List F) : (zx2 l1 l2).1.length = (zx2 l1 l2).2.length := by
  simp [zx2, zxTo_length, Nat.max_comm]

theorem iteList_ne_nil (c : F) (l1 l2 : List F) (h1 : l1 ≠ []) (h2 : l2 ≠ []) : iteList c l1 l2 ≠ [] := by
  unfold iteList
  apply trim_ne_nil
  simp [List.zipWith_eq_nil_iff, sx2, sxTo_ne_nil h1, sxTo_ne_nil h2]

theorem sv_iteList (c : F) (l1 l2 : List F) (h1 : l1 ≠ []) (h2 : l2 ≠ []) (ρ : Env) :
    sv (iteList c l1 l2) ρ = if den c ρ then sv l1 ρ else sv l2 ρ := by
  unfold iteList
  rw [sv_trim]
  have hl := sx2_length l1 l2
  have e1 : sv (sx2 l1 l2).1 ρ = sv l1 ρ := sv_sxTo _ _ h1 ρ
  have e2 : sv (sx2 l1 l2).2 ρ = sv l2 ρ := sv_sxTo _ _ h2 ρ
  unfold sv at *
  rw [bits_zipWith _ (fun a b => (den c ρ && a) || (!den c ρ && b)) ρ
    (by intro a b; simp [den_or, den_and, den_not])]
  cases den c ρ
  · simp only [Bool.false_and, Bool.not_false, Bool.true_and, Bool.false_or]
    rw [zipWith_fst _ _ (by simpa using hl)]
    simpa using e2
  · simp only [Bool.true_and, Bool.not_true, Bool.false_and, Bool.or_false]
    rw [zipWith_snd _ _ (by simpa using hl)]
    simpa using e1

theorem negate_ne_nil (l : List F) : negate l ≠ [] := trim_ne_nil _ (genAdd_ne_nil _ _ _)

theorem sv_zero1 (ρ : Env) : sv ([zero] : List F) ρ = 0 := by simp [sv, tc, uv, den_zero]

theorem sv_one2 (ρ : Env) : sv ([zero, one] : List F) ρ = 1 := by simp [sv, tc, uv, den_zero, den_one]

theorem sv_negate (l : List F) (h : l ≠ []) (ρ : Env) : sv (negate l) ρ = - sv l ρ := by
  unfold negate
  simp only
  rw [sv_trim, sv_genAdd true _ _ (sx2_length _ _).symm (by simpa [sx2] using sxTo_ne_nil (by simp))]
  have e1 : sv (sx2 l [zero]).1 ρ = sv l ρ := sv_sxTo _ _ h ρ
  have e2 : sv (sx2 l [zero]).2 ρ = sv [zero] ρ := sv_sxTo _ _ (by simp) ρ
  rw [e1, e2, sv_zero1]
  simp

theorem decrement_ne_nil (l : List F) : decrement l ≠ [] := trim_ne_nil _ (genAdd_ne_nil _ _ _)

theorem sv_decrement (l : List F) (h : l ≠ []) (ρ : Env) : sv (decrement l) ρ = sv l ρ - 1 := by
  unfold decrement
  simp only
  rw [sv_trim, sv_genAdd true _ _ (sx2_length _ _) (by simpa [sx2] using sxTo_ne_nil h)]
  have e1 : sv (sx2 l [zero, one]).1 ρ = sv l ρ := sv_sxTo _ _ h ρ
  have e2 : sv (sx2 l [zero, one]).2 ρ = sv [zero, one] ρ := sv_sxTo _ _ (by simp) ρ
  rw [e1, e2, sv_one2]
  simp

theorem absList_ne_nil (l : List F) (h : l ≠ []) : absList l ≠ [] := iteList_ne_nil _ _ _ (negate_ne_nil _) h

theorem sv_absList (l : List F) (h : l ≠ []) (ρ : Env) : sv (absList l) ρ = |sv l ρ| := by
  unfold absList
  rw [sv_iteList _ _ _ (negate_ne_nil _) h, sv_negate _ h]
  have := head_neg l h ρ
  split
  · rename_i h; rw [abs_of_neg (this.mp h)]
  · rename_i h; rw [abs_of_nonneg]
    by_contra hc
    exact h (this.mpr (by omega))

/-! ### product -/

theorem mult_ne_nil (xv yv : List F) : mult xv yv ≠ [] := by
  cases yv with
  | nil => simp [mult]
  | cons y yv => exact trim_ne_nil _ (genAdd_ne_nil _ _ _)

theorem uv_map_and (b : Bool) (l : List Bool) : uv (l.map (fun x => b && x)) = if b then uv l else 0 := by
  induction l with
  | nil => simp [uv]
  | cons a l ih => cases b <;> simp_all [uv]

theorem sv_mult (xv : List F) (ρ : Env) : ∀ yv : List F,
    sv (mult xv yv) ρ = uv (bits xv ρ) * uv (bits yv ρ)
  | [] => by simp [mult, sv, tc, uv, den_zero]
  | y :: yv => by
    have ih := sv_mult xv ρ yv
    unfold mult
    simp only
    have hne : (zero :: xv.map (fun x => Fml.and y x) ++ List.replicate yv.length (zero : F)) ≠ [] := by simp
    rw [sv_trim, sv_genAdd false _ _ (zx2_length _ _) (by simpa [zx2] using zxTo_ne_nil hne)]
    have hprod : sv (zero :: xv.map (fun x => Fml.and y x) ++ List.replicate yv.length (zero : F)) ρ =
        (if den y ρ then uv (bits xv ρ) else 0 : Nat) * 2^yv.length := by
      have e : bits (xv.map (fun x => Fml.and y x)) ρ = (bits xv ρ).map (fun x => den y ρ && x) := by
        simp [bits, den_and, Function.comp_def]
      simp only [sv, List.cons_append, bits_cons, den_zero, tc_zcons, bits_append, e, bits_replicate, uv_append,
        uv_replicate_false, List.length_replicate, uv_map_and]
      push_cast
      ring
    have e1 := sv_zxTo (mult xv yv).length _ hne ρ (by rw [hprod]; positivity)
    have e2 := sv_zxTo (zero :: xv.map (fun x => Fml.and y x) ++ List.replicate yv.length (zero : F)).length
      (mult xv yv) (mult_ne_nil _ _) ρ (by rw [ih]; positivity)
    simp only [zx2, Bool.false_eq_true, if_false]
    rw [e1, e2, hprod, ih]
    simp only [bits_cons, uv, bits_length]
    split
    · push_cast; ring
    · push_cast; ring

/-! ### comparison -/

theorem den_lessRec (ρ : Env) : ∀ (l1 l2 : List F), l1.length = l2.length →
    den (lessRec l1 l2) ρ = decide (uv (bits l1 ρ) < uv (bits l2 ρ))
  | [], [], _ => by simp [lessRec, den_zero]
  | a :: l1, b :: l2, h => by
    have hl : l1.length = l2.length := by simpa using h
    have ih := den_lessRec ρ l1 l2 hl
    have u1 := uv_lt (bits l1 ρ)
    have u2 := uv_lt (bits l2 ρ)
    rw [bits_length] at u1 u2
    simp only [lessRec, den_or, den_and, den_not, den_xnor, ih, bits_cons, uv, bits_length, ← hl] at *
    cases den a ρ <;> cases den b ρ <;> simp <;> omega
  | [], _ :: _, h => by simp at h
  | _ :: _, [], h => by simp at h

theorem den_less (l1 l2 : List F) (h1 : l1 ≠ []) (h2 : l2 ≠ []) (ρ : Env) :
    den (less l1 l2) ρ = decide (sv l1 ρ < sv l2 ρ) := by
  unfold less
  simp only
  have hl := sx2_length l1 l2
  have e1 : sv (sx2 l1 l2).1 ρ = sv l1 ρ := sv_sxTo _ _ h1 ρ
  have e2 : sv (sx2 l1 l2).2 ρ = sv l2 ρ := sv_sxTo _ _ h2 ρ
  have n1 : (sx2 l1 l2).1 ≠ [] := sxTo_ne_nil h1
  have n2 : (sx2 l1 l2).2 ≠ [] := sxTo_ne_nil h2
  have v1 := sv_eq _ n1 ρ
  have v2 := sv_eq _ n2 ρ
  have s1 := head_neg _ n1 ρ
  have s2 := head_neg _ n2 ρ
  rw [den_ite, den_ite, den_ite, den_lessRec ρ _ _ hl, den_one, den_zero]
  rw [← e1, ← e2]
  rw [← hl] at v2
  cases d1 : den ((sx2 l1 l2).1.headD zero) ρ <;> cases d2 : den ((sx2 l1 l2).2.headD zero) ρ <;>
    simp only [d1, d2, if_true, if_false, Bool.false_eq_true, false_iff, true_iff] at v1 v2 s1 s2 ⊢
  · rw [v1, v2]; simp
  · have : ¬ sv (sx2 l1 l2).1 ρ < sv (sx2 l1 l2).2 ρ := by omega
    simp [this]
  · have : sv (sx2 l1 l2).1 ρ < sv (sx2 l1 l2).2 ρ := by omega
    simp [this]
  · rw [v1, v2]; simp

theorem den_isZero_fold (ρ : Env) : ∀ (l : List F) (z : F),
    den (l.foldl (fun z b => Fml.and z (Fml.not b)) z) ρ = (den z ρ && decide (uv (bits l ρ) = 0))
  | [], z => by simp [uv]
  | a :: l, z => by
    rw [List.foldl_cons, den_isZero_fold ρ l]
    simp only [den_and, den_not, bits_cons, uv]
    cases den a ρ <;> simp

theorem den_isZeroList (l : List F) (ρ : Env) : den (isZeroList l) ρ = decide (uv (bits l ρ) = 0) := by
  unfold isZeroList
  rw [den_isZero_fold, den_one]
  simp

/-! ### equality -/

theorem tc_inj_len : ∀ (l m : List Bool), l.length = m.length → tc l = tc m → l = m := by
  have huv : ∀ (l m : List Bool), l.length = m.length → uv l = uv m → l = m := by
    intro l
    induction l with
    | nil => intro m h _; cases m <;> simp at h ⊢
    | cons a l ih =>
      intro m h hu
      cases m with
      | nil => simp at h
      | cons b m =>
        have hl : l.length = m.length := by simpa using h
        have u1 := uv_lt l
        have u2 := uv_lt m
        simp only [uv, hl] at hu u1 u2
        have : a = b := by cases a <;> cases b <;> simp_all <;> omega
        subst this
        rw [ih m hl (by omega)]
  intro l m h ht
  by_cases hn : l = []
  · subst hn; cases m <;> simp at h ⊢
  · have hm : m ≠ [] := by rintro rfl; simp at h; exact hn h
    have h1 := tc_head l hn
    have h2 := tc_head m hm
    have e1 := tc_eq l hn
    have e2 := tc_eq m hm
    apply huv l m h
    rw [ht] at h1
    have : l.headD false = m.headD false := by
      rw [Bool.eq_iff_iff, h1, h2]
    rw [this, h] at e1
    omega

theorem den_fold_xnor (ρ : Env) (b1 : F) : ∀ (t : List F) (r : F),
    den (t.foldl (fun r b2 => Fml.and r (Fml.xnor b1 b2)) r) ρ =
      (den r ρ && (bits t ρ).all (fun b => den b1 ρ == b))
  | [], r => by simp
  | a :: t, r => by
    rw [List.foldl_cons, den_fold_xnor ρ b1 t]
    simp [den_and, den_xnor, Bool.and_assoc]

theorem den_fold_zip (ρ : Env) : ∀ (s t : List F) (r : F), s.length = t.length →
    den ((s.zip t).foldl (fun r p => Fml.and r (Fml.xnor p.1 p.2)) r) ρ =
      (den r ρ && decide (bits s ρ = bits t ρ))
  | [], [], r, _ => by simp
  | a :: s, b :: t, r, h => by
    simp only [List.zip_cons_cons, List.foldl_cons]
    rw [den_fold_zip ρ s t _ (by simpa using h)]
    simp only [den_and, den_xnor, bits_cons, List.cons.injEq, Bool.and_assoc]
    cases den a ρ <;> cases den b ρ <;> simp
  | [], _ :: _, _, h => by simp at h
  | _ :: _, [], _, h => by simp at h

theorem all_eq_replicate (b : Bool) (l : List Bool) : l.all (fun x => b == x) = true ↔ l = List.replicate l.length b := by
  induction l with
  | nil => simp
  | cons a l ih =>
    simp only [List.all_cons, Bool.and_eq_true, ih, List.length_cons, List.replicate_succ, List.cons.injEq, beq_iff_eq]
    tauto

theorem eq_core (s t : List F) (hs : s ≠ []) (h : s.length ≤ t.length) (ρ : Env) :
    den ((s.zip (t.drop (t.length - s.length))).foldl (fun r p => Fml.and r (Fml.xnor p.1 p.2))
      ((t.take (t.length - s.length)).foldl (fun r b2 => Fml.and r (Fml.xnor (s.headD zero) b2)) one)) ρ =
      decide (sv s ρ = sv t ρ) := by
  rw [den_fold_zip ρ _ _ _ (by simp; omega), den_fold_xnor, den_one, Bool.true_and]
  rw [Bool.eq_iff_iff, Bool.and_eq_true, all_eq_replicate, decide_eq_true_iff, decide_eq_true_iff, bits_length]
  set k := t.length - s.length
  have hk : (t.take k).length = k := by simp [k]
  rw [hk]
  have hx : bits (sxTo t.length s) ρ = List.replicate k (den (s.headD zero) ρ) ++ bits s ρ := by simp [sxTo, k]
  have ht : bits t ρ = bits (t.take k) ρ ++ bits (t.drop k) ρ := by rw [← bits_append, List.take_append_drop]
  constructor
  · rintro ⟨h1, h2⟩
    rw [← sv_sxTo t.length s hs ρ]
    unfold sv
    rw [hx, ht, h1, h2]
  · intro he
    rw [← sv_sxTo t.length s hs ρ] at he
    have := tc_inj_len _ _ (by simp [sxTo_length]; omega) he
    rw [hx, ht] at this
    have := List.append_inj this (by simp [hk])
    exact ⟨this.1.symm, this.2⟩

/-! ### bits of the value -/

theorem ibit_zero' (z : Int) : ibit z 0 = (z % 2 == 1) := by simp [ibit]
theorem ibit_succ (z : Int) (i : Nat) : ibit z (i+1) = ibit (z / 2) i := by
  unfold ibit
  rw [pow_succ, mul_comm, ← Int.ediv_ediv_of_nonneg (by norm_num)]

theorem uv_snoc (l : List Bool) (b : Bool) : uv (l ++ [b]) = 2 * uv l + (if b then 1 else 0) := by
  rw [uv_append]; simp [uv]; ring

theorem tc_snoc (l : List Bool) (b : Bool) (h : l ≠ []) : tc (l ++ [b]) = 2 * tc l + (if b then 1 else 0) := by
  obtain ⟨a, l, rfl⟩ := List.exists_cons_of_ne_nil h
  simp only [List.cons_append, tc, uv_snoc, List.length_append, List.length_singleton, pow_succ]
  push_cast
  split <;> split <;> omega

/-- Bit `i` of the value of a nonempty list is the `i`-th entry from the end, and the sign beyond. -/
theorem ibit_tc (l : List Bool) (h : l ≠ []) (i : Nat) :
    ibit (tc l) i = l.reverse.getD i (l.headD false) := by
  induction l using List.reverseRecOn generalizing i with
  | nil => exact absurd rfl h
  | append_singleton l b ih =>
    by_cases hl : l = []
    · subst hl
      cases b
      · simp only [List.nil_append, tc, uv, ibit]; cases i <;> simp
      · have : tc ([] ++ [true]) = -1 := by simp [tc, uv]
        rw [this, ibit_neg_one]
        cases i <;> simp
    · rw [List.reverse_append]
      have hd : (l ++ [b]).headD false = l.headD false := by
        obtain ⟨a, l, rfl⟩ := List.exists_cons_of_ne_nil hl; rfl
      rw [hd]
      cases i with
      | zero =>
        rw [ibit_zero', tc_snoc _ _ hl]
        cases b <;> simp
      | succ i =>
        rw [ibit_succ, tc_snoc _ _ hl]
        have : (2 * tc l + (if b then 1 else 0)) / 2 = tc l := by split <;> omega
        rw [this, ih hl]
        simp

end Voss.Bv
