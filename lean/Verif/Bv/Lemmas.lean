import Verif.Bv.Spec
import Mathlib.Tactic.Ring
import Mathlib.Tactic.Linarith
/-
Helper lemmas for bit-vectors.
-/
namespace Voss.Bv
variable {F Env : Type} [Fml F Env]
open Fml

theorem uv_lt (l : List Bool) : uv l < 2^l.length := by
  induction l with
  | nil => simp [uv]
  | cons b l ih =>
    simp only [uv, List.length_cons, pow_succ]
    split <;> omega

theorem uv_append (l m : List Bool) : uv (l ++ m) = uv l * 2^m.length + uv m := by
  induction l with
  | nil => simp [uv]
  | cons b l ih =>
    simp only [List.cons_append, uv, ih, List.length_append]
    split
    · ring
    · ring

theorem uv_replicate_false (n : Nat) : uv (List.replicate n false) = 0 := by
  induction n with
  | zero => rfl
  | succ n ih => simp [List.replicate_succ, uv, ih]

theorem tc_eq (l : List Bool) (h : l ≠ []) : tc l = uv l - (if l.headD false then (2:Int)^l.length else 0) := by
  cases l with
  | nil => exact absurd rfl h
  | cons b l =>
    cases b <;> simp [tc, uv, pow_succ]
    ring

theorem tc_cons_same (b : Bool) (l : List Bool) : tc (b :: b :: l) = tc (b :: l) := by
  cases b <;> simp [tc, uv, pow_succ]
  ring

theorem tc_replicate (n : Nat) (l : List Bool) (h : l ≠ []) :
    tc (List.replicate n (l.headD false) ++ l) = tc l := by
  obtain ⟨b, l, rfl⟩ := List.exists_cons_of_ne_nil h
  induction n with
  | zero => rfl
  | succ n ih =>
    simp only [List.replicate_succ, List.cons_append, List.headD_cons] at ih ⊢
    cases n with
    | zero => simpa using tc_cons_same b l
    | succ n =>
      simp only [List.replicate_succ, List.cons_append] at ih ⊢
      rw [tc_cons_same, ih]

theorem tc_zcons (l : List Bool) : tc (false :: l) = uv l := by simp [tc]

/-- Sign and range. -/
theorem tc_head (l : List Bool) (h : l ≠ []) : l.headD false = true ↔ tc l < 0 := by
  obtain ⟨b, l, rfl⟩ := List.exists_cons_of_ne_nil h
  have := uv_lt l
  have h2 : ((uv l : Nat) : Int) < 2^l.length := by exact_mod_cast this
  cases b <;> simp [tc]
  omega

theorem tc_nonneg_uv (l : List Bool) (h : 0 ≤ tc l) : tc l = uv l := by
  by_cases hl : l = []
  · subst hl; rfl
  · have := tc_head l hl
    rw [tc_eq l hl]
    have : ¬ (l.headD false = true) := by rw [this]; omega
    rw [if_neg this]; simp

theorem tc_bounds (b : Bool) (l : List Bool) : -(2:Int)^l.length ≤ tc (b :: l) ∧ tc (b :: l) < 2^l.length := by
  have := uv_lt l
  have h2 : ((uv l : Nat) : Int) < 2^l.length := by exact_mod_cast this
  have h3 : (0:Int) < 2^l.length := by positivity
  cases b <;> simp [tc] <;> omega

/-! ### bits -/

@[simp] theorem bits_nil (ρ : Env) : bits ([] : List F) ρ = [] := rfl
@[simp] theorem bits_cons (a : F) (l : List F) (ρ : Env) : bits (a :: l) ρ = den a ρ :: bits l ρ := rfl
@[simp] theorem bits_append (l m : List F) (ρ : Env) : bits (l ++ m) ρ = bits l ρ ++ bits m ρ := by simp [bits]
@[simp] theorem bits_length (l : List F) (ρ : Env) : (bits l ρ).length = l.length := by simp [bits]
@[simp] theorem bits_replicate (n : Nat) (a : F) (ρ : Env) :
    bits (List.replicate n a) ρ = List.replicate n (den a ρ) := by simp [bits]
theorem bits_ne_nil {l : List F} (h : l ≠ []) (ρ : Env) : bits l ρ ≠ [] := by simpa [bits] using h
theorem bits_headD (l : List F) (ρ : Env) : (bits l ρ).headD false = den (l.headD zero) ρ := by
  cases l <;> simp [bits, den_zero]

theorem head_neg (l : List F) (h : l ≠ []) (ρ : Env) : den (l.headD zero) ρ = true ↔ sv l ρ < 0 := by
  rw [← bits_headD]; exact tc_head _ (bits_ne_nil h ρ)

/-! ### trim, sx2, zx2 -/

theorem trim_ne_nil : ∀ (l : List F), l ≠ [] → trim l ≠ []
  | [], h => absurd rfl h
  | [a], _ => by simp [trim]
  | a :: b :: l, _ => by
    unfold trim
    split
    · exact trim_ne_nil (b :: l) (by simp)
    · simp

@[simp] theorem trim_nil : trim ([] : List F) = [] := by simp [trim]

theorem sv_trim (ρ : Env) : ∀ (l : List F), sv (trim l) ρ = sv l ρ
  | [] => by simp [trim]
  | [a] => by simp [trim]
  | a :: b :: l => by
    unfold trim
    split
    · rename_i h
      rw [sv_trim ρ (b :: l)]
      have := eqb_sound a b h ρ
      simp only [sv, bits_cons, this]
      exact (tc_cons_same _ _).symm
    · rfl

theorem trimmed_trim : ∀ (l : List F), Trimmed (trim l)
  | [] => by simp [trim, Trimmed]
  | [a] => by simp [trim, Trimmed]
  | a :: b :: l => by
    unfold trim
    split
    · exact trimmed_trim (b :: l)
    · rename_i h
      simpa [Trimmed] using h

theorem trim_trimmed : ∀ (l : List F), Trimmed l → trim l = l
  | [], _ => by simp [trim]
  | [a], _ => by simp [trim]
  | a :: b :: l, h => by
    unfold trim
    simp only [Trimmed] at h
    simp [h]

theorem trim_trim (l : List F) : trim (trim l) = trim l := trim_trimmed _ (trimmed_trim l)

theorem sxTo_ne_nil {n : Nat} {l : List F} (h : l ≠ []) : sxTo n l ≠ [] := by
  simp [sxTo, h]
theorem sxTo_length (n : Nat) (l : List F) : (sxTo n l).length = max n l.length := by
  simp [sxTo]; omega
theorem sv_sxTo (n : Nat) (l : List F) (h : l ≠ []) (ρ : Env) : sv (sxTo n l) ρ = sv l ρ := by
  unfold sxTo sv
  rw [bits_append, bits_replicate, ← bits_headD]
  exact tc_replicate _ _ (bits_ne_nil h ρ)

theorem zxTo_length (n : Nat) (l : List F) : (zxTo n l).length = max n l.length := by
  simp [zxTo]; omega
theorem zxTo_ne_nil {n : Nat} {l : List F} (h : l ≠ []) : zxTo n l ≠ [] := by
  simp [zxTo, h]
theorem uv_zxTo (n : Nat) (l : List F) (ρ : Env) : uv (bits (zxTo n l) ρ) = uv (bits l ρ) := by
  unfold zxTo
  rw [bits_append, bits_replicate, den_zero, uv_append, uv_replicate_false]
  simp
theorem sv_zxTo (n : Nat) (l : List F) (h : l ≠ []) (ρ : Env) (hp : 0 ≤ sv l ρ) : sv (zxTo n l) ρ = sv l ρ := by
  have hh : den (l.headD zero) ρ = false := by
    have := head_neg l h ρ
    cases hd : den (l.headD zero) ρ
    · rfl
    · rw [hd] at this; have := this.mp rfl; omega
  rw [← sv_sxTo n l h ρ]
  unfold zxTo sxTo sv
  rw [bits_append, bits_append, bits_replicate, bits_replicate, den_zero, hh]

/-! ### addition -/

theorem addRec_length (neg : Bool) : ∀ (l1 l2 : List F), l1.length = l2.length →
    (addRec neg l1 l2).1.length = l1.length
  | [], [], _ => by simp [addRec]
  | a :: l1, b :: l2, h => by
    simp only [addRec, List.length_cons]
    rw [addRec_length neg l1 l2 (by simpa using h)]
  | [], _ :: _, h => by simp at h
  | _ :: _, [], h => by simp at h

/-- The ripple carry chain computes the sum (or `l1 - l2 + 2^n`). -/
theorem addRec_spec (neg : Bool) (ρ : Env) : ∀ (l1 l2 : List F), l1.length = l2.length →
    (uv (bits (addRec neg l1 l2).1 ρ) : Int) + (if den (addRec neg l1 l2).2 ρ then 2^l1.length else 0) =
    if neg then (uv (bits l1 ρ) : Int) - uv (bits l2 ρ) + 2^l1.length else uv (bits l1 ρ) + uv (bits l2 ρ)
  | [], [], _ => by cases neg <;> simp [addRec, uv, den_zero, den_one]
  | a :: l1, b :: l2, h => by
    have hl : l1.length = l2.length := by simpa using h
    have ih := addRec_spec neg ρ l1 l2 hl
    have hlen := addRec_length neg l1 l2 hl
    obtain ⟨rem, cin, e⟩ : ∃ rem cin, addRec neg l1 l2 = (rem, cin) := ⟨_, _, rfl⟩
    simp only [addRec, e] at ih hlen ⊢
    simp only [bits_cons, uv, den_xor, den_or, den_and, bits_length, hlen, List.length_cons, ← hl, pow_succ]
    cases neg <;> simp only [Bool.false_eq_true, if_false, if_true, den_not] at ih ⊢ <;>
      cases den a ρ <;> cases den b ρ <;> cases hc : den cin ρ <;> simp [hc] at ih ⊢ <;> omega
  | [], _ :: _, h => by simp at h
  | _ :: _, [], h => by simp at h

theorem addRec_ne_nil (neg : Bool) (a b : F) (l1 l2 : List F) : (addRec neg (a :: l1) (b :: l2)).1 ≠ [] := by
  simp [addRec]

theorem sv_eq (l : List F) (h : l ≠ []) (ρ : Env) :
    sv l ρ = uv (bits l ρ) - (if den (l.headD zero) ρ then (2:Int)^l.length else 0) := by
  unfold sv
  rw [tc_eq _ (bits_ne_nil h ρ), bits_headD, bits_length]

theorem genAdd_ne_nil (neg : Bool) (l1 l2 : List F) : genAdd neg l1 l2 ≠ [] :=
  trim_ne_nil _ (addRec_ne_nil _ _ _ _ _)

/-- A list whose unsigned value is congruent to a small number has that two's complement value. -/
theorem tc_of_mod (l : List Bool) (n : Nat) (z : Int) (k : Int) (hn : l.length = n + 1)
    (h : (uv l : Int) = z + k * 2^(n+1)) (h1 : -(2:Int)^n ≤ z) (h2 : z < 2^n) : tc l = z := by
  obtain ⟨b, l, rfl⟩ := List.exists_cons_of_ne_nil (l := l) (by intro h; simp [h] at hn)
  have hb := tc_bounds b l
  have hl : l.length = n := by simpa using hn
  have he := tc_eq (b :: l) (by simp)
  rw [hl] at hb
  simp only [List.length_cons, hl, List.headD_cons] at he
  have hp : (0:Int) < 2^n := by positivity
  rw [pow_succ] at he h
  cases b
  · simp at he
    have hk : -1 < k ∧ k < 1 := by constructor <;> nlinarith
    have : k = 0 := by omega
    subst this
    omega
  · simp at he
    have hk : 0 < k ∧ k < 2 := by constructor <;> nlinarith
    have : k = 1 := by omega
    subst this
    omega

theorem sv_genAdd (neg : Bool) (l1 l2 : List F) (h : l1.length = l2.length) (h1 : l1 ≠ []) (ρ : Env) :
    sv (genAdd neg l1 l2) ρ = if neg then sv l1 ρ - sv l2 ρ else sv l1 ρ + sv l2 ρ := by
  obtain ⟨a, l1, rfl⟩ := List.exists_cons_of_ne_nil h1
  obtain ⟨b, l2, rfl⟩ := List.exists_cons_of_ne_nil (l := l2) (by intro hh; simp [hh] at h)
  unfold genAdd
  rw [sv_trim]
  simp only [List.headD_cons]
  have hs := addRec_spec neg ρ (a :: a :: l1) (b :: b :: l2) (by simpa using h)
  have hlen := addRec_length neg (a :: a :: l1) (b :: b :: l2) (by simpa using h)
  have hl : l1.length = l2.length := by simpa using h
  have e1 : sv (a :: l1) ρ = sv (a :: a :: l1) ρ := (tc_cons_same _ _).symm
  have e2 : sv (b :: l2) ρ = sv (b :: b :: l2) ρ := (tc_cons_same _ _).symm
  have v1 := sv_eq (a :: a :: l1) (by simp) ρ
  have v2 := sv_eq (b :: b :: l2) (by simp) ρ
  have b1 := tc_bounds (den a ρ) (bits l1 ρ)
  have b2 := tc_bounds (den b ρ) (bits l2 ρ)
  rw [← bits_cons, bits_length] at b1 b2
  change _ ≤ sv (a :: l1) ρ ∧ sv (a :: l1) ρ < _ at b1
  change _ ≤ sv (b :: l2) ρ ∧ sv (b :: l2) ρ < _ at b2
  rw [← hl] at b2
  rw [e1] at b1 ⊢
  rw [e2] at b2 ⊢
  simp only [List.length_cons, List.headD_cons, ← hl] at v1 v2 hs hlen
  have p2 : (2:Int)^(l1.length+1) = 2^l1.length * 2 := pow_succ _ _
  have p3 : (2:Int)^(l1.length+1+1) = 2^l1.length * 2 * 2 := by rw [pow_succ, pow_succ]
  set S := sv (a :: a :: l1) ρ
  set T := sv (b :: b :: l2) ρ
  set k : Int := (if den a ρ then 1 else 0) + (if neg then 1 - (if den b ρ then 1 else 0) else (if den b ρ then 1 else 0))
      - (if den (addRec neg (a :: a :: l1) (b :: b :: l2)).2 ρ then 1 else 0) with hk
  refine tc_of_mod _ (l1.length + 1) _ k (by rw [bits_length, hlen]) ?_ ?_ ?_
  · rw [hk, p3]
    rw [p3] at hs v1 v2
    cases neg <;> cases hda : den a ρ <;> cases hdb : den b ρ <;>
      cases hc : den (addRec _ (a :: a :: l1) (b :: b :: l2)).2 ρ <;>
      simp only [hda, hdb, hc, if_true, if_false, Bool.false_eq_true] at hs v1 v2 ⊢ <;> omega
  · cases neg <;> simp only [if_true, if_false, Bool.false_eq_true] <;> omega
  · cases neg <;> simp only [if_true, if_false, Bool.false_eq_true] <;> omega

end Voss.Bv
