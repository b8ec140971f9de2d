import Verif.Bv.DivLemmas
import Verif.Bv.BitLemmas
import Verif.Bv.ConvLemmas
/-
Property theorems C08-C13: symbolic bit-vectors.

`sv l ρ` is the two's complement value of the bit-vector `l` under the variable assignment `ρ`.  All
theorems hold for any Boolean function package `F` with the laws of `Fml` (`Canon` where handles are compared), so for every symbolic content.
-/
namespace Voss.Bv
variable {F Env : Type} [Fml F Env]
open Fml
open Voss.Arbi (W Res val Norm ibit FloorDiv)

theorem guard2_ne {α : Type} (l1 l2 : List F) (h1 : l1 ≠ []) (h2 : l2 ≠ []) (x : α) : guard2 l1 l2 x = some x := by
  have e1 : l1.isEmpty = false := by cases l1 <;> simp at h1 ⊢
  have e2 : l2.isEmpty = false := by cases l2 <;> simp at h2 ⊢
  simp [guard2, e1, e2]

/-! ### Two concrete function packages, for the examples -/

/-- Constants only. -/
instance : Canon Bool Unit where
  den b _ := b
  zero := false
  one := true
  not b := !b
  and a b := a && b
  or a b := a || b
  xor a b := a ^^ b
  xnor a b := a == b
  ite c a b := if c then a else b
  eqb a b := a == b
  den_zero _ := rfl
  den_one _ := rfl
  den_not _ _ := rfl
  den_and _ _ _ := rfl
  den_or _ _ _ := rfl
  den_xor _ _ _ := rfl
  den_xnor _ _ _ := rfl
  den_ite _ _ _ _ := rfl
  eqb_refl a := by simp
  eqb_sound a b h _ := by simpa using h
  eqb_complete a b h := by simpa using h

/-- Functions of one Boolean variable `v`, as truth tables (value at 0, value at 1). -/
structure Tab where
  f0 : Bool
  f1 : Bool
deriving DecidableEq

instance : Canon Tab Bool where
  den t ρ := if ρ then t.f1 else t.f0
  zero := ⟨false, false⟩
  one := ⟨true, true⟩
  not a := ⟨!a.f0, !a.f1⟩
  and a b := ⟨a.f0 && b.f0, a.f1 && b.f1⟩
  or a b := ⟨a.f0 || b.f0, a.f1 || b.f1⟩
  xor a b := ⟨a.f0 ^^ b.f0, a.f1 ^^ b.f1⟩
  xnor a b := ⟨a.f0 == b.f0, a.f1 == b.f1⟩
  ite c a b := ⟨if c.f0 then a.f0 else b.f0, if c.f1 then a.f1 else b.f1⟩
  eqb a b := a == b
  den_zero ρ := by cases ρ <;> rfl
  den_one ρ := by cases ρ <;> rfl
  den_not _ ρ := by cases ρ <;> rfl
  den_and _ _ ρ := by cases ρ <;> rfl
  den_or _ _ ρ := by cases ρ <;> rfl
  den_xor _ _ ρ := by cases ρ <;> rfl
  den_xnor _ _ ρ := by cases ρ <;> rfl
  den_ite _ _ _ ρ := by cases ρ <;> rfl
  eqb_refl a := by simp
  eqb_sound a b h ρ := by rw [eq_of_beq h]
  eqb_complete a b h := by
    rw [beq_iff_eq]
    have h0 := h false
    have h1 := h true
    cases a; cases b
    simp at h0 h1
    simp [h0, h1]

/-- The variable, and `1 0 v`: -4 or -3. -/
def tv : Tab := ⟨false, true⟩
def t10v : List Tab := [one, zero, tv]

/-! ### C08 -/

/-- C08: the sum and the difference of two bit-vectors of any widths have, under every assignment, the
sum and the difference of their values; the result is canonical. -/
theorem c08_add_sub (a b : List F) (ha : a ≠ []) (hb : b ≠ []) :
    (∃ r, bvAdd a b = some r ∧ Trimmed r ∧ ∀ ρ : Env, sv r ρ = sv a ρ + sv b ρ) ∧
    (∃ r, bvSub a b = some r ∧ Trimmed r ∧ ∀ ρ : Env, sv r ρ = sv a ρ - sv b ρ) := by
  have e1 := fun ρ : Env => sv_sxTo b.length a ha ρ
  have e2 := fun ρ : Env => sv_sxTo a.length b hb ρ
  have hl := sx2_length a b
  refine ⟨⟨_, guard2_ne a b ha hb _, trimmed_trim _, fun ρ => ?_⟩, ⟨_, guard2_ne a b ha hb _, trimmed_trim _, fun ρ => ?_⟩⟩
  · rw [sv_trim, sv_genAdd false _ _ hl (by exact sxTo_ne_nil ha)]
    simp only [sx2, e1, e2, Bool.false_eq_true, if_false]
  · rw [sv_trim, sv_genAdd true _ _ hl (by exact sxTo_ne_nil ha)]
    simp only [sx2, e1, e2, if_true]

/-- -4+v + 3 has one bit more than either operand would allow unsigned, and is -1 or 0. -/
example : bvAdd t10v [zero, one, one] = some [⟨true, false⟩] ∧ sv t10v true = -3 ∧ sv t10v false = -4 := by decide
/-- -4 - 3 needs a fourth bit. -/
example : bvSub [true, false, false] [false, true, true] = some [true, false, false, true] := by decide

/-! ### C09 -/

section
attribute [local irreducible] absList mult negate iteList

theorem mulMag (x y : List F) (hx : x ≠ []) (hy : y ≠ []) (ρ : Env) :
    sv (zero :: mult (absList x) (absList y)) ρ = |sv x ρ| * |sv y ρ| := by
  have h1 := sv_absList x hx ρ
  have h2 := sv_absList y hy ρ
  have u1 : sv (absList x) ρ = uv (bits (absList x) ρ) := tc_nonneg_uv _ (by change 0 ≤ sv (absList x) ρ; rw [h1]; exact abs_nonneg _)
  have u2 : sv (absList y) ρ = uv (bits (absList y) ρ) := tc_nonneg_uv _ (by change 0 ≤ sv (absList y) ρ; rw [h2]; exact abs_nonneg _)
  have hm := sv_mult (absList x) ρ (absList y)
  rw [← u1, ← u2, h1, h2] at hm
  have hm0 : 0 ≤ sv (mult (absList x) (absList y)) ρ := by rw [hm]; exact mul_nonneg (abs_nonneg _) (abs_nonneg _)
  rw [← hm]
  generalize mult (absList x) (absList y) = M at *
  unfold sv
  rw [bits_cons, den_zero, tc_zcons]
  exact (tc_nonneg_uv _ hm0).symm

/-- C09: the product has the product of the values, for all signs and the most negative values. -/
theorem c09_mul (a b : List F) (ha : a ≠ []) (hb : b ≠ []) :
    ∃ r, bvMul a b = some r ∧ Trimmed r ∧ ∀ ρ : Env, sv r ρ = sv a ρ * sv b ρ := by
  unfold bvMul
  generalize hp : (if a.length < b.length then (b, a) else (a, b)) = p
  obtain ⟨x, y⟩ := p
  have hxy : x ≠ [] ∧ y ≠ [] ∧ ∀ ρ : Env, sv a ρ * sv b ρ = sv x ρ * sv y ρ := by
    split at hp <;> (simp only [Prod.mk.injEq] at hp; obtain ⟨rfl, rfl⟩ := hp)
    · exact ⟨hb, ha, fun ρ => mul_comm _ _⟩
    · exact ⟨ha, hb, fun ρ => rfl⟩
  obtain ⟨hx, hy, hxy⟩ := hxy
  refine ⟨_, guard2_ne a b ha hb _, trimmed_trim _, fun ρ => ?_⟩
  rw [hxy, sv_trim]
  have nM : (zero :: mult (absList x) (absList y)) ≠ [] := by simp
  have hM : sv (zero :: mult (absList x) (absList y)) ρ = |sv x ρ| * |sv y ρ| := mulMag x y hx hy ρ
  generalize zero :: mult (absList x) (absList y) = M at *
  have v1 := sv_sxTo (negate M).length _ nM ρ
  have v2 := sv_sxTo M.length _ (negate_ne_nil M) ρ
  simp only [sx2]
  rw [sv_iteList _ _ _ (sxTo_ne_nil (negate_ne_nil _)) (sxTo_ne_nil nM), v1, v2, sv_negate _ nM, hM, den_xor]
  have s1 := head_neg x hx ρ
  have s2 := head_neg y hy ρ
  rcases lt_or_ge (sv x ρ) 0 with h1 | h1 <;> rcases lt_or_ge (sv y ρ) 0 with h2 | h2
  · rw [s1.mpr h1, s2.mpr h2, abs_of_neg h1, abs_of_neg h2]; simp
  · have s2' : den (y.headD zero) ρ = false := by rw [← Bool.not_eq_true, s2]; omega
    rw [s1.mpr h1, s2', abs_of_neg h1, abs_of_nonneg h2]; simp
  · have s1' : den (x.headD zero) ρ = false := by rw [← Bool.not_eq_true, s1]; omega
    rw [s1', s2.mpr h2, abs_of_nonneg h1, abs_of_neg h2]; simp
  · have s1' : den (x.headD zero) ρ = false := by rw [← Bool.not_eq_true, s1]; omega
    have s2' : den (y.headD zero) ρ = false := by rw [← Bool.not_eq_true, s2]; omega
    rw [s1', s2', abs_of_nonneg h1, abs_of_nonneg h2]; simp

end

/-- (-4) * (-4), the most negative three bit value. -/
example : bvMul [true, false, false] [true, false, false] = some [false, true, false, false, false, false] := by decide
example : bvMul t10v t10v = some [zero, ⟨true, false⟩, tv, zero, zero, tv] := by decide

/-! ### C10 -/

/-- C10: quotient and remainder are the floor quotient and remainder under every assignment that makes
the divisor nonzero, whatever path the code takes. -/
theorem c10_div_mod (a b : List F) (ha : a ≠ []) (hb : b ≠ []) :
    ∃ q r, bvDiv a b = some q ∧ bvMod a b = some r ∧ Trimmed q ∧ Trimmed r ∧
      ∀ ρ : Env, sv b ρ ≠ 0 → FloorDiv (sv a ρ) (sv b ρ) (sv q ρ) (sv r ρ) := by
  have hs := (signedDiv_spec a b ha hb).2.2
  unfold bvDiv bvMod
  generalize signedDiv a b = p at *
  refine ⟨trim p.1, trim p.2, guard2_ne a b ha hb _, guard2_ne a b ha hb _, trimmed_trim _, trimmed_trim _, fun ρ h => ?_⟩
  rw [sv_trim, sv_trim]
  exact hs ρ h

/-- The floor quotient and remainder are unique, so this determines the results. -/
theorem c10_unique (x y q r q' r' : Int) (hy : y ≠ 0) (h : FloorDiv x y q r) (h' : FloorDiv x y q' r') :
    q = q' ∧ r = r' := by
  obtain ⟨h1, h2, h3⟩ := h
  obtain ⟨g1, g2, g3⟩ := h'
  have key : q = q' := by
    have e : (q - q') * y = r' - r := by
      have e1 : q * y + r = q' * y + r' := by rw [← h1, ← g1]
      have e2 : (q - q') * y = q * y - q' * y := by ring
      omega
    rcases lt_or_gt_of_ne hy with hy | hy
    · have := h3 hy; have := g3 hy
      have c1 : q - q' < 1 := by nlinarith
      have c2 : -1 < q - q' := by nlinarith
      omega
    · have := h2 hy; have := g2 hy
      have c1 : q - q' < 1 := by nlinarith
      have c2 : -1 < q - q' := by nlinarith
      omega
  subst key
  exact ⟨rfl, by omega⟩

/-- -7 divided by 2 (the power of two path) and by 3 (long division). -/
example : bvDiv [true, false, false, true] [false, true, false] = some [true, false, false] ∧
    bvMod [true, false, false, true] [false, true, false] = some [false, true] ∧
    bvDiv [true, false, false, true] [false, true, true] = some [true, false, true] ∧
    bvMod [true, false, false, true] [false, true, true] = some [false, true, false] := by decide

/-! ### C11 -/

/-- C11: the comparisons and the (symbolic and strict) equality are those of the values, for operands of
different widths too. -/
theorem c11_compare {F Env : Type} [Canon F Env] (a b : List F) (ha : a ≠ []) (hb : b ≠ []) :
    (∃ f, bvLess a b = some f ∧ ∀ ρ : Env, den f ρ = decide (sv a ρ < sv b ρ)) ∧
    (∃ f, bvLeq a b = some f ∧ ∀ ρ : Env, den f ρ = decide (sv a ρ ≤ sv b ρ)) ∧
    (∃ f, bvGreater a b = some f ∧ ∀ ρ : Env, den f ρ = decide (sv a ρ > sv b ρ)) ∧
    (∃ f, bvGeq a b = some f ∧ ∀ ρ : Env, den f ρ = decide (sv a ρ ≥ sv b ρ)) ∧
    (∃ f, bvEq a b = some f ∧ ∀ ρ : Env, den f ρ = decide (sv a ρ = sv b ρ)) ∧
    (∃ c, bvIdentical a b = some c ∧ (c = true ↔ ∀ ρ : Env, sv a ρ = sv b ρ)) := by
  refine ⟨⟨_, guard2_ne a b ha hb _, fun ρ => den_less a b ha hb ρ⟩, ⟨_, guard2_ne a b ha hb _, fun ρ => ?_⟩,
    ⟨_, guard2_ne a b ha hb _, fun ρ => den_less b a hb ha ρ⟩, ⟨_, guard2_ne a b ha hb _, fun ρ => ?_⟩, ?_, ?_⟩
  · rw [den_not, den_less b a hb ha ρ, ← decide_not, decide_eq_decide]; omega
  · rw [den_not, den_less a b ha hb ρ, ← decide_not, decide_eq_decide]; omega
  · unfold bvEq
    split
    rename_i s t hst
    refine ⟨_, guard2_ne a b ha hb _, fun ρ => ?_⟩
    split at hst <;> (simp only [Prod.mk.injEq] at hst; obtain ⟨rfl, rfl⟩ := hst)
    · rw [eq_core _ _ hb (by omega) ρ, decide_eq_decide]; exact eq_comm
    · rw [eq_core _ _ ha (by omega) ρ]
  · unfold bvIdentical
    split
    rename_i s t hst
    refine ⟨_, guard2_ne a b ha hb _, ?_⟩
    split at hst <;> (simp only [Prod.mk.injEq] at hst; obtain ⟨rfl, rfl⟩ := hst)
    · rw [identical_core _ _ hb (by omega)]
      exact ⟨fun h ρ => (h ρ).symm, fun h ρ => (h ρ).symm⟩
    · exact identical_core _ _ ha (by omega)

/-- -3 or -4 compared with -3 of another width: equal exactly when `v`. -/
example : bvEq t10v [one, one, one, zero, one] = some tv ∧ bvLess t10v [one, zero, one] = some ⟨true, false⟩ := by decide

/-! ### C12 -/

/-- C12: `int2bv` gives a constant canonical bit-vector denoting the integer, `bv2int` gives the value of
every constant bit-vector and fails on every other, and `bv2int (int2bv n) = n`.  Integers up to 2^21
digits of 64 bits, bit-vectors up to 2^33 bits (the limits of the integer package). -/
theorem c12_int_conv {F Env : Type} [Canon F Env] :
    (∀ x : List W, Norm x → x.length ≤ 2^21 → ∃ l : List F, (∃ N, ∀ fuel, N ≤ fuel → int2bv fuel x = some (.ok l)) ∧
      Trimmed l ∧ isScalar l = true ∧ (∀ ρ : Env, sv l ρ = val x) ∧ (Nonempty Env → bv2int l = some (.ok (.ok x)))) ∧
    (∀ l : List F, l ≠ [] → isScalar l = true → l.length < 2^33 → ∀ ρ : Env,
      ∃ r, bv2int l = some (.ok (.ok r)) ∧ Norm r ∧ val r = sv l ρ) ∧
    (∀ l : List F, isScalar l = false → bv2int l = some (.error "bv2int of symbolic bitvector")) := by
  refine ⟨?_, fun l hne hs hl ρ => bv2int_spec l hne hs hl ρ, fun l h => by simp [bv2int, h]⟩
  intro x hx hl
  obtain ⟨l, h1, h2, h3, h4, h5, h6⟩ := int2bv_spec (F := F) x hx hl
  refine ⟨l, h1, h3, h4, h6, ?_⟩
  rintro ⟨ρ⟩
  have hb := Arbi.val_bounds x hx.ne_nil
  have hlp : 0 < x.length := List.length_pos_iff.mpr hx.ne_nil
  have hn : (val x).natAbs < 2^(64 * x.length) := by
    have e : (2:Int)^(64 * x.length) = 2^(64 * x.length - 1) * 2 := by rw [← pow_succ]; congr 1; omega
    have hp : (0:Int) < 2^(64 * x.length - 1) := by positivity
    have : ((val x).natAbs : Int) < 2^(64 * x.length) := by omega
    exact_mod_cast this
  have hlen := numeral_length_le _ _ hn (by omega)
  obtain ⟨r, r1, r2, r3⟩ := bv2int_spec l h2 h4 (by omega) ρ
  rw [r1, Arbi.norm_ext r x r2 hx (by rw [r3, h6])]

/-- A bit-vector is scalar exactly when every bit is a constant function. -/
theorem c12_scalar_iff {F Env : Type} [Canon F Env] (l : List F) : isScalar l = true ↔
    ∀ f ∈ l, (∀ ρ : Env, den f ρ = true) ∨ (∀ ρ : Env, den f ρ = false) := by
  unfold isScalar isSymbolic
  rw [List.all_eq_true]
  apply forall₂_congr
  intro f _
  have h1 := eqb_iff f (one : F)
  have h0 := eqb_iff f (zero : F)
  simp only [den_one, den_zero] at h1 h0
  rw [← h1, ← h0]
  cases eqb f (one : F) <;> cases eqb f (zero : F) <;> simp

example : int2bv 10 [-6#64] = some (.ok [true, false, true, false]) ∧
    bv2int [true, false, true, false] = some (.ok (.ok [-6#64])) := by decide +kernel

/-! ### C13 -/

/-- C13: arithmetic shift right is floor division by a power of two (a negative amount is an error),
complement is `-a-1`, zero extension reads the bits as unsigned, the bitwise operators act on every bit
of the infinite two's complement expansion, and canonicalisation does not change the value. -/
theorem c13_shift_bits (a : List F) (ha : a ≠ []) :
    (∀ n : Nat, ∃ r, bvAshr a n = some (.ok r) ∧ ∀ ρ : Env, sv r ρ = sv a ρ / 2^n) ∧
    (∀ n : Int, n < 0 → ∃ msg, bvAshr a n = some (.error msg)) ∧
    (∀ ρ : Env, sv (bvNOT a) ρ = - sv a ρ - 1) ∧
    (∀ ρ : Env, sv (bvZX a) ρ = uv (bits a ρ)) ∧
    (∀ ρ : Env, sv (list2bv a) ρ = sv a ρ) ∧
    Trimmed (list2bv a) ∧ Trimmed (bvNOT a) ∧ Trimmed (bvZX a) := by
  refine ⟨?_, ?_, ?_, ?_, fun ρ => sv_trim ρ a, trimmed_trim _, trimmed_trim _, trimmed_trim _⟩
  · intro n
    have e : a.isEmpty = false := by cases a <;> simp at ha ⊢
    by_cases h0 : n = 0
    · subst h0
      exact ⟨a, by simp [bvAshr], by simp⟩
    · have h1 : ¬ (n : Int) < 0 := by omega
      have h2 : ¬ (n : Int) = 0 := by omega
      unfold bvAshr
      rw [if_neg h1, if_neg h2]
      by_cases h3 : (n : Int) ≥ a.length
      · rw [if_pos h3, e]
        exact ⟨_, rfl, fun ρ => by rw [sv_trim]; exact sv_msb a n (by omega) ha ρ⟩
      · rw [if_neg h3]
        exact ⟨_, rfl, fun ρ => by rw [sv_trim]; exact sv_take a n (by omega) ρ⟩
  · intro n hn
    exact ⟨_, by unfold bvAshr; rw [if_pos hn]⟩
  · intro ρ; unfold bvNOT; rw [sv_trim, sv_map_not a ha]
  · intro ρ
    unfold bvZX
    rw [sv_trim, sv_trim]
    simp [sv, tc, den_zero]

/-- C13, the binary bitwise operators. -/
theorem c13_bitwise (a b : List F) (ha : a ≠ []) (hb : b ≠ []) :
    (∃ r, bvAND a b = some r ∧ Trimmed r ∧ ∀ (ρ : Env) i, ibit (sv r ρ) i = (ibit (sv a ρ) i && ibit (sv b ρ) i)) ∧
    (∃ r, bvOR a b = some r ∧ Trimmed r ∧ ∀ (ρ : Env) i, ibit (sv r ρ) i = (ibit (sv a ρ) i || ibit (sv b ρ) i)) ∧
    (∃ r, bvXOR a b = some r ∧ Trimmed r ∧ ∀ (ρ : Env) i, ibit (sv r ρ) i = (ibit (sv a ρ) i ^^ ibit (sv b ρ) i)) ∧
    (∃ r, bvXNOR a b = some r ∧ Trimmed r ∧ ∀ (ρ : Env) i, ibit (sv r ρ) i = (ibit (sv a ρ) i == ibit (sv b ρ) i)) :=
  ⟨bitwise_spec _ _ den_and a b ha hb, bitwise_spec _ _ den_or a b ha hb, bitwise_spec _ _ den_xor a b ha hb,
    bitwise_spec _ _ den_xnor a b ha hb⟩

example : bvAshr [true, false, false, true] 1 = some (.ok [true, false, false]) ∧
    bvXOR t10v [zero, one] = some [one, zero, ⟨true, false⟩] ∧ bvNOT t10v = [zero, one, ⟨true, false⟩] := by decide

/-- The empty list is accepted by `list2bv` but every arithmetic use of the result is undefined
behaviour (head of an empty list). -/
theorem c13_empty_ub : list2bv ([] : List Bool) = [] ∧ bvAdd ([] : List Bool) [true] = none ∧
    bv2int ([] : List Bool) = none ∧ bvEq ([] : List Bool) [true] = none := by decide

end Voss.Bv
