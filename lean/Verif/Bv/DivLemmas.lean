import Verif.Bv.OpLemmas
import Mathlib.Data.List.TakeWhile
/-
Helper lemmas for bit-vectors: division.
-/
namespace Voss.Bv
variable {F Env : Type} [Fml F Env]
open Fml

theorem subBuf_length : ∀ (l1 l2 : List F), l1.length = l2.length → (subBuf l1 l2).1.length = l1.length
  | [], [], _ => by simp [subBuf]
  | a :: l1, b :: l2, h => by
    simp only [subBuf, List.length_cons]
    rw [subBuf_length l1 l2 (by simpa using h)]
  | [], _ :: _, h => by simp at h
  | _ :: _, [], h => by simp at h

theorem subBuf_spec (ρ : Env) : ∀ (l1 l2 : List F), l1.length = l2.length →
    (uv (bits (subBuf l1 l2).1 ρ) : Int) + (if den (subBuf l1 l2).2 ρ then 2^l1.length else 0) =
    (uv (bits l1 ρ) : Int) - uv (bits l2 ρ) + 2^l1.length
  | [], [], _ => by simp [subBuf, uv, den_one]
  | a :: l1, b :: l2, h => by
    have hl : l1.length = l2.length := by simpa using h
    have ih := subBuf_spec ρ l1 l2 hl
    have hlen := subBuf_length l1 l2 hl
    obtain ⟨rem, cin, e⟩ : ∃ rem cin, subBuf l1 l2 = (rem, cin) := ⟨_, _, rfl⟩
    simp only [subBuf, e] at ih hlen ⊢
    simp only [bits_cons, uv, den_xor, den_or, den_and, den_not, bits_length, hlen, List.length_cons, ← hl, pow_succ]
    cases den a ρ <;> cases den b ρ <;> cases hc : den cin ρ <;> simp [hc] at ih ⊢ <;> omega
  | [], _ :: _, h => by simp at h
  | _ :: _, [], h => by simp at h

theorem den_geqBuf (ρ : Env) : ∀ (l1 l2 : List F), l1.length = l2.length →
    den (geqBuf l1 l2) ρ = decide (uv (bits l2 ρ) ≤ uv (bits l1 ρ))
  | [], [], _ => by simp [geqBuf, den_one]
  | a :: l1, b :: l2, h => by
    have hl : l1.length = l2.length := by simpa using h
    have ih := den_geqBuf ρ l1 l2 hl
    have u1 := uv_lt (bits l1 ρ)
    have u2 := uv_lt (bits l2 ρ)
    rw [bits_length] at u1 u2
    simp only [geqBuf, den_or, den_and, den_not, den_xnor, ih, bits_cons, uv, bits_length, ← hl] at *
    cases den a ρ <;> cases den b ρ <;> simp <;> omega
  | [], _ :: _, h => by simp at h
  | _ :: _, [], h => by simp at h

theorem uv_shift (l : List Bool) (b : Bool) (hl : l ≠ []) (h : 2 * uv l < 2^l.length) :
    uv (l.drop 1 ++ [b]) = 2 * uv l + (if b then 1 else 0) := by
  obtain ⟨a, l, rfl⟩ := List.exists_cons_of_ne_nil hl
  rw [uv_snoc]
  simp only [List.drop_succ_cons, List.drop_zero]
  cases a
  · simp [uv]
  · simp only [uv, List.length_cons, pow_succ, if_true] at h; omega

theorem bits_drop (l : List F) (n : Nat) (ρ : Env) : bits (l.drop n) ρ = (bits l ρ).drop n := by
  simp [bits, List.map_drop]
theorem bits_take (l : List F) (n : Nat) (ρ : Env) : bits (l.take n) ρ = (bits l ρ).take n := by
  simp [bits, List.map_take]

theorem divStep_spec (ρ : Env) (bb q r : List F) (a : F) (hb : bb ≠ []) (hq : q.length = bb.length)
    (hr : r.length = bb.length) (hB : 2 * uv (bits bb ρ) ≤ 2^bb.length) (hrb : uv (bits r ρ) < uv (bits bb ρ))
    (hq2 : 2 * uv (bits q ρ) < 2^bb.length) :
    (divStep bb (q, r) a).1.length = bb.length ∧ (divStep bb (q, r) a).2.length = bb.length ∧
    uv (bits (divStep bb (q, r) a).2 ρ) < uv (bits bb ρ) ∧
    uv (bits (divStep bb (q, r) a).1 ρ) ≤ 2 * uv (bits q ρ) + 1 ∧
    uv (bits (divStep bb (q, r) a).1 ρ) * uv (bits bb ρ) + uv (bits (divStep bb (q, r) a).2 ρ) =
      2 * (uv (bits q ρ) * uv (bits bb ρ) + uv (bits r ρ)) + (if den a ρ then 1 else 0) := by
  have hbl : 0 < bb.length := List.length_pos_iff.mpr hb
  have hrl : (r.drop 1 ++ [a]).length = bb.length := by simp; omega
  have hru : uv (bits (r.drop 1 ++ [a]) ρ) = 2 * uv (bits r ρ) + (if den a ρ then 1 else 0) := by
    rw [bits_append, bits_drop]
    exact uv_shift _ _ (bits_ne_nil (by intro h; simp [h] at hr; omega) ρ) (by rw [bits_length, hr]; omega)
  have hsl := subBuf_length (r.drop 1 ++ [a]) bb hrl
  have hsub := subBuf_spec ρ (r.drop 1 ++ [a]) bb hrl
  have hg := den_geqBuf ρ (r.drop 1 ++ [a]) bb hrl
  have hqu : uv (bits (q.drop 1 ++ [geqBuf (r.drop 1 ++ [a]) bb]) ρ) =
      2 * uv (bits q ρ) + (if den (geqBuf (r.drop 1 ++ [a]) bb) ρ then 1 else 0) := by
    rw [bits_append, bits_drop]
    exact uv_shift _ _ (bits_ne_nil (by intro h; simp [h] at hq; omega) ρ) (by rw [bits_length, hq]; omega)
  simp only [divStep]
  set r' := r.drop 1 ++ [a] with hr'
  set g := geqBuf r' bb with hgdef
  have hz : bits (List.zipWith (fun s ri => Fml.ite g s ri) (subBuf r' bb).1 r') ρ =
      if den g ρ then bits (subBuf r' bb).1 ρ else bits r' ρ := by
    rw [bits_zipWith _ (fun x y => if den g ρ then x else y) ρ (by intro a b; exact den_ite _ _ _ _)]
    cases den g ρ
    · simp only [Bool.false_eq_true, if_false]
      exact zipWith_fst _ _ (by simp [hsl])
    · simp only [if_true]
      exact zipWith_snd _ _ (by simp [hsl])
  have ul := uv_lt (bits (subBuf r' bb).1 ρ)
  rw [bits_length, hsl, hrl] at ul
  rw [hrl] at hsub
  refine ⟨by simp; omega, by simp [hsl, hrl], ?_⟩
  rw [hz, hqu]
  by_cases hge : uv (bits bb ρ) ≤ uv (bits r' ρ)
  · have hgt : den g ρ = true := by rw [hg]; simpa using hge
    simp only [hgt, if_true]
    have hc : uv (bits (subBuf r' bb).1 ρ) = uv (bits r' ρ) - uv (bits bb ρ) := by
      have ub : uv (bits r' ρ) < 2^bb.length := by
        have := uv_lt (bits r' ρ); rwa [bits_length, hrl] at this
      have c1 : ((uv (bits (subBuf r' bb).1 ρ) : Nat) : Int) < 2^bb.length := by exact_mod_cast ul
      have c2 : ((uv (bits r' ρ) : Nat) : Int) < 2^bb.length := by exact_mod_cast ub
      cases hcin : den (subBuf r' bb).2 ρ <;> simp only [hcin, Bool.false_eq_true, if_false, if_true] at hsub <;> omega
    rw [hc, hru] at *
    have hA : (if den a ρ then 1 else 0) ≤ 1 := by split <;> omega
    refine ⟨by omega, by omega, ?_⟩
    have e : (2 * uv (bits q ρ) + 1) * uv (bits bb ρ) = 2 * (uv (bits q ρ) * uv (bits bb ρ)) + uv (bits bb ρ) := by ring
    rw [e]
    omega
  · have hgf : den g ρ = false := by rw [hg]; simpa using hge
    simp only [hgf, Bool.false_eq_true, if_false, Nat.add_zero]
    rw [hru] at *
    refine ⟨by omega, by omega, ?_⟩
    rw [Nat.mul_assoc]
    omega

theorem divLoop_spec (ρ : Env) (bb : List F) (hb : bb ≠ []) (hB : 2 * uv (bits bb ρ) ≤ 2^bb.length) :
    ∀ (av q r : List F), q.length = bb.length → r.length = bb.length → uv (bits r ρ) < uv (bits bb ρ) →
      (uv (bits q ρ) + 1) * 2^av.length ≤ 2^bb.length →
      (av.foldl (divStep bb) (q, r)).1.length = bb.length ∧
      (av.foldl (divStep bb) (q, r)).2.length = bb.length ∧
      uv (bits (av.foldl (divStep bb) (q, r)).2 ρ) < uv (bits bb ρ) ∧
      uv (bits (av.foldl (divStep bb) (q, r)).1 ρ) * uv (bits bb ρ) + uv (bits (av.foldl (divStep bb) (q, r)).2 ρ) =
        (uv (bits q ρ) * uv (bits bb ρ) + uv (bits r ρ)) * 2^av.length + uv (bits av ρ)
  | [], q, r, hq, hr, h1, _ => by simp [hq, hr, h1, uv]
  | a :: av, q, r, hq, hr, h1, h2 => by
    have hp : 1 ≤ 2^av.length := Nat.one_le_two_pow
    have hq2 : 2 * uv (bits q ρ) < 2^bb.length := by
      simp only [List.length_cons, pow_succ] at h2
      nlinarith
    obtain ⟨l1, l2, s1, s2, s3⟩ := divStep_spec ρ bb q r a hb hq hr hB h1 hq2
    rw [List.foldl_cons]
    rcases e : divStep bb (q, r) a with ⟨q', r'⟩
    rw [e] at l1 l2 s1 s2 s3
    simp only at l1 l2 s1 s2 s3
    obtain ⟨a1, a2, a3, a4⟩ := divLoop_spec ρ bb hb hB av q' r' l1 l2 s1 (by
      simp only [List.length_cons, pow_succ] at h2
      calc (uv (bits q' ρ) + 1) * 2^av.length ≤ (2 * uv (bits q ρ) + 1 + 1) * 2^av.length :=
            Nat.mul_le_mul_right _ (by omega)
        _ = (uv (bits q ρ) + 1) * (2^av.length * 2) := by ring
        _ ≤ _ := h2)
    refine ⟨a1, a2, a3, ?_⟩
    rw [a4, s3]
    simp only [bits_cons, uv, bits_length, List.length_cons, pow_succ]
    split <;> ring

theorem scalar_den (l : List F) (h : isScalar l = true) (ρ : Env) :
    bits l ρ = l.map (fun f => eqb f one) := by
  unfold bits
  apply List.map_congr_left
  intro f hf
  have := List.all_eq_true.mp h f hf
  unfold isSymbolic at this
  cases h1 : eqb f (one : F)
  · rw [h1] at this
    simp at this
    rw [eqb_sound f zero this ρ, den_zero]
  · rw [eqb_sound f one h1 ρ, den_one]

theorem constPow2_spec (b : List F) (cnt : Nat) (h : constPow2 b = some cnt) (ρ : Env) :
    uv (bits b ρ) = 2^cnt ∧ cnt < b.length := by
  unfold constPow2 at h
  split at h
  · rename_i hs
    have hd := List.takeWhile_append_dropWhile (p := fun f : F => !eqb f one) (l := b)
    have hsd := scalar_den b hs ρ
    rw [hsd]
    rcases e : b.dropWhile (fun f => !eqb f one) with _ | ⟨x, rest⟩
    · rw [e] at h; simp at h
    · rw [e] at h hd
      simp only at h
      split at h
      · simp at h
      · rename_i hr
        have hc : rest.length = cnt := by simpa using h
        have hx : eqb x one = true := by
          have := List.head_dropWhile_not (fun f : F => !eqb f one) (l := b) (by rw [e]; simp)
          simp only [e, List.head_cons] at this
          simpa using this
        have hT : (b.takeWhile (fun f => !eqb f one)).map (fun f => eqb f one) =
            List.replicate (b.takeWhile (fun f => !eqb f one)).length false := by
          rw [List.eq_replicate_iff]
          refine ⟨by simp, ?_⟩
          intro y hy
          obtain ⟨f, hf, rfl⟩ := List.mem_map.mp hy
          have := List.mem_takeWhile_imp hf
          simpa using this
        have hR : rest.map (fun f => eqb f one) = List.replicate rest.length false := by
          rw [List.eq_replicate_iff]
          refine ⟨by simp, ?_⟩
          intro y hy
          obtain ⟨f, hf, rfl⟩ := List.mem_map.mp hy
          simp only [List.any_eq_true, not_exists, not_and] at hr
          simpa using hr f hf
        rw [← hd]
        refine ⟨?_, by simp; omega⟩
        rw [List.map_append, List.map_cons, hT, hR, hx, uv_append, uv_replicate_false]
        simp [uv, uv_replicate_false, hc]
  · simp at h

theorem fixedDiv_spec (av bv : List F) (hl : av.length = bv.length) (hb : bv ≠ []) (ρ : Env)
    (hB : 2 * uv (bits bv ρ) ≤ 2^bv.length) (h0 : uv (bits bv ρ) ≠ 0) :
    (fixedDiv av bv).1.length = bv.length ∧ (fixedDiv av bv).2.length = bv.length ∧
    uv (bits (fixedDiv av bv).2 ρ) < uv (bits bv ρ) ∧
    uv (bits (fixedDiv av bv).1 ρ) * uv (bits bv ρ) + uv (bits (fixedDiv av bv).2 ρ) = uv (bits av ρ) := by
  unfold fixedDiv
  cases hc : constPow2 bv with
  | none =>
    simp only
    have := divLoop_spec ρ bv hb hB av (List.replicate av.length zero) (List.replicate av.length zero)
      (by simpa using hl) (by simpa using hl)
    simp only [bits_replicate, den_zero, uv_replicate_false] at this
    have := this (by omega) (by rw [hl]; simp)
    simpa using this
  | some cnt =>
    obtain ⟨h1, h2⟩ := constPow2_spec bv cnt hc ρ
    simp only [divPow2, bits_append, bits_replicate, den_zero, uv_append, uv_replicate_false, h1]
    have hu := uv_lt (bits (av.drop (av.length - cnt)) ρ)
    simp only [bits_length, List.length_drop] at hu
    have e1 : av.length - (av.length - cnt) = cnt := by omega
    rw [e1] at hu
    have e2 : uv (bits av ρ) = uv (bits (av.take (av.length - cnt)) ρ) * 2^cnt + uv (bits (av.drop (av.length - cnt)) ρ) := by
      conv_lhs => rw [← List.take_append_drop (av.length - cnt) av]
      rw [bits_append, uv_append, bits_length, List.length_drop, e1]
    refine ⟨by simp; omega, by simp; omega, by omega, ?_⟩
    rw [e2]; ring

/-- Lengths do not depend on the values. -/
theorem fixedDiv_length (av bv : List F) (hl : av.length = bv.length) (hb : bv ≠ []) :
    (fixedDiv av bv).1.length = bv.length ∧ (fixedDiv av bv).2.length = bv.length := by
  unfold fixedDiv
  cases hc : constPow2 bv with
  | none =>
    simp only
    have hbl : 0 < bv.length := List.length_pos_iff.mpr hb
    have : ∀ (av q r : List F), q.length = bv.length → r.length = bv.length →
        (av.foldl (divStep bv) (q, r)).1.length = bv.length ∧ (av.foldl (divStep bv) (q, r)).2.length = bv.length := by
      intro av
      induction av with
      | nil => intro q r hq hr; exact ⟨hq, hr⟩
      | cons a av ih =>
        intro q r hq hr
        rw [List.foldl_cons]
        apply ih
        · simp [divStep]; omega
        · have : (r.drop 1 ++ [a]).length = bv.length := by simp; omega
          simp only [divStep, List.length_zipWith, subBuf_length _ _ this, this, Nat.min_self]
    exact this _ _ _ (by simpa using hl) (by simpa using hl)
  | some cnt =>
    simp only [divPow2]
    have h2 : cnt < bv.length := by
      unfold constPow2 at hc
      split at hc
      · rcases e : bv.dropWhile (fun f => !eqb f one) with _ | ⟨x, rest⟩
        · rw [e] at hc; simp at hc
        · rw [e] at hc
          simp only at hc
          split at hc
          · simp at hc
          · have := (List.dropWhile_sublist (p := fun f : F => !eqb f one) (l := bv)).length_le
            rw [e] at this
            simp at hc this
            omega
      · simp at hc
    simp
    omega

/-- The division of two nonnegative values. -/
theorem magDiv_spec (A B : List F) (hzl : A.length = B.length) (hz1 : A ≠ []) (hz2 : B ≠ []) (ρ : Env) (a n : Int)
    (e1 : sv A ρ = a) (e2 : sv B ρ = n) (ha : 0 ≤ a) (pos2 : 0 < n) :
    sv (fixedDiv A B).1 ρ * n + sv (fixedDiv A B).2 ρ = a ∧ 0 ≤ sv (fixedDiv A B).2 ρ ∧
    sv (fixedDiv A B).2 ρ < n ∧ (uv (bits (fixedDiv A B).2 ρ) : Int) = sv (fixedDiv A B).2 ρ := by
  have hlen := fixedDiv_length _ _ hzl hz2
  have hz2l : 0 < B.length := List.length_pos_iff.mpr hz2
  have hq : (fixedDiv A B).1 ≠ [] := List.length_pos_iff.mp (by omega)
  have hr : (fixedDiv A B).2 ≠ [] := List.length_pos_iff.mp (by omega)
  have u1 : sv A ρ = uv (bits A ρ) := tc_nonneg_uv _ (by change 0 ≤ sv A ρ; rw [e1]; exact ha)
  have u2 : sv B ρ = uv (bits B ρ) := tc_nonneg_uv _ (by change 0 ≤ sv B ρ; rw [e2]; omega)
  -- the top bit of the magnitudes is zero
  have top : ∀ X : List F, X ≠ [] → 0 ≤ sv X ρ → 2 * uv (bits X ρ) < 2^X.length := by
    intro X hX h
    have hu := tc_nonneg_uv _ h
    obtain ⟨x, X, rfl⟩ := List.exists_cons_of_ne_nil hX
    have hb := (tc_bounds (den x ρ) (bits X ρ)).2
    rw [← bits_cons, hu] at hb
    rw [bits_length] at hb
    have hb' : uv (bits (x :: X) ρ) < 2^X.length := by exact_mod_cast hb
    rw [List.length_cons, pow_succ]
    omega
  have tA := top A hz1 (by rw [e1]; exact ha)
  have tB := top B hz2 (by rw [e2]; omega)
  have hB0 : uv (bits B ρ) ≠ 0 := by
    intro h; rw [h, e2] at u2; omega
  obtain ⟨_, _, f1, f2⟩ := fixedDiv_spec A B hzl hz2 ρ (by omega) hB0
  set Q := (fixedDiv A B).1
  set R := (fixedDiv A B).2
  have small : ∀ X : List F, X ≠ [] → X.length = B.length → 2 * uv (bits X ρ) < 2^B.length → sv X ρ = uv (bits X ρ) := by
    intro X hX hXl h
    rw [sv_eq X hX ρ]
    obtain ⟨x, X, rfl⟩ := List.exists_cons_of_ne_nil hX
    simp only [List.headD_cons]
    have : den x ρ = false := by
      cases hx : den x ρ
      · rfl
      · simp only [bits_cons, uv, hx, if_true, bits_length] at h
        rw [← hXl, List.length_cons, pow_succ] at h
        omega
    simp [this]
  have qle : uv (bits Q ρ) ≤ uv (bits A ρ) := by
    have h1 : 1 ≤ uv (bits B ρ) := Nat.one_le_iff_ne_zero.mpr hB0
    nlinarith
  have hAl : (2:Nat)^A.length = 2^B.length := by rw [hzl]
  have sQ := small Q hq hlen.1 (by omega)
  have sR := small R hr hlen.2 (by omega)
  rw [← e1, ← e2, sQ, sR, u1, u2]
  refine ⟨by exact_mod_cast f2, by positivity, by exact_mod_cast f1, rfl⟩

/-- Floor division of signed values by long division of the magnitudes. -/
theorem signedDiv_spec (dv nv : List F) (hd : dv ≠ []) (hn : nv ≠ []) :
    (signedDiv dv nv).1 ≠ [] ∧ (signedDiv dv nv).2 ≠ [] ∧
    ∀ ρ : Env, sv nv ρ ≠ 0 → Arbi.FloorDiv (sv dv ρ) (sv nv ρ) (sv (signedDiv dv nv).1 ρ) (sv (signedDiv dv nv).2 ρ) := by
  have had := absList_ne_nil dv hd
  have han := absList_ne_nil nv hn
  have hzl := zx2_length (absList dv) (absList nv)
  have hz1 : (zx2 (absList dv) (absList nv)).1 ≠ [] := zxTo_ne_nil had
  have hz2 : (zx2 (absList dv) (absList nv)).2 ≠ [] := zxTo_ne_nil han
  have hlen := fixedDiv_length _ _ hzl hz2
  have hz2l : 0 < (zx2 (absList dv) (absList nv)).2.length := List.length_pos_iff.mpr hz2
  have hq : (fixedDiv (zx2 (absList dv) (absList nv)).1 (zx2 (absList dv) (absList nv)).2).1 ≠ [] :=
    List.length_pos_iff.mp (by omega)
  have hr : (fixedDiv (zx2 (absList dv) (absList nv)).1 (zx2 (absList dv) (absList nv)).2).2 ≠ [] :=
    List.length_pos_iff.mp (by omega)
  have key : ∀ ρ : Env, sv nv ρ ≠ 0 → 
      sv (fixedDiv (zx2 (absList dv) (absList nv)).1 (zx2 (absList dv) (absList nv)).2).1 ρ * |sv nv ρ| +
      sv (fixedDiv (zx2 (absList dv) (absList nv)).1 (zx2 (absList dv) (absList nv)).2).2 ρ = |sv dv ρ| ∧
      0 ≤ sv (fixedDiv (zx2 (absList dv) (absList nv)).1 (zx2 (absList dv) (absList nv)).2).2 ρ ∧
      sv (fixedDiv (zx2 (absList dv) (absList nv)).1 (zx2 (absList dv) (absList nv)).2).2 ρ < |sv nv ρ| ∧
      sv (zx2 (absList dv) (absList nv)).2 ρ = |sv nv ρ| ∧
      (uv (bits (fixedDiv (zx2 (absList dv) (absList nv)).1 (zx2 (absList dv) (absList nv)).2).2 ρ) : Int) =
        sv (fixedDiv (zx2 (absList dv) (absList nv)).1 (zx2 (absList dv) (absList nv)).2).2 ρ := by
    intro ρ h0
    have e1 : sv (zx2 (absList dv) (absList nv)).1 ρ = |sv dv ρ| := by
      rw [← sv_absList dv hd ρ]
      simp only [zx2]; exact sv_zxTo (absList nv).length (absList dv) had ρ (by rw [sv_absList dv hd]; exact abs_nonneg _)
    have e2 : sv (zx2 (absList dv) (absList nv)).2 ρ = |sv nv ρ| := by
      rw [← sv_absList nv hn ρ]
      simp only [zx2]; exact sv_zxTo (absList dv).length (absList nv) han ρ (by rw [sv_absList nv hn]; exact abs_nonneg _)
    have pos2 : 0 < |sv nv ρ| := abs_pos.mpr h0
    obtain ⟨m1, m2, m3, m4⟩ := magDiv_spec _ _ hzl hz1 hz2 ρ _ _ e1 e2 (abs_nonneg _) pos2
    exact ⟨m1, m2, m3, e2, m4⟩
  unfold signedDiv
  simp only
  generalize (zx2 (absList dv) (absList nv)).1 = A at *
  generalize (zx2 (absList dv) (absList nv)).2 = B at *
  generalize (fixedDiv A B).1 = Q at *
  generalize (fixedDiv A B).2 = R at *
  have nq0 := iteList_ne_nil (xnor (dv.headD zero) (nv.headD zero)) Q (negate Q) hq (negate_ne_nil _)
  have nr0 := iteList_ne_nil (xnor (dv.headD zero) (nv.headD zero)) R (genAdd true R B) hr (genAdd_ne_nil _ _ _)
  have nr1 := iteList_ne_nil (dv.headD zero) (negate (iteList (xnor (dv.headD zero) (nv.headD zero)) R (genAdd true R B)))
    (iteList (xnor (dv.headD zero) (nv.headD zero)) R (genAdd true R B)) (negate_ne_nil _) nr0
  refine ⟨iteList_ne_nil _ _ _ nq0 (decrement_ne_nil _), iteList_ne_nil _ _ _ hr nr1, ?_⟩
  intro ρ h0
  obtain ⟨k1, k2, k3, k4, k5⟩ := key ρ h0
  rw [sv_iteList _ _ _ nq0 (decrement_ne_nil _), sv_decrement _ nq0, sv_iteList _ _ _ hq (negate_ne_nil _), sv_negate _ hq]
  rw [sv_iteList _ _ _ hr nr1, sv_iteList _ _ _ (negate_ne_nil _) nr0, sv_negate _ nr0,
    sv_iteList _ _ _ hr (genAdd_ne_nil _ _ _), sv_genAdd true R B hlen.2 hr ρ]
  rw [den_or, den_isZeroList, den_xnor, k4]
  have s1 := head_neg dv hd ρ
  have s2 := head_neg nv hn ρ
  have ez : decide (uv (bits R ρ) = 0) = decide (sv R ρ = 0) := by
    rw [decide_eq_decide]; omega
  rw [ez]
  generalize sv Q ρ = q at *
  generalize sv R ρ = r at *
  generalize sv dv ρ = d at *
  generalize sv nv ρ = n at *
  clear nq0 nr0 nr1 key k4 k5 ez hlen hzl
  simp only [if_true]
  unfold Arbi.FloorDiv
  rcases lt_or_ge d 0 with hd | hd <;> rcases lt_or_ge n 0 with hn | hn
  all_goals
    (first | rw [abs_of_neg hd] at * | rw [abs_of_nonneg hd] at *)
    (first | rw [abs_of_neg hn] at * | rw [abs_of_nonneg hn] at *)
  · rw [s1.mpr hd, s2.mpr hn]
    by_cases hz : r = 0
    · subst hz; simp; linarith
    · simp [hz]; refine ⟨by linarith, by omega, by omega⟩
  · have s2' : den (nv.headD zero) ρ = false := by
      rw [← Bool.not_eq_true, s2]; omega
    rw [s1.mpr hd, s2']
    by_cases hz : r = 0
    · subst hz; simp; linarith
    · simp [hz]; refine ⟨by linarith, by omega, by omega⟩
  · have s1' : den (dv.headD zero) ρ = false := by
      rw [← Bool.not_eq_true, s1]; omega
    rw [s1', s2.mpr hn]
    by_cases hz : r = 0
    · subst hz; simp; linarith
    · simp [hz]; refine ⟨by linarith, by omega, by omega⟩
  · have s1' : den (dv.headD zero) ρ = false := by
      rw [← Bool.not_eq_true, s1]; omega
    have s2' : den (nv.headD zero) ρ = false := by
      rw [← Bool.not_eq_true, s2]; omega
    rw [s1', s2']
    by_cases hz : r = 0
    · subst hz; simp; linarith
    · simp [hz]; refine ⟨by linarith, by omega, by omega⟩

end Voss.Bv
