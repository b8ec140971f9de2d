import Verif.Pre.PowLemmas
/-
C89: powers, shifts by symbolic amounts, greatest common divisors and `bv_reduce` on bit-vectors.

`Bv.sv v η` is the number that the bit-vector `v` stands for when the variables have the values `η`.
-/
namespace Voss.Pre
variable {o : Order}
open Fn

/-- C89, powers: `bv_pow` gives the power for every value of a symbolic base and a symbolic exponent; it always
terminates.  A negative exponent counts as 0. -/
theorem c89_pow (base n : List (Fn o)) (hb : base ≠ []) (hn : n ≠ []) :
    ∃ K r, (∀ k, bvPow (K + k) (tt o) base n = .ok r) ∧ r ≠ [] ∧ ∀ η, Bv.sv r η = Bv.sv base η ^ (Bv.sv n η).toNat := by
  obtain ⟨r, h1, h2, h3⟩ := bvPow_spec base hb (2 ^ n.length) (tt o) n hn tt_sat
    (fun η _ => by have := sv_bound n η; push_cast; zify at this; exact le_trans (le_abs_self _) this)
  exact ⟨_, r, h1, h2, fun η => h3 η rfl⟩

/-- Two bits, the higher one T: 2 or 3. -/
def twoOrThree (n : String) : List (Fn codeOrder) := [ff codeOrder, tt codeOrder, var codeOrder n]

example : twoOrThree "a" ≠ [] ∧ ∃ r, bvPow 6 (tt codeOrder) (twoOrThree "a") (twoOrThree "b") = .ok r ∧
    Bv.sv r (fun n => decide (n = "a")) = 9 ∧ Bv.sv r (fun n => decide (n = "b")) = 8 ∧ Bv.sv r (fun _ => true) = 27 := by
  refine ⟨by simp [twoOrThree], ?_⟩
  have : ∀ x : Out (List (Fn codeOrder)), (match x with
      | .ok r => decide (Bv.sv r (fun n => decide (n = "a")) = 9 ∧ Bv.sv r (fun n => decide (n = "b")) = 8 ∧ Bv.sv r (fun _ => true) = 27)
      | _ => false) = true → ∃ r, x = .ok r ∧
        Bv.sv r (fun n => decide (n = "a")) = 9 ∧ Bv.sv r (fun n => decide (n = "b")) = 8 ∧ Bv.sv r (fun _ => true) = 27 := by
    intro x hx
    cases x with
    | ok r => exact ⟨r, rfl, of_decide_eq_true hx⟩
    | fail => cases hx
    | more => cases hx
  exact this _ (by decide +kernel)

/-- C89, shifts by a symbolic amount: to the left multiplies by the power of two, to the right divides, rounding
down; `bv_shr` takes the vector for the unsigned number of the same digits, `bv_ashr` for the signed one. -/
theorem c89_shift (n amount : List (Fn o)) (hn : n ≠ []) (ha : amount ≠ []) :
    ∃ K l r a, (∀ k, bvShl (K + k) (tt o) n amount = .ok l ∧ bvShr (K + k) (tt o) n amount = .ok r ∧
        bvAshrBv (K + k) (tt o) n amount = .ok a) ∧
      ∀ η, Bv.sv l η = Bv.sv n η * 2 ^ (Bv.sv amount η).toNat ∧
        Bv.sv r η = (Bv.uv (Bv.bits n η) : Int) / 2 ^ (Bv.sv amount η).toNat ∧
        Bv.sv a η = Bv.sv n η / 2 ^ (Bv.sv amount η).toNat := by
  obtain ⟨K, d, d1, d2, d3⟩ := c89_pow [ff o, tt o, ff o] amount (by simp) ha
  have two : ∀ η, Bv.sv [ff o, tt o, ff o] η = 2 := fun η => rfl
  have hz : Bv.bvZX n ≠ [] := Bv.trim_ne_nil _ (Bv.trim_ne_nil _ (List.cons_ne_nil _ _))
  obtain ⟨l, l1, _, l2⟩ := Bv.c09_mul n d hn d2
  obtain ⟨r, _, r1, _, _, _, r2⟩ := Bv.c10_div_mod (Bv.bvZX n) d hz d2
  obtain ⟨a, _, a1, _, _, _, a2⟩ := Bv.c10_div_mod n d hn d2
  refine ⟨K, l, r, a, fun k => ⟨?_, ?_, ?_⟩, fun η => ?_⟩
  · rw [bvShl, d1]; simp only [Out.bind, l1, Out.ofOption]
  · rw [bvShr, d1]; simp only [Out.bind, r1, Out.ofOption]
  · rw [bvAshrBv, d1]; simp only [Out.bind, a1, Out.ofOption]
  · have hd : Bv.sv d η = 2 ^ (Bv.sv amount η).toNat := by rw [d3, two]
    have hpos : (0:Int) < 2 ^ (Bv.sv amount η).toNat := by positivity
    have zx := (Bv.c13_shift_bits n hn).2.2.2.1 η
    refine ⟨by rw [l2, hd], ?_, ?_⟩
    · have h := r2 η (by rw [hd]; omega)
      rw [zx, hd] at h
      exact floor_div hpos h
    · have h := a2 η (by rw [hd]; omega)
      rw [hd] at h
      exact floor_div hpos h

/-- C89, greatest common divisors: `bv_gcd` terminates for all bit-vectors, and its result is, up to the sign,
the greatest common divisor for every value of the variables. -/
theorem c89_gcd (a b : List (Fn o)) (ha : a ≠ []) (hb : b ≠ []) :
    ∃ K r, (∀ k, bvGcd (K + k) (tt o) a b = .ok r) ∧ r ≠ [] ∧
      ∀ η, (Bv.sv r η).natAbs = Int.gcd (Bv.sv a η) (Bv.sv b η) ∧
        (0 < Bv.sv b η → 0 < Bv.sv r η) ∧ (Bv.sv b η < 0 → Bv.sv r η < 0) ∧ (Bv.sv b η = 0 → Bv.sv r η = Bv.sv a η) := by
  obtain ⟨r, h1, h2, h3⟩ := bvGcd_spec (2 ^ b.length) (tt o) a b ha hb tt_sat (fun η _ => sv_bound b η)
  exact ⟨_, r, h1, h2, fun η => h3 η rfl⟩

example : bvGcd 8 (tt codeOrder) (intBv codeOrder 12) (intBv codeOrder (-18)) = .ok (intBv codeOrder (-6)) ∧
    bvShl 8 (tt codeOrder) (intBv codeOrder (-3)) (intBv codeOrder 2) = .ok (intBv codeOrder (-12)) ∧
    bvShr 8 (tt codeOrder) (intBv codeOrder (-3)) (intBv codeOrder 1) = .ok (intBv codeOrder 2) ∧
    bvAshrBv 8 (tt codeOrder) (intBv codeOrder (-3)) (intBv codeOrder 1) = .ok (intBv codeOrder (-2)) := by decide +kernel

/-- C89, `bv_reduce`: a bit-vector that is always positive and not constant is divided by the greatest common
divisor of all its values, provided that one of its values, together with the one for which all variables are
false, already has that divisor and no other. -/
theorem c89_reduce_partial (bv : List (Fn o)) (hpos : ∀ η, 0 < Bv.sv bv η)
    (h : ∃ ζ : Env, (∃ n ∈ depends bv, ζ n = true) ∧
      ∀ η, (Int.gcd (Bv.sv bv fun _ => false) (Bv.sv bv ζ) : Int) ∣ Bv.sv bv η) :
    ∃ K r, ∃ G : Nat, (∀ k, bvReduce (K + k) bv = .ok r) ∧ 0 < G ∧ (∀ η, Bv.sv bv η = G * Bv.sv r η) ∧
      ∀ d : Int, (∀ η, d ∣ Bv.sv bv η) → d ∣ G := by
  obtain ⟨ζ, hζ, hdiv⟩ := h
  obtain ⟨K, r, G, h1, ⟨ξ, _, hξ⟩, h3, h4⟩ := reduce_spec hpos ⟨ζ, hζ⟩
  have e : G = Int.gcd (Bv.sv bv fun _ => false) (Bv.sv bv ζ) := by
    refine Nat.le_antisymm (h3 ζ hζ) ?_
    rw [hξ]
    refine Nat.le_of_dvd ?_ ?_
    · exact Nat.pos_of_ne_zero fun h => by
        have := (Int.gcd_eq_zero_iff.1 h).1
        have := hpos fun _ => false
        omega
    · exact Int.dvd_gcd (hdiv _) (hdiv _)
  have hG : 0 < G := Nat.pos_of_ne_zero fun h => by
    rw [e] at h
    have := (Int.gcd_eq_zero_iff.1 h).1
    have := hpos fun _ => false
    omega
  refine ⟨K, r, G, h1, hG, fun η => ?_, fun d hd => ?_⟩
  · rw [h4, Int.mul_ediv_cancel']
    rw [e]; exact hdiv η
  · rw [e]
    exact Int.dvd_coe_gcd (hd _) (hd _)

/-- 12 or 18, of which the first stands for all variables false: both are reduced by 6. -/
def twelve : List (Fn codeOrder) :=
  [ff codeOrder, var codeOrder "a", (var codeOrder "a").not, (var codeOrder "a").not, var codeOrder "a", ff codeOrder]

example : (∀ η, 0 < Bv.sv twelve η) ∧ ∃ ζ : Env, (∃ n ∈ depends twelve, ζ n = true) ∧
    ∀ η, (Int.gcd (Bv.sv twelve fun _ => false) (Bv.sv twelve ζ) : Int) ∣ Bv.sv twelve η := by
  have e : ∀ η, Bv.sv twelve η = if η "a" then 18 else 12 := by
    intro η
    have : Bv.sv twelve η = Bv.tc [false, η "a", !η "a", !η "a", η "a", false] := by
      have h : Bv.bits twelve η = [(ff codeOrder).ev η, (var codeOrder "a").ev η, (var codeOrder "a").not.ev η,
        (var codeOrder "a").not.ev η, (var codeOrder "a").ev η, (ff codeOrder).ev η] := rfl
      unfold Bv.sv
      rw [h]
      simp
    rw [this]
    cases η "a" <;> rfl
  refine ⟨fun η => by rw [e]; split <;> omega, fun _ => true, ⟨"a", by decide +kernel, rfl⟩, fun η => ?_⟩
  rw [e, e, e η]
  by_cases h : η "a" = true
  · rw [if_pos h]; decide
  · rw [if_neg h]; decide

/-- Six if `a` is false; if it is true, 3 or 2. -/
def sixThreeTwo : List (Fn codeOrder) :=
  [ff codeOrder, (var codeOrder "a").not, tt codeOrder, (var codeOrder "a").and (var codeOrder "b").not]

theorem sv_sixThreeTwo (η : Env) : Bv.sv sixThreeTwo η = if η "a" then (if η "b" then 2 else 3) else 6 := by
  have : Bv.sv sixThreeTwo η = Bv.tc [false, !η "a", true, η "a" && !η "b"] := by
    have h : Bv.bits sixThreeTwo η = [(ff codeOrder).ev η, (var codeOrder "a").not.ev η, (tt codeOrder).ev η,
      ((var codeOrder "a").and (var codeOrder "b").not).ev η] := rfl
    unfold Bv.sv
    rw [h]
    simp
  rw [this]
  cases η "a" <;> cases η "b" <;> rfl

/-- C89 fails, `bv_reduce`: it takes the smallest of the divisors of pairs of values, not the divisor of all
values.  With the values 6, 3 and 2 (greatest common divisor 1) it divides by 2, so that different values
become the same. -/
theorem c89_reduce_violated : ∃ (bv r : List (Fn codeOrder)) (K : Nat) (η1 η2 : Env),
    (∀ k, bvReduce (K + k) bv = .ok r) ∧ (∀ η, 0 < Bv.sv bv η) ∧
    Bv.sv bv η1 = 3 ∧ Bv.sv bv η2 = 2 ∧ Bv.sv r η1 = 1 ∧ Bv.sv r η2 = 1 := by
  have hpos : ∀ η, 0 < Bv.sv sixThreeTwo η := fun η => by rw [sv_sixThreeTwo]; split <;> (try split) <;> omega
  have ha : "a" ∈ depends sixThreeTwo := by decide +kernel
  obtain ⟨K, r, G, h1, ⟨ξ, _, h2⟩, h3, h4⟩ := reduce_spec hpos ⟨fun _ => true, "a", ha, rfl⟩
  have hG : G = 2 := by
    have h5 := h3 (fun _ => true) ⟨"a", ha, rfl⟩
    rw [sv_sixThreeTwo, sv_sixThreeTwo] at h5 h2
    have h6 : Int.gcd (if false then (if false then 2 else 3) else 6) (if true then (if true then 2 else 3) else 6) = 2 := by decide
    have h5' : G ≤ 2 := le_trans h5 (le_of_eq h6)
    simp only [Bool.false_eq_true, if_false] at h2
    rw [h2] at h5' ⊢
    revert h5'
    split
    · split <;> decide
    · decide
  refine ⟨sixThreeTwo, r, K, fun n => decide (n = "a"), fun _ => true, h1, hpos, ?_, ?_, ?_, ?_⟩
  · rw [sv_sixThreeTwo]; simp
  · rw [sv_sixThreeTwo]; simp
  · rw [h4, sv_sixThreeTwo, hG]; simp
  · rw [h4, sv_sixThreeTwo, hG]; simp

/-- C89 fails, `bv_reduce`: it fails on every bit-vector that is a constant. -/
theorem c89_reduce_constant_violated (bv : List (Fn o)) (hbv : bv ≠ []) (h : depends bv = []) (k : Nat) :
    bvReduce k bv = .fail := reduce_const hbv h k

example : bvReduce 9 (intBv codeOrder 12) = .fail := by decide +kernel

/-- C89 fails, `bv_reduce`: the values -4 and -2 become 2 and 1. -/
theorem c89_reduce_negative_violated :
    bvReduce 9 [tt codeOrder, var codeOrder "a", ff codeOrder] = .ok [ff codeOrder, (var codeOrder "a").not, var codeOrder "a"] := by
  decide +kernel

/-- C89 fails: `bev_pow` never gives a result, because both branches of its conditional are computed, and the
other one calls the function again. -/
theorem c89_bev_pow_violated {B C : Type} (geq : B → B → C) (ifthen : C → B → B → B) (mul sub : B → B → B)
    (int : Int → B) (k : Nat) (base n : B) : bevPow geq ifthen mul sub int k base n = none := by
  induction k generalizing n with
  | zero => rfl
  | succ k ih => rw [bevPow, ih]; rfl

end Voss.Pre
