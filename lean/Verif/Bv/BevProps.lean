import Verif.Bv.BevLemmas
/-
Property theorems C95: bit-vectors of and-inverter expressions.

`sv l ρ` is the two's complement value of the bit-vector `l` under the assignment `ρ` of the variables.  The theorems hold
for every package of expressions with the laws of `Aig`, so for every symbolic content.
-/
namespace Voss.Bv
open Fml
open Voss.Arbi (W Res val Norm ibit FloorDiv)

/-! ### Expressions over the variables 0, 1, 2, … for the examples -/

inductive Nd
  | one
  | var (n : Nat)
  | and (na : Bool) (a : Nd) (nb : Bool) (b : Nd)
deriving DecidableEq

/-- A node and the sign of the pointer to it. -/
structure Ed where
  neg : Bool
  nd : Nd
deriving DecidableEq

def Nd.den : Nd → (Nat → Bool) → Bool
  | .one, _ => true
  | .var n, ρ => ρ n
  | .and na a nb b, ρ => (na ^^ a.den ρ) && (nb ^^ b.den ρ)

def Ed.den (e : Ed) (ρ : Nat → Bool) : Bool := e.neg ^^ e.nd.den ρ
def Ed.not (e : Ed) : Ed := ⟨!e.neg, e.nd⟩

/-- `be_and` (bexpr.c:1539-1571) without the tables of nodes: equal terms are equal handles. -/
def Ed.and (a b : Ed) : Ed :=
  if a = ⟨true, .one⟩ ∨ b = ⟨true, .one⟩ then ⟨true, .one⟩
  else if a = ⟨false, .one⟩ then b
  else if b = ⟨false, .one⟩ then a
  else if a = b then a
  else if a = b.not then ⟨true, .one⟩
  else ⟨false, .and a.neg a.nd b.neg b.nd⟩

instance : Aig Ed (Nat → Bool) where
  dec := inferInstance
  den := Ed.den
  one := ⟨false, .one⟩
  not := Ed.not
  and := Ed.and
  red := false
  den_one _ := rfl
  den_not a ρ := by simp [Ed.den, Ed.not]
  den_and a b ρ := by
    unfold Ed.and
    split
    · rename_i h
      rcases h with rfl | rfl <;> simp [Ed.den, Nd.den]
    · split
      · rename_i h; subst h; simp [Ed.den, Nd.den]
      · split
        · rename_i h; subst h; simp [Ed.den, Nd.den]
        · split
          · rename_i h; subst h; simp
          · split
            · rename_i h; subst h
              simp [Ed.den, Ed.not, Nd.den]
            · simp [Ed.den, Nd.den]
  not_not a := by simp [Ed.not]
  one_ne := by decide
  false_and a := by simp [Ed.and, Ed.not]
  and_false a := by simp [Ed.and, Ed.not]
  one_and a := by
    unfold Ed.and
    split
    · rename_i h
      rcases h with h | h
      · simp at h
      · exact h.symm
    · simp
  and_one a := by
    unfold Ed.and
    split
    · rename_i h
      rcases h with h | h
      · exact h.symm
      · simp at h
    · split
      · rename_i h; exact h.symm
      · simp

def ev (n : Nat) : Ed := ⟨false, .var n⟩
/-- Two bits of variables: -2, -1, 0 or 1. -/
def ev01 : List Ed := [ev 0, ev 1]

variable {F Env : Type} [Aig F Env]

/-! ### Arithmetic -/

/-- C95, arithmetic: `+`, `-`, `*` have, under every assignment, the sum, the difference and the product of the values of
bit-vectors of any widths; the quotient and the remainder are those of floor division wherever the divisor is not 0.
The results are canonical and not empty. -/
theorem c95_arith (a b : List F) (ha : a ≠ []) (hb : b ≠ []) :
    (∃ r, bevAdd a b = some r ∧ r ≠ [] ∧ Trimmed r ∧ ∀ ρ : Env, sv r ρ = sv a ρ + sv b ρ) ∧
    (∃ r, bevSub a b = some r ∧ r ≠ [] ∧ Trimmed r ∧ ∀ ρ : Env, sv r ρ = sv a ρ - sv b ρ) ∧
    (∃ r, bevMul a b = some r ∧ Trimmed r ∧ ∀ ρ : Env, sv r ρ = sv a ρ * sv b ρ) ∧
    (∃ q r, bevDiv a b = some q ∧ bevMod a b = some r ∧ Trimmed q ∧ Trimmed r ∧
      ∀ ρ : Env, sv b ρ ≠ 0 → FloorDiv (sv a ρ) (sv b ρ) (sv q ρ) (sv r ρ)) := by
  obtain ⟨⟨r, h1, h2, h3⟩, ⟨r', h1', h2', h3'⟩⟩ := c08_add_sub a b ha hb
  refine ⟨⟨r, h1, ?_, h2, h3⟩, ⟨r', h1', ?_, h2', h3'⟩, ?_, ?_⟩
  · have := (guard2_ne a b ha hb _).symm.trans h1
    rw [← Option.some.inj this]
    exact trim_ne_nil _ (genAdd_ne_nil _ _ _)
  · have := (guard2_ne a b ha hb _).symm.trans h1'
    rw [← Option.some.inj this]
    exact trim_ne_nil _ (genAdd_ne_nil _ _ _)
  · rw [bevMul_eq]; exact c09_mul a b ha hb
  · unfold bevDiv bevMod
    rw [signedBevdiv_eq]; exact c10_div_mod a b ha hb

/-- The sum of a variable bit-vector and 1. -/
example : (bevAdd ev01 [zero, one]).isSome ∧
    (bevAdd ev01 [zero, one]).map (fun r => sv r (fun _ => true)) = some 0 ∧
    (bevMul ev01 ev01).map (fun r => sv r (fun n => n == 0)) = some 4 ∧
    (bevDiv [zero, one, zero, one] ev01).map (fun r => sv r (fun n => n == 0)) = some (-3) := by decide +kernel

/-! ### Comparisons -/

/-- C95, comparisons: each gives an expression that is true exactly where the comparison of the values holds. -/
theorem c95_compare (a b : List F) (ha : a ≠ []) (hb : b ≠ []) :
    (∃ f, bevLess a b = some f ∧ ∀ ρ : Env, den f ρ = decide (sv a ρ < sv b ρ)) ∧
    (∃ f, bevLeq a b = some f ∧ ∀ ρ : Env, den f ρ = decide (sv a ρ ≤ sv b ρ)) ∧
    (∃ f, bevGreater a b = some f ∧ ∀ ρ : Env, den f ρ = decide (sv a ρ > sv b ρ)) ∧
    (∃ f, bevGeq a b = some f ∧ ∀ ρ : Env, den f ρ = decide (sv a ρ ≥ sv b ρ)) ∧
    (∃ f, bevEq a b = some f ∧ ∀ ρ : Env, den f ρ = decide (sv a ρ = sv b ρ)) ∧
    (∃ f, bevNeq a b = some f ∧ ∀ ρ : Env, den f ρ = decide (sv a ρ ≠ sv b ρ)) := by
  have heq : ∃ f, bevEq a b = some f ∧ ∀ ρ : Env, den f ρ = decide (sv a ρ = sv b ρ) := by
    unfold bevEq
    split
    rename_i s t hst
    refine ⟨_, guard2_ne a b ha hb _, fun ρ => ?_⟩
    split at hst <;> (simp only [Prod.mk.injEq] at hst; obtain ⟨rfl, rfl⟩ := hst)
    · rw [eq_core _ _ hb (by omega) ρ, decide_eq_decide]; exact eq_comm
    · rw [eq_core _ _ ha (by omega) ρ]
  refine ⟨⟨_, guard2_ne a b ha hb _, fun ρ => den_less a b ha hb ρ⟩, ⟨_, guard2_ne a b ha hb _, fun ρ => ?_⟩,
    ⟨_, guard2_ne a b ha hb _, fun ρ => den_less b a hb ha ρ⟩, ⟨_, guard2_ne a b ha hb _, fun ρ => ?_⟩, heq, ?_⟩
  · rw [den_not, den_less b a hb ha ρ, ← decide_not, decide_eq_decide]; omega
  · rw [den_not, den_less a b ha hb ρ, ← decide_not, decide_eq_decide]; omega
  · obtain ⟨f, h1, h2⟩ := heq
    refine ⟨not f, by rw [bevNeq, h1]; rfl, fun ρ => ?_⟩
    rw [den_not, h2, ← decide_not]

example : bevLess [ev 0, ev 1] [zero] = some (ev 0) ∧ bevEq [ev 0] [zero] = some (ev 0).not := by decide +kernel

/-- C95, `=` and `==`: they give true only if the values are equal under every assignment.  The converse is missing. -/
theorem c95_equal_partial (a b : List F) (ha : a ≠ []) (hb : b ≠ []) :
    ∃ c, bevEqFn a b = some c ∧ (c = true → ∀ ρ : Env, sv a ρ = sv b ρ) ∧ (a = b → c = true) := by
  have e1 : a.isEmpty = false := by cases a <;> simp at ha ⊢
  have e2 : b.isEmpty = false := by cases b <;> simp at hb ⊢
  refine ⟨_, by simp [bevEqFn, e1, e2]; rfl, fun h ρ => ?_, ?_⟩
  · have := (zip_all_eqb _ _ (sx2_length a b)).mp h
    rw [← sv_sxTo b.length a ha ρ, ← sv_sxTo a.length b hb ρ]
    exact congrArg (fun l => sv l ρ) this
  · rintro rfl
    exact (zip_all_eqb _ _ (sx2_length a a)).mpr rfl

/-- C95 fails for `=`: it is false although the values are equal under every assignment, unlike `bev_eq`. -/
theorem c95_equal_violated : ∃ a b : List Ed, a ≠ [] ∧ b ≠ [] ∧ (∀ ρ, sv a ρ = sv b ρ) ∧ bevEqFn a b = some false := by
  refine ⟨[(ev 0).and (ev 1)], [(ev 1).and (ev 0)], by simp, by simp, fun ρ => ?_, by decide⟩
  simp [sv, bits, tc, uv, Fml.den, Aig.den, Ed.and, ev, Ed.not, Ed.den, Nd.den, Bool.and_comm]

/-! ### Conversion -/

/-- C95, integers: `int2bev` gives the canonical constant bit-vector with the value of the integer; `bev2int` gives the
value of every bit-vector of constants and fails for every other; `bev2int (int2bev n) = n`. -/
theorem c95_ints :
    (∀ x : List W, Norm x → x.length ≤ 2^21 → ∃ l : List F, (∃ N, ∀ fuel, N ≤ fuel → int2bev fuel x = some (.ok l)) ∧
      Trimmed l ∧ isScalar l = true ∧ (∀ ρ : Env, sv l ρ = val x) ∧ (Nonempty Env → bev2int l = some (.ok (.ok x)))) ∧
    (∀ l : List F, l ≠ [] → isScalar l = true → l.length < 2^33 → ∀ ρ : Env,
      ∃ r, bev2int l = some (.ok (.ok r)) ∧ Norm r ∧ val r = sv l ρ) ∧
    (∀ l : List F, isScalar l = false → bev2int l = some (.error "bev2int of symbolic bitvector")) := by
  have hsp : ∀ l : List F, l ≠ [] → isScalar l = true → l.length < 2^33 → ∀ ρ : Env,
      ∃ r, bev2int l = some (.ok (.ok r)) ∧ Norm r ∧ val r = sv l ρ := by
    intro l hne hs hl ρ
    obtain ⟨bl, rfl⟩ := scalar_ofBool l hs
    rw [bev2int_scalar _ hs, hom_ofBool.bv2int]
    have hsb : isScalar bl = true := by rw [← hom_ofBool.isScalar (F := F)]; exact hs
    obtain ⟨r, r1, r2, r3⟩ := bv2int_spec bl (by rintro rfl; simp at hne) hsb (by simpa using hl) ()
    refine ⟨r, r1, r2, ?_⟩
    rw [r3]
    unfold sv
    congr 1
    simp only [bits, List.map_map]
    refine List.map_congr_left fun b _ => ?_
    cases b
    · exact (den_zero (F := F) ρ).symm
    · exact (den_one (F := F) ρ).symm
  refine ⟨?_, hsp, fun l h => by simp [bev2int, h]⟩
  intro x hx hl
  obtain ⟨l, ⟨N, h1⟩, h2, h3, h4, h5, h6⟩ := int2bv_spec (F := F) x hx hl
  refine ⟨l, ⟨N, fun fuel hf => by rw [int2bev_eq]; exact h1 fuel hf⟩, h3, h4, h6, ?_⟩
  rintro ⟨ρ⟩
  have hb := Arbi.val_bounds x hx.ne_nil
  have hlp : 0 < x.length := List.length_pos_iff.mpr hx.ne_nil
  have hn : (val x).natAbs < 2^(64 * x.length) := by
    have e : (2:Int)^(64 * x.length) = 2^(64 * x.length - 1) * 2 := by rw [← pow_succ]; congr 1; omega
    have hp : (0:Int) < 2^(64 * x.length - 1) := by positivity
    have : ((val x).natAbs : Int) < 2^(64 * x.length) := by omega
    exact_mod_cast this
  have hlen := numeral_length_le _ _ hn (by omega)
  obtain ⟨r, r1, r2, r3⟩ := hsp l h2 h4 (by omega) ρ
  rw [r1, Arbi.norm_ext r x r2 hx (by rw [r3, h6])]

example : int2bev 10 [-6#64] = some (.ok ([one, zero, one, zero] : List Ed)) ∧
    bev2int ([one, zero, one, zero] : List Ed) = some (.ok (.ok [-6#64])) ∧
    bev2int ev01 = some (.error "bev2int of symbolic bitvector") := by decide +kernel

/-- The bit-vectors written in the preamble as `int2bev 0` and `int2bev 1`. -/
theorem c95_constants : ∃ N, ∀ fuel, N ≤ fuel → int2bev (F := F) fuel [0#64] = some (.ok bev0) ∧
    int2bev (F := F) fuel [1#64] = some (.ok bev1) := by
  obtain ⟨N, h⟩ := Arbi.toString_spec [1#64] 2 (Arbi.norm_single _) (by omega) (by omega) (by decide) (by decide) (by decide)
  refine ⟨N, fun fuel hf => ?_⟩
  have e1 : Arbi.renderInt 2 (val [1#64]) = ['1'] := by decide +kernel
  have hne : ¬ (eqb (zero : F) one = true) := by
    rw [eqb_aig]; exact (Aig.one_ne (F := F)).symm
  constructor
  · have h0 : Arbi.toString fuel [0#64] 2 = some (.ok ['0']) := by simp [Arbi.toString, Arbi.top]
    unfold int2bev
    rw [show decide (Arbi.cmp0 [0#64] < 0) = false from by decide]
    simp only [Bool.false_eq_true, if_false, h0]
    simp [Res.bind, trim, eqb_refl, bev0]
  · unfold int2bev
    rw [show decide (Arbi.cmp0 [1#64] < 0) = false from by decide]
    simp only [Bool.false_eq_true, if_false, h fuel hf, e1]
    simp [Res.bind, trim, hne, bev1]

/-- C95, conversion to BDDs: if each bit is converted correctly (C24), so is the value. -/
theorem c95_to_bdd {G GEnv : Type} [Fml G GEnv] (conv : F → G) (l : List F) (ρ : Env) (ρ' : GEnv)
    (h : ∀ f ∈ l, den (conv f) ρ' = den f ρ) : sv (bexpr2bddBev conv l) ρ' = sv l ρ ∧ Trimmed (bexpr2bddBev conv l) := by
  refine ⟨?_, trimmed_trim _⟩
  unfold bexpr2bddBev list2bv
  rw [sv_trim]
  unfold sv
  congr 1
  simp only [bits, List.map_map]
  exact List.map_congr_left h

/-! ### Bits, shifts and conditionals -/

/-- C95, bits: the complement is `-a-1`, zero extension reads the bits as unsigned, the binary operators act on every bit
of the infinite two's complement expansion, and canonicalisation does not change the value. -/
theorem c95_bits (a b : List F) (ha : a ≠ []) (hb : b ≠ []) :
    (∀ ρ : Env, sv (bevNOT a) ρ = - sv a ρ - 1) ∧
    (∀ ρ : Env, sv (bevZX a) ρ = uv (bits a ρ)) ∧
    (∀ ρ : Env, sv (list2bev a) ρ = sv a ρ) ∧
    Trimmed (list2bev a) ∧ Trimmed (bevNOT a) ∧ Trimmed (bevZX a) ∧
    (∃ r, bevAND a b = some r ∧ r ≠ [] ∧ Trimmed r ∧ ∀ (ρ : Env) i, ibit (sv r ρ) i = (ibit (sv a ρ) i && ibit (sv b ρ) i)) ∧
    (∃ r, bevOR a b = some r ∧ r ≠ [] ∧ Trimmed r ∧ ∀ (ρ : Env) i, ibit (sv r ρ) i = (ibit (sv a ρ) i || ibit (sv b ρ) i)) ∧
    (∃ r, bevXOR a b = some r ∧ r ≠ [] ∧ Trimmed r ∧ ∀ (ρ : Env) i, ibit (sv r ρ) i = (ibit (sv a ρ) i ^^ ibit (sv b ρ) i)) ∧
    (∃ r, bevXNOR a b = some r ∧ r ≠ [] ∧ Trimmed r ∧
      ∀ (ρ : Env) i, ibit (sv r ρ) i = (ibit (sv a ρ) i == ibit (sv b ρ) i)) := by
  obtain ⟨_, _, h1, h2, h3, h4, h5, h6⟩ := c13_shift_bits (Env := Env) a ha
  exact ⟨h1, h2, h3, h4, h5, h6, bev_bitwise_spec _ _ den_and a b ha hb, bev_bitwise_spec _ _ den_or a b ha hb,
    bev_bitwise_spec _ _ den_xor a b ha hb, bev_bitwise_spec _ _ den_xnor a b ha hb⟩

/-- C95, the conditional: `IF c THEN t ELSE e` has the value of `t` where `c` is true and of `e` elsewhere. -/
theorem c95_then (c : F) (t e : List F) (ht : t ≠ []) (he : e ≠ []) :
    ∃ r, bevTHEN c t e = some r ∧ r ≠ [] ∧ ∀ ρ : Env, sv r ρ = if den c ρ then sv t ρ else sv e ρ := by
  have nc : list2bev [c] ≠ [] := by simp [list2bev, trim]
  have vc : ∀ ρ : Env, sv (list2bev [c]) ρ = if den c ρ then -1 else 0 := fun ρ => by
    simp only [list2bev, trim, sv, bits, List.map_cons, List.map_nil, tc, uv]
    cases den c ρ <;> simp
  have nn : bevNOT (list2bev [c]) ≠ [] := trim_ne_nil _ (by simpa using nc)
  have vn : ∀ ρ : Env, sv (bevNOT (list2bev [c])) ρ = if den c ρ then 0 else -1 := fun ρ => by
    rw [(c95_bits (list2bev [c]) t nc ht).1, vc]
    cases den c ρ <;> simp
  obtain ⟨x, x1, xn, -, x2⟩ := (c95_bits (Env := Env) (list2bev [c]) t nc ht).2.2.2.2.2.2.1
  obtain ⟨y, y1, yn, -, y2⟩ := (c95_bits (Env := Env) (bevNOT (list2bev [c])) e nn he).2.2.2.2.2.2.1
  obtain ⟨r, r1, rn, -, r2⟩ := (c95_bits (Env := Env) x y xn yn).2.2.2.2.2.2.2.1
  refine ⟨r, ?_, rn, fun ρ => Arbi.ibit_ext _ _ fun i => ?_⟩
  · unfold bevTHEN
    dsimp only
    rw [x1, y1]
    exact r1
  · rw [r2, x2, y2, vc, vn]
    cases den c ρ
    · simp [Arbi.ibit_zero, Arbi.ibit_neg_one]
    · simp [Arbi.ibit_zero, Arbi.ibit_neg_one]

example : (bevTHEN (ev 2) ev01 [zero, one, one]).map (fun r => (sv r (fun _ => true), sv r (fun _ => false))) = some (-1, 3) := by
  decide +kernel

/-- C95, sign: the two ways of negating and the absolute value. -/
theorem c95_sign (a : List F) (ha : a ≠ []) :
    (∃ r, bevUnaryMinus a = some r ∧ ∀ ρ : Env, sv r ρ = - sv a ρ) ∧
    (∃ r, bevNeg a = some r ∧ ∀ ρ : Env, sv r ρ = - sv a ρ) ∧
    (∃ r, bevabs a = some r ∧ ∀ ρ : Env, sv r ρ = |sv a ρ|) := by
  have z0 : ∀ ρ : Env, sv (bev0 : List F) ρ = 0 := sv_zero1
  have z1 : ∀ ρ : Env, sv (bev1 : List F) ρ = 1 := sv_one2
  have n0 : (bev0 : List F) ≠ [] := by simp [bev0]
  obtain ⟨r, r1, rn, -, r2⟩ := (c95_arith bev0 a n0 ha).2.1
  have hm : ∀ ρ : Env, sv r ρ = - sv a ρ := fun ρ => by rw [r2, z0]; omega
  refine ⟨⟨r, r1, hm⟩, ?_, ?_⟩
  · have nn : bevNOT a ≠ [] := trim_ne_nil _ (by simpa using ha)
    obtain ⟨s, s1, -, -, s2⟩ := (c95_arith (bevNOT a) bev1 nn (by simp [bev1])).1
    exact ⟨s, s1, fun ρ => by rw [s2, z1, (c95_bits a a ha ha).1]; omega⟩
  · obtain ⟨f, f1, f2⟩ := (c95_compare a bev0 ha n0).1
    obtain ⟨s, s1, -, s2⟩ := c95_then f r a rn ha
    refine ⟨s, ?_, fun ρ => ?_⟩
    · unfold bevabs
      rw [f1, r1]
      exact s1
    · rw [s2, f2, hm, z0]
      by_cases h : sv a ρ < 0
      · simp [h, abs_of_neg h]
      · simp only [h, decide_false, Bool.false_eq_true, if_false]
        rw [abs_of_nonneg (by omega)]

example : (bevabs ev01).map (fun r => sv r (fun n => n == 0)) = some 2 ∧
    (bevNeg ev01).map (fun r => sv r (fun n => n == 0)) = some 2 := by decide +kernel

/-- C95, shift: `bev_ashr` by fewer positions than there are bits is floor division by the power of two; by a negative
amount it is an error. -/
theorem c95_ashr_partial (a : List F) :
    (∀ n : Nat, n < a.length → ∃ r, bevAshr a n = some (.ok r) ∧ r ≠ [] ∧ ∀ ρ : Env, sv r ρ = sv a ρ / 2^n) ∧
    (∀ n : Int, n < 0 → ∃ msg, bevAshr a n = some (.error msg)) := by
  refine ⟨fun n hn => ?_, fun n hn => ⟨_, by unfold bevAshr; rw [if_pos hn]⟩⟩
  have ha : a ≠ [] := by rintro rfl; simp at hn
  by_cases h0 : n = 0
  · subst h0
    exact ⟨a, by simp [bevAshr], ha, by simp⟩
  · have h1 : ¬ (n : Int) < 0 := by omega
    have h2 : ¬ (n : Int) = 0 := by omega
    unfold bevAshr
    rw [if_neg h1, if_neg h2]
    refine ⟨_, rfl, ?_, fun ρ => by rw [sv_trim]; exact sv_take a n hn ρ⟩
    refine trim_ne_nil _ ?_
    intro hh
    have := congrArg List.length hh
    simp at this
    omega

/-- C95 fails for shifts: by as many positions as there are bits or more, `bev_ashr` gives a bit-vector without bits, and
every arithmetic use of it is undefined behaviour.  (`bv_ashr` gives the sign, C13.) -/
theorem c95_ashr_violated (a : List F) (ha : a ≠ []) (n : Nat) (hn : a.length ≤ n) (b : List F) :
    bevAshr a n = some (.ok []) ∧ bevAdd [] b = none ∧ bevMul [] b = none ∧ bevLess [] b = none ∧ bevEq [] b = none ∧
      bev2int ([] : List F) = none := by
  have hl : 0 < a.length := List.length_pos_iff.mpr ha
  refine ⟨?_, rfl, ?_, rfl, ?_, rfl⟩
  · unfold bevAshr
    rw [if_neg (by omega), if_neg (by omega)]
    have : a.length - (n : Int).toNat = 0 := by simp; omega
    rw [this]
    rfl
  · unfold bevMul; split; rfl
  · unfold bevEq; split; rfl

example : bevAshr ev01 1 = some (.ok [ev 0]) ∧ bevAshr ev01 2 = some (.ok []) ∧ bevAshr [one, zero] 5 = some (.ok ([] : List Ed)) := by
  decide +kernel

end Voss.Bv
