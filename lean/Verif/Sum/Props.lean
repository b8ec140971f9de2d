import Verif.Sum.SumLemmas
/-
C100: `bv_sum` and `gen_model_count`.

The order of the variables and what is in the record of the constants (`z`, see Verif/Sum/Model.lean) are any.
-/
namespace Voss.Sum
open Voss.Pre

variable {o : Order}

theorem of_some {α : Type} (a : α) : Out.ofOption (some a) = .ok a := rfl

theorem bind_ok {α β : Type} (a : α) (f : α → Out β) : (Out.ok a).bind f = f a := rfl

/-- C100: `gen_model_count vars fs` counts, for each function, the values of the variables in `vars` that make it true, for
each value of the other variables; unless there are no variables at all, or the variable that the record of the constants
has the number of is in `vars` and comes after a free variable. -/
theorem c100_count_partial (z : Option String) (vars : List String) (fs : List (Fn o))
    (hv : vars ≠ [] ∨ Fn.depends fs ≠ []) (hs : Safe o z vars fs) :
    ∃ rs, genModelCount z vars fs = some rs ∧
      List.Forall₂ (fun f r => ∀ η, Bv.sv r η = total vars.dedup (fun η => if Fn.ev f η then 1 else 0) η) fs rs := by
  have hall : allVars vars fs ≠ [] := fun h => by
    obtain ⟨h1, h2⟩ := all_nil.1 h
    rcases hv with h | h
    · exact h h1
    · exact h h2
  exact countLoop_spec hall hs fs [] (fun f hf => hf) (good_nil _ _)

/-- C100: `bv_sum vars bv` is the sum of the values of `bv`, which may be negative, over all values of the variables in
`vars`, each taken once, for each value of the other variables; unless there are no variables at all, or the variable that
the record of the constants has the number of is in `vars` and comes after a free variable. -/
theorem c100_sum_partial (z : Option String) (vars : List String) (bv : List (Fn o)) (hne : bv ≠ [])
    (hv : vars ≠ [] ∨ ∃ η ζ, Bv.sv bv η ≠ Bv.sv bv ζ) (hs : Safe o z vars bv) :
    ∃ r, bvSum z vars bv = .ok r ∧ r ≠ [] ∧ ∀ η, Bv.sv r η = total vars.dedup (Bv.sv bv) η := by
  obtain ⟨c, hc, hcv⟩ := geq_zero hne
  unfold bvSum
  rw [hc]
  rw [of_some, bind_ok]
  by_cases htt : c = Fn.tt o
  · rw [if_pos htt]
    obtain ⟨r, h1, hr, h3⟩ := bvSumC_pos hs (fun η => by
      have := hcv η
      rw [htt] at this
      simpa using this) (by
      rcases hv with h | ⟨η, ζ, h⟩
      · exact .inl h
      · exact .inr (.inl fun hd => h (sv_depends_nil hd η ζ)))
    exact ⟨r, by rw [h1]; rfl, hr, h3⟩
  rw [if_neg htt]
  have hcsame : ∀ η ζ : Env, (∀ f ∈ bv, f.ev η = f.ev ζ) → c.ev η = c.ev ζ := fun η ζ h => by
    rw [hcv, hcv, sv_same h]
  obtain ⟨n, n1, n2, n3⟩ := bvNeg_spec hne
  obtain ⟨pos, p1, p2, p3, p4⟩ := branch_bv c htt (x := bv) (y := [Fn.ff o]) (t := fun _ => .ok bv)
    (e := fun _ => .ok [Fn.ff o]) hne (by simp) (fun _ => rfl) (fun _ => rfl)
  obtain ⟨neg, q1, q2, q3, q4⟩ := branch_bv c htt (x := [Fn.ff o]) (y := n) (t := fun _ => .ok [Fn.ff o])
    (e := fun _ => Out.ofOption (bvNeg bv)) (by simp) n2 (fun _ => rfl) (fun _ => by rw [n1]; rfl)
  have pv : ∀ η, Bv.sv pos η = if 0 ≤ Bv.sv bv η then Bv.sv bv η else 0 := fun η => by
    rw [p3, hcv, sv_zero]; simp
  have qv : ∀ η, Bv.sv neg η = if 0 ≤ Bv.sv bv η then 0 else - Bv.sv bv η := fun η => by
    rw [q3, hcv, sv_zero, n3]; simp
  have pw : Within pos bv := fun η ζ h => p4 η ζ (hcsame η ζ h) h (by simp)
  have qw : Within neg bv := fun η ζ h => q4 η ζ (hcsame η ζ h) (by simp)
    (bvNeg_all (same_closed η ζ) h n1)
  have hneg : ∃ η, Bv.sv bv η < 0 := by
    by_contra hcon
    push Not at hcon
    exact htt (Fn.ext fun η => by rw [hcv]; simpa using hcon η)
  obtain ⟨η0, h0⟩ := hneg
  obtain ⟨ps, a1, a2, a3⟩ := bvSumC_pos (bv := pos) (pw.safe hs) (fun η => by rw [pv]; split <;> omega) (by
    by_cases hd : Fn.depends pos = []
    · refine .inr (.inr fun η => ?_)
      rw [sv_depends_nil hd η η0, pv, if_neg (by omega)]
    · exact .inr (.inl hd))
  obtain ⟨ns, b1, b2, b3⟩ := bvSumC_pos (bv := neg) (qw.safe hs) (fun η => by rw [qv]; split <;> omega) (by
    rcases hv with hv | ⟨η, ζ, hv⟩
    · exact .inl hv
    · refine .inr (.inl fun hd => hv ?_)
      have key : ∀ ξ, Bv.sv bv ξ = Bv.sv bv η0 := fun ξ => by
        have := sv_depends_nil hd ξ η0
        rw [qv, qv, if_neg (by omega : ¬ 0 ≤ Bv.sv bv η0)] at this
        split at this <;> omega
      rw [key η, key ζ])
  obtain ⟨r, r1, r2, r3⟩ := bvSub_spec ps ns a2 b2
  refine ⟨r, ?_, r2, fun η => ?_⟩
  · rw [p1, bind_ok, q1, bind_ok, a1, of_some, bind_ok, b1, of_some, bind_ok, r1, of_some]
  · rw [r3, a3, b3, ← total_sub]
    refine total_congr _ _ fun ζ => ?_
    rw [pv, qv]
    split <;> omega

/-- The counts over `a` of `a AND b` and of T. -/
example : ∃ r s, genModelCount (o := codeOrder) none ["a"] [(Fn.var _ "a").and (Fn.var _ "b"), Fn.tt _] = some [r, s] ∧
    ∀ η, Bv.sv r η = (if η "b" then 1 else 0) ∧ Bv.sv s η = 2 := by
  obtain ⟨rs, h1, h2⟩ := c100_count_partial (o := codeOrder) none ["a"] [(Fn.var _ "a").and (Fn.var _ "b"), Fn.tt _]
    (.inl (by simp)) (fun v h => by simp at h)
  cases h2 with
  | cons hr h2 => cases h2 with
    | cons hs h2 =>
      cases h2
      refine ⟨_, _, h1, fun η => ⟨?_, ?_⟩⟩
      · rw [hr]
        simp [total, Env.set]
      · rw [hs]
        simp [total]

/-- -2 or -1, for the value of `a`; the sum over `a` and `b` is -6. -/
example : ∃ r, bvSum (o := codeOrder) none ["b", "a", "b"] [Fn.tt _, Fn.var _ "a"] = .ok r ∧
    ∀ η, Bv.sv r η = -6 := by
  obtain ⟨r, h1, _, h2⟩ := c100_sum_partial (o := codeOrder) none ["b", "a", "b"] [Fn.tt _, Fn.var _ "a"] (by simp)
    (.inl (by simp)) (fun v h => by simp at h)
  refine ⟨r, h1, fun η => ?_⟩
  rw [h2, show ["b", "a", "b"].dedup = ["a", "b"] by decide]
  have e1 : ∀ η : Env, Bv.Fml.den (Fn.var codeOrder "a") η = η "a" := fun η => Fn.var_ev "a" η
  have e2 : ∀ η : Env, Bv.Fml.den (Fn.tt codeOrder) η = true := fun η => rfl
  simp [total, Bv.sv, Bv.bits, e1, e2, Bv.tc, Bv.uv, Env.set]

/-- C100 fails without variables: the result for a constant is twice the constant (bv.c:1671-1675). -/
theorem c100_constant_violated (z : Option String) (bv : List (Fn o)) (hne : bv ≠ []) (hd : Fn.depends bv = []) :
    ∃ r, bvSum z [] bv = .ok r ∧ ∀ η, Bv.sv r η = 2 * Bv.sv bv η := by
  obtain ⟨c, hc, hcv⟩ := geq_zero hne
  unfold bvSum
  rw [hc]
  rw [of_some, bind_ok]
  by_cases htt : c = Fn.tt o
  · rw [if_pos htt]
    obtain ⟨r, h1, _, h3⟩ := bvSumC_const z hd
    refine ⟨r, by rw [h1]; rfl, fun η => ?_⟩
    rw [h3, unsigned_eq]
    have := hcv η
    rw [htt] at this
    simpa using this
  have hff : c = Fn.ff o := by
    refine Fn.ext fun η => ?_
    obtain ⟨ζ, hζ⟩ := Fn.ne_tt.1 htt
    rw [hcv] at hζ ⊢
    rw [sv_depends_nil hd η ζ, hζ]
    rfl
  rw [if_neg htt]
  obtain ⟨n, n1, n2, n3⟩ := bvNeg_spec hne
  have nd : Fn.depends n = [] := by
    rw [List.eq_nil_iff_forall_not_mem]
    intro k hk
    have w : Within n bv := fun η ζ h => bvNeg_all (same_closed η ζ) h n1
    have := w.depends k hk
    rw [hd] at this
    exact absurd this (by simp)
  obtain ⟨ps, a1, a2, a3⟩ := bvSumC_const (o := o) z (bv := [Fn.ff o]) rfl
  obtain ⟨ns, b1, b2, b3⟩ := bvSumC_const z nd
  obtain ⟨r, r1, _, r3⟩ := bvSub_spec ps ns a2 b2
  refine ⟨r, ?_, fun η => ?_⟩
  · unfold branch
    have : Fn.ff o ≠ Fn.tt o := by rw [← hff]; exact htt
    rw [hff, n1]
    simp only [if_neg this, if_true]
    rw [bind_ok, of_some, bind_ok, a1, of_some, bind_ok, b1, of_some, bind_ok, r1, of_some]
  · have hlt : Bv.sv bv η < 0 := by
      have := hcv η
      rw [hff] at this
      simpa using this
    rw [r3, a3, b3, unsigned_eq (by rw [sv_zero]), unsigned_eq (by rw [n3]; omega), sv_zero, n3]
    ring

/-- `bv_sum [] '5` is 10. -/
example : bvSum (o := codeOrder) none [] [Fn.ff _, Fn.tt _, Fn.ff _, Fn.tt _] =
    .ok [Fn.ff _, Fn.tt _, Fn.ff _, Fn.tt _, Fn.ff _] := by decide +kernel

/-- C100 fails when the record of the constants has the number of a variable `x` that is summed over and comes after all free
variables (bv.c:1620-1640): `x` is taken to be free.  The sum of `y` over `x` is `2 y`; the result is `y`. -/
theorem c100_record_violated (x y : String) (h : o.pos y < o.pos x) :
    (∃ r, bvSum (some x) [x] [Fn.ff o, Fn.var o y] = .ok r ∧ ∀ η, Bv.sv r η = if η y then 1 else 0) ∧
    ∀ η, total [x] (Bv.sv [Fn.ff o, Fn.var o y]) η = 2 * (if η y then 1 else 0) := by
  have hxy : y ≠ x := fun e => by rw [e] at h; omega
  have e1 : ∀ η : Env, Bv.Fml.den (Fn.var o y) η = η y := fun η => Fn.var_ev y η
  have e2 : ∀ η : Env, Bv.Fml.den (Fn.ff o) η = false := fun η => rfl
  have e3 : ∀ η : Env, Bv.Fml.den (Fn.tt o) η = true := fun η => rfl
  have hsv : ∀ η, Bv.sv [Fn.ff o, Fn.var o y] η = if η y then 1 else 0 := fun η => by
    simp [Bv.sv, e1, e2, Bv.tc, Bv.uv]
  constructor
  · obtain ⟨c, hc, hcv⟩ := geq_zero (bv := [Fn.ff o, Fn.var o y]) (by simp)
    have htt : c = Fn.tt o := Fn.ext fun η => by
      rw [hcv, hsv]
      split <;> simp
    have hd : (Fn.var o y).1 = .node y (.leaf true) (.leaf false) := by
      simp [Fn.var, Fn.make, sortNames, ins, Dd.build, Dd.mk, Env.set]
    have hf : (Fn.ff o).1 = .leaf false := rfl
    have hall : allVars [x] [Fn.ff o, Fn.var o y] = [y, x] := by
      simp [allVars, hd, hf, Dd.vars, sortNames, ins, hxy, h]
    have hfree : freeVars [x] [Fn.ff o, Fn.var o y] = [y] := by
      simp [freeVars, Fn.depends, hd, hf, Dd.vars, sortNames, ins, hxy]
    have hcount : count (o := o) (some x) (.node y (.leaf true) (.leaf false)) (.rest [y, x]) (.rest [y]) [] =
        some (shiftLeft (Bv.iteList (Fn.var o y) [Fn.ff o, Fn.tt o] [Fn.ff o]) 0,
          [(.node y (.leaf true) (.leaf false), Bv.iteList (Fn.var o y) [Fn.ff o, Fn.tt o] [Fn.ff o])]) := by
      simp [count, skip, getNext, Conj.var, Conj.next, zeros, zerosList, shiftLeft]
    unfold bvSum
    rw [hc, of_some, bind_ok, if_pos htt, bvSumC, hall, hfree]
    simp only [Conj.ofList, reduceCtorEq, if_false, sumLoop, hf, hd, List.length_cons, List.length_nil]
    rw [count]
    simp only [Option.bind_some, hcount, Option.map_some]
    refine ⟨_, rfl, fun η => ?_⟩
    have hi := Bv.iteList_ne_nil (Fn.var o y) [Fn.ff o, Fn.tt o] [Fn.ff o] (by simp) (by simp)
    rw [Bv.sv_trim, sv_add (add_ne_nil _ _) (shiftLeft_ne_nil (shiftLeft_ne_nil hi _) _), sv_shiftLeft (shiftLeft_ne_nil hi _),
      sv_shiftLeft hi, sv_add (by simp) (shiftLeft_ne_nil (by simp) _), sv_shiftLeft (by simp), sv_zero,
      Bv.sv_iteList _ _ _ (by simp) (by simp), e1, sv_zero]
    have : Bv.sv [Fn.ff o, Fn.tt o] η = 1 := by simp [Bv.sv, e2, e3, Bv.tc, Bv.uv]
    rw [this]
    simp
  · intro η
    simp only [total, hsv]
    simp [Env.set, hxy]
    split <;> rfl

/-- There are such orders. -/
example : codeOrder.pos "a" < codeOrder.pos "b" := by decide +kernel

end Voss.Sum
