import Verif.Pre.FparamLemmas
/-
Property theorems C86: the parametric representation of a condition.

`under sub η` is the assignment that a substitution makes of the assignment `η` (Fn.lean); `f.ev η` is the value
of the function `f`.  The condition is any Boolean function, over any variables, in any variable order.
-/
namespace Voss.Pre
variable {o : Order}
open Fn

/-- C86.  The parametric representation of a condition that can be satisfied replaces exactly the variables of
the condition, by functions of these variables; whatever values the variables have, the replaced values satisfy
the condition; and values that satisfy the condition are replaced by themselves (so every way of satisfying the
condition is obtained). -/
theorem c86_param (cond : Fn o) (h : ∃ η, cond.ev η = true) : ∃ sub, param cond = some sub ∧
    sub.map Prod.fst = depends [cond] ∧
    (∀ p ∈ sub, ∀ n ∈ depends [p.2], n ∈ depends [cond]) ∧
    (∀ η, cond.ev (under sub η) = true) ∧
    (∀ η, cond.ev η = true → under sub η = η) := by
  obtain ⟨sub, e, h1, h2, h3, h4⟩ := param_spec (ne_ff.2 h)
  refine ⟨sub, e, h1, fun p hp n hn => ?_, h2, h3⟩
  rw [mem_depends] at hn
  obtain ⟨g, hg, η, hne⟩ := hn
  simp only [List.mem_singleton] at hg
  subst hg
  by_contra hcon
  refine hne (h4 p hp _ _ fun m hm => ?_)
  have : m ≠ n := fun e => hcon (e ▸ hm)
  simp [Env.set, this]

/-- A condition that cannot be satisfied has no parametric representation: `param` fails. -/
theorem c86_param_false (cond : Fn o) (h : ∀ η, cond.ev η = false) : param cond = none ∧ fparam [] cond = none := by
  have : cond = ff o := ff_iff.2 h
  subst this
  exact ⟨by simp [param], rfl⟩

/-- a, b and c, of which at least two are true. -/
def two (o : Order) : Fn o :=
  (((var o "a").and (var o "b")).or ((var o "a").and (var o "c"))).or ((var o "b").and (var o "c"))

example : ∃ η, (two codeOrder).ev η = true := ⟨fun _ => true, by simp [two]⟩
/-- `a` is free, `b` must hold unless `a` does, and `c` depends on both. -/
example : param (two codeOrder) = some [("a", var codeOrder "a"),
    ("b", ((var codeOrder "a").not).or (var codeOrder "b")),
    ("c", ((var codeOrder "a").and (var codeOrder "b")).not.or (var codeOrder "c"))] := by decide +kernel

/-- C86, for `fparam`: solving for the variables `vars`, the other variables of the condition being constants.
The replaced values satisfy the condition for all values of the constants with which it can be satisfied; and
every way of satisfying it is obtained by some choice of the new variables (and only these).  The part that is
missing: the names of the new variables must be apart from each other and from the constants. -/
theorem c86_fparam_partial (vars : List String) (f : Fn o) (hnd : vars.Nodup) (hf : ∃ η, f.ev η = true)
    (hfresh : Fresh vars f) : ∃ sub, fparam vars f = some sub ∧ sub.map Prod.fst = vars ∧
      (∀ η, (∃ ζ : Env, (∀ n, n ∉ vars → ζ n = η n) ∧ f.ev ζ = true) → f.ev (under sub η) = true) ∧
      (∀ η, f.ev η = true →
        ∃ ζ : Env, (∀ n, (∀ v ∈ vars, n ≠ nxt v) → ζ n = η n) ∧ ∀ v ∈ vars, under sub ζ v = η v) :=
  fparam_spec hnd (ne_ff.2 hf) hfresh

example : Fresh ["a", "b"] (two codeOrder) ∧ (∃ η, (two codeOrder).ev η = true) := by
  refine ⟨⟨?_, ?_⟩, fun _ => true, by simp [two]⟩ <;> decide +kernel
example : fparam ["a", "b"] (two codeOrder) = some
    [("a", (var codeOrder "c").not.or (var codeOrder "a_n")),
     ("b", Fn.ite ((var codeOrder "c").not.or (var codeOrder "a_n")) ((var codeOrder "c").not.or (var codeOrder "b_n"))
       (tt codeOrder))] := by decide +kernel

/-- The missing part.  When a constant of the condition has the name of a new variable, ways of satisfying the
condition are lost: solving "`b` differs from `a_n`" for `a` and `b` makes `a` equal to `a_n`. -/
theorem c86_clash_violated : ∃ (vars : List String) (f : Fn codeOrder) (sub : List (String × Fn codeOrder)) (η : Env),
    vars.Nodup ∧ fparam vars f = some sub ∧ f.ev η = true ∧
    ∀ ζ : Env, (∀ n ∈ depends [f], n ∉ vars → ζ n = η n) → ¬ ∀ v ∈ vars, under sub ζ v = η v := by
  refine ⟨["a", "b"], (var codeOrder "b").xor (var codeOrder "a_n"),
    [("a", var codeOrder "a_n"), ("b", (var codeOrder "a_n").not)], fun n => n = "a_n", by decide, by decide +kernel,
    by simp, fun ζ h1 h2 => ?_⟩
  have e1 := h1 "a_n" (by decide +kernel) (by decide)
  have e2 := h2 "a" (by simp)
  rw [under_cons] at e2
  simp [Env.set] at e1 e2
  rw [e1] at e2
  exact absurd e2 (by simp)

/-- And when the new name of one variable is the name of another one, the failure to rename is caught and the
variable is left free: solving "`a` or `a_n`" for both replaces both by `a_n`, which does not satisfy it. -/
theorem c86_overlap_violated : ∃ (vars : List String) (f : Fn codeOrder) (sub : List (String × Fn codeOrder)) (η : Env),
    vars.Nodup ∧ (∀ n ∈ depends [f], n ∈ vars) ∧ (∃ ζ, f.ev ζ = true) ∧ fparam vars f = some sub ∧
    f.ev (under sub η) = false := by
  refine ⟨["a", "a_n"], (var codeOrder "a").or (var codeOrder "a_n"),
    [("a", var codeOrder "a_n"), ("a_n", var codeOrder "a_n")], fun _ => false, by decide, by decide +kernel,
    ⟨fun _ => true, by simp⟩, by decide +kernel, ?_⟩
  simp [under_cons, Env.set]

/-- C86, for vectors of variables: a vector constrained by a predicate takes exactly the values that the
predicate allows. -/
theorem c86_constrained_partial (names : List String) (pred : List (Fn o) → Fn o) (hnd : names.Nodup)
    (hsat : ∃ η, (pred (names.map (var o))).ev η = true) (hfresh : Fresh names (pred (names.map (var o)))) :
    ∃ bits, constrained names pred = some bits ∧
      (∀ η, (∃ ζ : Env, (∀ n, n ∉ names → ζ n = η n) ∧ (pred (names.map (var o))).ev ζ = true) →
        ∃ ξ : Env, (∀ n, n ∉ names → ξ n = η n) ∧ (pred (names.map (var o))).ev ξ = true ∧
          bits.map (·.ev η) = names.map ξ) ∧
      (∀ ξ, (pred (names.map (var o))).ev ξ = true → ∃ η : Env,
        (∀ n, (∀ v ∈ names, n ≠ nxt v) → η n = ξ n) ∧ bits.map (·.ev η) = names.map ξ) := by
  generalize hv : depends (names.map (var o)) = vs
  have hmem : ∀ n, n ∈ vs ↔ n ∈ names := fun n => by rw [← hv]; exact depends_vars
  have hvnd : vs.Nodup := by rw [← hv]; exact (depends_sorted _).nodup
  obtain ⟨sub, e, h1, h2, h3⟩ := c86_fparam_partial vs (pred (names.map (var o))) hvnd hsat
    ⟨fun v a w b => hfresh.1 v ((hmem v).1 a) w ((hmem w).1 b),
     fun v a b => (hmem _).2 (hfresh.2 v ((hmem v).1 a) b)⟩
  have hb : ∀ η, ((names.map (var o)).map (subst sub)).map (·.ev η) = names.map (under sub η) := by
    intro η
    rw [List.map_map, List.map_map]
    refine List.map_congr_left fun n _ => ?_
    simp
  refine ⟨(names.map (var o)).map (subst sub), ?_, fun η hη => ?_, fun ξ hξ => ?_⟩
  · unfold constrained
    simp only [ne_ff.2 hsat, if_false, hv, e, Option.bind_some, h1, hvnd, if_true]
  · obtain ⟨ζ, a, b⟩ := hη
    refine ⟨under sub η, fun n hn => under_notin (by rw [h1, hmem]; exact hn) η, h2 η ⟨ζ, fun n hn => a n fun h => hn ((hmem n).2 h), b⟩, hb η⟩
  · obtain ⟨ζ, a, b⟩ := h3 ξ hξ
    refine ⟨ζ, fun n hn => a n fun v hv => hn v ((hmem v).1 hv), ?_⟩
    rw [hb]
    exact List.map_congr_left fun n hn => b n ((hmem n).2 hn)

/-- Two bits that are not both false. -/
example : constrained ["a", "b"] (fun v => (v.getD 0 (ff codeOrder)).or (v.getD 1 (ff codeOrder))) = some
    [var codeOrder "a_n", (var codeOrder "a_n").not.or (var codeOrder "b_n")] := by decide +kernel

/-- C86: renaming to next-state variables and back is the identity, and is refused exactly when a variable that
would be introduced is there already. -/
theorem c86_next (fs : List (Fn o)) :
    ((∃ c ∈ depends fs, isNext c = false ∧ c ++ "_n" ∈ depends fs) → current2next fs = none) ∧
    ((∀ c ∈ depends fs, isNext c = false → c ++ "_n" ∉ depends fs) → ∃ rs, current2next fs = some rs ∧
      List.Forall₂ (fun f r => ∀ η, r.ev η = f.ev fun n => η (if isNext n then n else n ++ "_n")) fs rs) ∧
    ((∀ c ∈ depends fs, isNext c = false) → (current2next fs).bind next2current = some fs) := by
  refine ⟨fun ⟨c, h1, h2, h3⟩ => current2next_none h1 h2 h3, fun h => current2next_some h, fun h => ?_⟩
  have hno : ∀ c ∈ depends fs, isNext c = false → c ++ "_n" ∉ depends fs := by
    intro c _ _ hc2
    have := h _ hc2
    rw [isNext_append] at this
    exact absurd this (by simp)
  obtain ⟨rs, e, hF⟩ := current2next_some hno
  rw [e, Option.bind_some]
  -- the variables of the renamed functions
  have hdep : ∀ n ∈ depends rs, ∃ c ∈ depends fs, n = c ++ "_n" := by
    intro n hn
    rw [mem_depends] at hn
    obtain ⟨r, hr, η, hne⟩ := hn
    obtain ⟨i, hi, rfl⟩ := List.mem_iff_getElem.1 hr
    have hi' : i < fs.length := by rw [hF.length_eq]; exact hi
    have hfr := hF.get hi' hi
    simp only [List.get_eq_getElem] at hfr
    by_contra hcon
    push Not at hcon
    apply hne
    rw [hfr, hfr]
    refine ev_depends (List.getElem_mem hi') fun m hm => ?_
    have hmx := h m hm
    simp only [nxt, hmx, Bool.false_eq_true, if_false, Env.set]
    rw [if_neg (Ne.symm (hcon m hm)), if_neg (Ne.symm (hcon m hm))]
  have hcut : ∀ c : String, String.ofList ((c ++ "_n").toList.take ((c ++ "_n").toList.length - 2)) = c := by
    intro c
    rw [String.toList_append]
    have : "_n".toList = ['_', 'n'] := by decide +kernel
    rw [this]
    simp
  unfold next2current
  have hcur : (depends rs).filter (fun s => !isNext s) = [] := by
    rw [List.filter_eq_nil_iff]
    intro n hn
    obtain ⟨c, _, rfl⟩ := hdep n hn
    simp [isNext_append]
  have hnx : (depends rs).filter isNext = depends rs := by
    rw [List.filter_eq_self]
    intro n hn
    obtain ⟨c, _, rfl⟩ := hdep n hn
    exact isNext_append c
  dsimp only
  rw [hcur, hnx, if_pos (by simp)]
  congr 1
  refine List.ext_getElem (by simp [hF.length_eq]) fun i h1 h2 => ?_
  rw [List.getElem_map]
  have h3 : i < rs.length := by simpa using h1
  have hfr := hF.get h2 h3
  simp only [List.get_eq_getElem] at hfr
  refine Fn.ext fun η => ?_
  rw [subst_ev, hfr]
  refine ev_depends (List.getElem_mem h2) fun n hn => ?_
  have hnx' := h n hn
  simp only [nxt, hnx', Bool.false_eq_true, if_false]
  unfold under
  rw [lookup_map_var (g := fun n => var o (String.ofList (n.toList.take (n.toList.length - 2))))]
  by_cases hin : n ++ "_n" ∈ depends rs
  · rw [if_pos hin]
    simp only [var_ev, hcut]
  · exfalso
    apply hin
    rw [mem_depends] at hn ⊢
    obtain ⟨f, hf, ξ, hne⟩ := hn
    obtain ⟨j, hj, rfl⟩ := List.mem_iff_getElem.1 hf
    have hj' : j < rs.length := by rw [← hF.length_eq]; exact hj
    have hfr' := hF.get hj hj'
    simp only [List.get_eq_getElem] at hfr'
    refine ⟨rs[j], List.getElem_mem hj', fun m => ξ (String.ofList (m.toList.take (m.toList.length - 2))), ?_⟩
    rw [hfr', hfr']
    have key : ∀ b, fs[j].ev (fun m => Env.set (fun m => ξ (String.ofList (m.toList.take (m.toList.length - 2)))) (n ++ "_n") b (nxt m)) =
        fs[j].ev (ξ.set n b) := by
      intro b
      refine ev_depends (List.getElem_mem hj) fun m hm => ?_
      have hmx := h m hm
      simp only [nxt, hmx, Bool.false_eq_true, if_false, Env.set, hcut]
      by_cases hmn : m = n
      · simp [hmn]
      · rw [if_neg hmn, if_neg fun e => hmn (append_n_inj e)]
    rw [key, key]
    exact hne

example : (current2next [two codeOrder]).bind next2current = some [two codeOrder] := by decide +kernel
example : current2next [(var codeOrder "a").xor (var codeOrder "a_n")] = none := by decide +kernel

end Voss.Pre
