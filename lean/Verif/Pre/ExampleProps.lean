import Verif.Pre.ExampleLemmas
/-
Property theorems C87: examples of a condition.

`f.ev η` is the value of the function `f` under the assignment `η` of the variables; `assign l η` is `η` with the
values of `l` (first of a name counts); `Bv.sv bv η` is the number that a bit-vector denotes (C08).
-/
namespace Voss.Pre
variable {o : Order}
open Fn

/-- C87, `forcing`: of a condition that can be satisfied, the listed variables with their values are exactly
those that every way of satisfying it agrees on; of one that cannot be satisfied nothing is listed. -/
theorem c87_forcing (cond : Fn o) :
    (∀ v b, (v, b) ∈ forcing cond.1 ↔ (∃ η, cond.ev η = true) ∧ ∀ η, cond.ev η = true → η v = b) ∧
    ((forcing cond.1).map Prod.fst).Nodup :=
  ⟨fun v b => forcing_iff cond.2 v b, forcing_nodup cond.2⟩

/-- a, b and c, where a holds, and b differs from c. -/
def odd (o : Order) : Fn o := (var o "a").and ((var o "b").xor (var o "c"))

example : forcing (odd codeOrder).1 = [("a", true)] := by decide +kernel
example : forcing ((odd codeOrder).and (var codeOrder "c")).1 = [("a", true), ("b", false), ("c", true)] := by
  decide +kernel

/-- C87, `example`: of a condition that can be satisfied, a value is given to each of its variables, once, in the
order of the variables; whatever the other variables are, the condition holds with these values; and where a
value is not the preferred one, it was forced by the condition and the values given before it. -/
theorem c87_example (pref : Bool) (cond : Fn o) (h : ∃ η, cond.ev η = true) :
    (exampleOf pref cond).map Prod.fst = depends [cond] ∧
    (∀ η, cond.ev (assign (exampleOf pref cond) η) = true) ∧
    (∀ l1 l2 v b, exampleOf pref cond = l1 ++ (v, b) :: l2 → b ≠ pref →
      ∀ η, cond.ev η = true → (∀ p ∈ l1, η p.1 = p.2) → η v = b) :=
  ⟨select_names _ _ _, select_sat pref _ cond h fun _ hn => hn,
   fun l1 l2 v b e hb η => select_first pref _ cond l1 l2 v b e hb η⟩

example : ∃ η, (odd codeOrder).ev η = true := ⟨fun n => n ≠ "c", by simp [odd]⟩
example : exampleOf false (odd codeOrder) = [("a", true), ("b", false), ("c", true)] ∧
    exampleOf true (odd codeOrder) = [("a", true), ("b", true), ("c", false)] := by decide +kernel

/-- C87, `full_example`: it fails exactly if a variable of the condition is not in the list; otherwise a value is
given to each variable of the list and, if the condition can be satisfied, it holds with these values.  The part
that is missing is the condition that cannot be satisfied. -/
theorem c87_full_partial (pref : Bool) (vars : List String) (cond : Fn o) :
    (fullExample pref vars cond = none ↔ ∃ v ∈ depends [cond], v ∉ vars) ∧
    ∀ l, fullExample pref vars cond = some l → l.map Prod.fst = vars ∧
      ((∃ η, cond.ev η = true) → ∀ η, cond.ev (assign l η) = true) := by
  unfold fullExample
  by_cases hc : (depends [cond]).filter (· ∉ vars) ≠ []
  · rw [if_pos hc]
    refine ⟨⟨fun _ => ?_, fun _ => rfl⟩, fun l h => by simp at h⟩
    obtain ⟨v, hv⟩ := List.exists_mem_of_ne_nil _ hc
    rw [List.mem_filter, decide_eq_true_iff] at hv
    exact ⟨v, hv⟩
  · rw [if_neg hc]
    rw [ne_eq, Classical.not_not, List.filter_eq_nil_iff] at hc
    have hsub : ∀ v ∈ depends [cond], v ∈ vars := fun v hv => by simpa using hc v hv
    refine ⟨⟨fun h => by simp at h, fun ⟨v, a, b⟩ => absurd (hsub v a) b⟩, fun l h => ?_⟩
    simp only [Option.some.injEq] at h
    subst h
    exact ⟨select_names _ _ _, fun hs => select_sat pref vars cond hs hsub⟩

example : fullExample false ["b", "d", "a", "c"] (odd codeOrder) =
    some [("b", false), ("d", false), ("a", true), ("c", true)] ∧
    fullExample false ["b", "a"] (odd codeOrder) = none := by decide +kernel

/-- The missing part: of a condition that cannot be satisfied, `full_example` gives an example all the same. -/
theorem c87_full_violated : ∃ (cond : Fn codeOrder) (vars : List String) (l : List (String × Bool)),
    fullExample true vars cond = some l ∧ ∀ η, cond.ev (assign l η) = false :=
  ⟨ff _, ["a", "b"], [("a", false), ("b", false)], by decide +kernel, fun η => by simp⟩

/-- C87, `enumerate_examples`: what is listed are values of the variables with which the function can be
satisfied, none is listed twice, and at most as many as asked for; when "..." is listed there are exactly as many
as asked for; and when it is not, all ways of satisfying the function are listed.  The part that is missing is
that "..." means that there are more. -/
theorem c87_enumerate_partial (max : Int) (hmax : 0 ≤ max) (vars : List String) (f : Fn o) (hnd : vars.Nodup) :
    (∀ ex, some ex ∈ enumerateExamples max vars f → ∃ η, f.ev η = true ∧ vars.map η = ex) ∧
    ((enumerateExamples max vars f).filterMap id).Nodup ∧
    (((enumerateExamples max vars f).filterMap id).length : Int) ≤ max ∧
    (none ∈ enumerateExamples max vars f → (((enumerateExamples max vars f).filterMap id).length : Int) = max) ∧
    (none ∉ enumerateExamples max vars f → ∀ η, f.ev η = true → some (vars.map η) ∈ enumerateExamples max vars f) := by
  obtain ⟨h1, h2, h3, h4, h5⟩ := enumGo_spec vars hnd max.toNat f
  refine ⟨h1, h2, ?_, fun h => ?_, h5⟩
  · show (((enumGo vars max.toNat f).filterMap id).length : Int) ≤ max
    omega
  · have := h4 h
    show (((enumGo vars max.toNat f).filterMap id).length : Int) = max
    omega

example : enumerateExamples 5 ["a", "b", "c"] (odd codeOrder) =
    [some [true, false, true], some [true, true, false]] := by decide +kernel

/-- The missing part: "..." although all ways of satisfying the function are listed. -/
theorem c87_dots_violated : ∃ (f : Fn codeOrder) (vars : List String),
    none ∈ enumerateExamples 2 vars f ∧ ∀ η, f.ev η = true → some (vars.map η) ∈ enumerateExamples 2 vars f := by
  refine ⟨odd _, ["a", "b", "c"], by decide +kernel, fun η h => ?_⟩
  have e : enumerateExamples 2 ["a", "b", "c"] (odd codeOrder) =
    [some [true, false, true], some [true, true, false], none] := by decide +kernel
  rw [e]
  simp only [odd, and_ev, xor_ev, var_ev] at h
  simp only [List.map_cons, List.map_nil]
  generalize η "a" = x at *
  generalize η "b" = y at *
  generalize η "c" = z at *
  revert h
  cases x <;> cases y <;> cases z <;> decide

/-- C87, `bv_examples`: the bit-vectors take the listed numbers together, none is listed twice; when "..." is not
printed all that they can take are listed, and when it is, there are more than asked for.  The part that is
missing is that at most as many as asked for are printed. -/
theorem c87_bv_partial (cnt : Nat) (bvs : List (List (Fn o))) (hne : ∀ a ∈ bvs, a ≠ []) : ∃ exs dots,
    bvExamples cnt bvs = some (exs, dots) ∧
    (∀ ex ∈ exs, ∃ η, bvs.map (fun a => Bv.sv a η) = ex) ∧ exs.Nodup ∧ exs.length ≤ cnt + 1 ∧
    (dots = false → exs.length ≤ cnt ∧ ∀ η, bvs.map (fun a => Bv.sv a η) ∈ exs) ∧
    (dots = true → exs.length = cnt + 1) := by
  obtain ⟨exs, h1, h2, h3, h4, h5⟩ := bvExGo_spec bvs hne (cnt + 1) (tt o) (by
    intro m hm
    rw [mem_depends] at hm
    obtain ⟨g, hg, η, h⟩ := hm
    simp only [List.mem_singleton] at hg
    subst hg
    simp at h)
  refine ⟨exs, decide (exs.length > cnt), by rw [bvExamples, h1]; rfl, fun ex hex => ?_, h3, h4, fun hd => ?_, fun hd => ?_⟩
  · obtain ⟨η, _, e⟩ := h2 ex hex
    exact ⟨η, e⟩
  · have : ¬ exs.length > cnt := by simpa using hd
    exact ⟨by omega, fun η => h5 (by omega) η (by simp)⟩
  · have : exs.length > cnt := by simpa using hd
    omega

example : bvExamples 3 [[ff codeOrder, var codeOrder "a", tt codeOrder], [var codeOrder "a", var codeOrder "b"]] =
    some ([[1, 0], [1, 1], [3, -2], [3, -1]], true) := by decide +kernel

/-- The missing part: at most three examples are asked for, and four are printed. -/
theorem c87_count_violated : ∃ (bvs : List (List (Fn codeOrder))) (exs : List (List Int)) (dots : Bool),
    bvExamples 3 bvs = some (exs, dots) ∧ exs.length > 3 :=
  ⟨[[ff codeOrder, var codeOrder "a", tt codeOrder], [var codeOrder "a", var codeOrder "b"]],
   [[1, 0], [1, 1], [3, -2], [3, -1]], true, by decide +kernel, by decide⟩

end Voss.Pre
