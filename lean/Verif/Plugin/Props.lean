import Verif.Plugin.Model

/-! C113: which plugin functions are accepted, and what is reported. -/

namespace Voss.Plugin

/-- The type of a function with these arguments. -/
def funType (args : List Ty) : Ty := args.foldr .arrow .other

/-- A function description that can be used: it has a name, code, a type and a strictness for each argument, and its
fixity suits its number of arguments. -/
structure Good (f : Fun) : Prop where
  name : ∃ c n, f.name = some (c :: n)
  ptr : f.hasPtr = true
  /-- Prefix and postfix functions have an argument, infix functions two. -/
  args : ∃ args s, f.type = some (funType args) ∧ f.strictness = some s ∧ s.length = args.length ∧ args.length < 100 ∧
    match f.fixity with
    | .none => True
    | .prefix | .postfix => 1 ≤ args.length
    | .infixl | .infixr => 2 ≤ args.length
    | .invalid => False
  precedence : match f.fixity with
    | .prefix => 0 ≤ f.precedence ∧ f.precedence ≤ 1
    | .infixl | .infixr => 0 ≤ f.precedence ∧ f.precedence ≤ 9
    | _ => True

theorem numArgs_funType (args : List Ty) : numArgs (funType args) = args.length := by
  induction args with
  | nil => rfl
  | cons a args ih =>
    have : funType (a :: args) = .arrow a (funType args) := rfl
    rw [this, numArgs, ih, List.length_cons]; omega

theorem exists_funType (t : Ty) : ∃ args, t = funType args := by
  induction t with
  | other => exact ⟨[], rfl⟩
  | arrow a b _ ih => obtain ⟨args, rfl⟩ := ih; exact ⟨a :: args, rfl⟩

/-- A function is accepted without an error exactly if it can be used. -/
theorem c113_accept (f : Fun) : checkFun f = some [] ↔ Good f := by
  obtain ⟨name, type, strictness, ptr, fixity, prec⟩ := f
  constructor
  · intro h
    cases type with
    | none => cases strictness <;> cases fixity <;> simp [checkFun, checkFixity, checkArgs] at h
    | some t =>
      cases strictness with
      | none => cases fixity <;> simp [checkFun, checkFixity, checkArgs] at h
      | some s =>
        obtain ⟨args, rfl⟩ := exists_funType t
        cases fixity <;>
          simp [-Nat.lt_one_iff, numArgs_funType, checkFun, checkFixity, checkArgs, checkPtr, checkName, checkType, checkStrictness, checkPrecedence] at h <;>
          (refine ⟨?_, by simp_all, ⟨args, s, rfl, rfl, by omega, by omega, ?_⟩, ?_⟩) <;>
          first
          | (cases name with
              | none => simp at h
              | some n => cases n with
                | nil => simp at h
                | cons c n => exact ⟨c, n, rfl⟩)
          | (simp; try omega)
  · rintro ⟨⟨c, n, hn⟩, hp, ⟨args, s, ht, hs, hl, hb, ha⟩, hpr⟩
    simp only at hn hp ht hs ha hpr
    subst hn hp ht hs
    cases fixity <;>
      simp [-Nat.lt_one_iff, numArgs_funType, checkFun, checkFixity, checkArgs, checkPtr, checkName, checkType, checkStrictness, checkPrecedence] at ha hpr ⊢ <;>
      omega

example : Good ⟨some ['f'], some (.arrow .other (.arrow .other .other)), some ['1', '1'], true, .infixl, 3⟩ :=
  ⟨⟨_, _, rfl⟩, rfl, ⟨[.other, .other], _, rfl, rfl, rfl, by decide, by decide⟩, by decide⟩

/-- Functions are added only if all of them can be used and nothing was wrong before; then all are. -/
theorem c113_register (ok : Bool) (errs : Nat) (l r : List Fun) (h : registerFuns ok errs l = some r) :
    (r = l ∧ ok = true ∧ errs = 0 ∧ ∀ f ∈ l, Good f) ∨ (r = [] ∧ ¬ (ok = true ∧ errs = 0 ∧ ∀ f ∈ l, Good f)) := by
  have key : ∀ (l : List Fun), checkFuns l = some [] ↔ ∀ f ∈ l, Good f := by
    intro l
    induction l with
    | nil => simp [checkFuns]
    | cons f l ih =>
      rw [List.forall_mem_cons, ← ih, ← c113_accept, checkFuns]
      constructor
      · intro h
        simp only [Option.bind_eq_some_iff, Option.some.injEq, List.append_eq_nil_iff] at h
        obtain ⟨e, he, r, hr, rfl, rfl⟩ := h
        exact ⟨he, hr⟩
      · rintro ⟨h1, h2⟩; simp [h1, h2]
  unfold registerFuns at h
  cases ok with
  | false => simp at h; subst h; right; simp
  | true =>
    simp only [Bool.not_true, Bool.false_eq_true, if_false, Option.bind_eq_some_iff, Option.some.injEq] at h
    obtain ⟨e, he, hr⟩ := h
    by_cases hz : errs + e.length > 0
    · rw [if_pos hz] at hr
      refine .inr ⟨hr.symm, ?_⟩
      rintro ⟨_, h0, hg⟩
      rw [(key l).2 hg] at he
      simp at he; subst he; simp at hz; omega
    · rw [if_neg hz] at hr
      have : e = [] := List.length_eq_zero_iff.1 (by omega)
      subst this
      exact .inl ⟨hr.symm, rfl, by omega, (key l).1 he⟩

example : registerFuns true 0 [⟨some ['f'], some (.arrow .other .other), some ['1'], true, .none, 0⟩,
    ⟨some ['g'], some .other, some ['1'], true, .none, 0⟩] = some [] := by rfl

/-- Negation of "a function without a type or strictness is reported": exactly these functions make the check follow a null
pointer, after it has found that the pointer is null. -/
theorem c113_null_violated (f : Fun) : checkFun f = none ↔ f.type = none ∨ f.strictness = none := by
  obtain ⟨name, type, strictness, ptr, fixity, prec⟩ := f
  cases type <;> cases strictness <;> cases fixity <;> simp [checkFun, checkFixity, checkArgs]

/-- The texts of the errors are reported one after the other, cut to the size of the buffer, exactly if all but the last
fit. -/
theorem c113_errors (max : Nat) (hm : 0 < max) (pre : List Char) (errs : List (List Char)) :
    getErrors max pre errs =
      if ((errs.dropLast.map fun e => pre ++ e ++ ['\n']).flatten).length ≤ max
      then some (((errs.map fun e => pre ++ e ++ ['\n']).flatten).take (max - 1)) else none := by
  have key : ∀ (l : List (List Char)) (done : List Char), done.length ≤ max ∨ l = [] →
      errorLoop max done.length (done.take (max - 1)) l =
        if (done ++ l.dropLast.flatten).length ≤ max ∨ l = [] then some ((done ++ l.flatten).take (max - 1)) else none := by
    intro l
    induction l with
    | nil => intro done _; simp [errorLoop]
    | cons t l ih =>
      intro done hd
      have hd : done.length ≤ max := by rcases hd with h | h; exact h; exact absurd h (by simp)
      have hs : snprintf max done.length (done.take (max - 1)) t = some ((done ++ t).take (max - 1)) := by
        unfold snprintf
        by_cases h : done.length < max
        · rw [if_pos h, List.take_append, List.take_of_length_le (l := done) (by omega)]
          congr 3; omega
        · have e : done.length = max := by omega
          rw [if_neg h, if_pos e, List.take_append_of_le_length (by omega)]
      rw [errorLoop, hs, Option.bind_some, ← List.length_append]
      cases l with
      | nil =>
        simp [errorLoop]; assumption
      | cons u l =>
        have e1 : (t :: u :: l).dropLast = t :: (u :: l).dropLast := rfl
        by_cases hl : (done ++ t).length ≤ max
        · rw [ih (done ++ t) (.inl hl), e1]
          simp
        · have e2 : ¬ ((done ++ (t :: u :: l).dropLast.flatten).length ≤ max ∨ (t :: u :: l) = []) := by
            rw [e1]; simp at hl ⊢; omega
          rw [if_neg e2, errorLoop]
          have : snprintf max (done ++ t).length ((done ++ t).take (max - 1)) u = none := by
            unfold snprintf; rw [if_neg (by omega), if_neg (by omega)]
          rw [this]; rfl
  have h := key (errs.map fun e => pre ++ e ++ ['\n']) [] (.inl (by simp))
  simp only [List.length_nil, List.take_nil, List.nil_append] at h
  rw [getErrors, h]
  cases errs with
  | nil => simp
  | cons e l =>
    have : ¬ ((e :: l).map fun e => pre ++ e ++ ['\n']) = [] := by simp
    simp only [this, or_false, List.map_dropLast]

example : getErrors 100 "  * ".toList ["a".toList, "b".toList] = some "  * a\n  * b\n".toList := by
  rw [c113_errors _ (by decide)]; decide

/-- Negation of "errors are reported within the buffer": as soon as the texts before the last one are longer than the
buffer, the next one is written after it, whatever its size. -/
theorem c113_errors_violated (max : Nat) (pre : List Char) (hm : 0 < max) :
    ∃ n, ∀ k, n ≤ k → getErrors max pre (List.replicate k ['x']) = none := by
  refine ⟨max + 1, fun k hk => ?_⟩
  rw [c113_errors max hm, if_neg]
  obtain ⟨j, rfl⟩ : ∃ j, k = j + 1 := ⟨k - 1, by omega⟩
  have : (List.replicate (j + 1) ['x']).dropLast = List.replicate j ['x'] := by simp
  rw [this, List.map_replicate]
  have hl : ∀ (n : Nat) (t : List Char), ((List.replicate n t).flatten).length = n * t.length := by
    intro n t; simp
  rw [hl]
  have h2 : 2 ≤ (pre ++ ['x'] ++ ['\n']).length := by simp
  have : j * 2 ≤ j * (pre ++ ['x'] ++ ['\n']).length := Nat.mul_le_mul_left _ h2
  omega

end Voss.Plugin
