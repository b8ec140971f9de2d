import Verif.Lib.Name
/-
`node_name_cmp` is the lexicographic comparison of token sequences.
-/
namespace Voss.Lib.Name

theorem tokens_some (s : List Nat) : ∀ n, tokens (some n) s = .num (digitsVal n s) :: tokens none (skipDigits s) := by
  induction s with
  | nil => intro n; rfl
  | cons c s ih =>
    intro n
    cases hc : isDigit c with
    | true => simp only [tokens, digitsVal, skipDigits, hc, if_true]; exact ih _
    | false => simp [tokens, digitsVal, skipDigits, hc]

theorem tokens_digit {c : Nat} {s : List Nat} (hc : isDigit c = true) :
    tokens none (c :: s) = .num (digitsVal 0 (c :: s)) :: tokens none (skipDigits (c :: s)) := by
  have : tokens none (c :: s) = tokens (some (c - 48)) s := by simp [tokens, hc]
  rw [this, tokens_some]
  simp [digitsVal, skipDigits, hc]

theorem tokens_other {c : Nat} {s : List Nat} (hc : isDigit c = false) :
    tokens none (c :: s) = .ch c :: tokens none s := by simp [tokens, hc]

/-- All characters in tokens are not digits. -/
def Good : Tok → Prop
  | .num _ => True
  | .ch c => isDigit c = false

theorem tokens_good (s : List Nat) : ∀ a, ∀ k ∈ tokens a s, Good k := by
  induction s with
  | nil => intro a; cases a <;> simp [tokens, Good]
  | cons c s ih =>
    intro a
    cases hc : isDigit c with
    | true =>
      cases a with
      | none => simp only [tokens, hc, if_true]; exact ih _
      | some n => simp only [tokens, hc, if_true]; exact ih _
    | false =>
      cases a with
      | none => simp only [tokens, hc, Bool.false_eq_true, if_false, List.mem_cons]
                rintro k (rfl | h)
                · exact hc
                · exact ih _ k h
      | some n => simp only [tokens, hc, Bool.false_eq_true, if_false, List.mem_cons]
                  rintro k (rfl | rfl | h)
                  · trivial
                  · exact hc
                  · exact ih _ k h

theorem skip_length (s : List Nat) : (skipDigits s).length ≤ s.length := by
  induction s with
  | nil => simp [skipDigits]
  | cons c s ih => simp only [skipDigits]; split <;> simp only [List.length_cons] <;> omega

/-- Result of a comparison: negative, zero, positive. -/
def Sign (r : Int) (lt gt : Bool) : Prop := (r < 0 ↔ lt = true) ∧ (0 < r ↔ gt = true)

theorem strcmp_ne {c d : Nat} {s t : List Nat} (h : c ≠ d) : strcmp (c :: s) (d :: t) = if c < d then -1 else 1 := by
  simp [strcmp, h]

theorem digit_iff {c : Nat} : isDigit c = true ↔ 48 ≤ c ∧ c ≤ 57 := by simp [isDigit]
theorem digit_iff' {c : Nat} : isDigit c = false ↔ ¬ (48 ≤ c ∧ c ≤ 57) := by simp [isDigit]

theorem cmpLoop_spec : ∀ (fuel : Nat) (s t : List Nat), s.length < fuel → Fits s → Fits t →
    ∃ r, cmpLoop fuel s t = some r ∧ Sign r (lexLt (tokens none s) (tokens none t)) (lexLt (tokens none t) (tokens none s)) := by
  intro fuel
  induction fuel with
  | zero => intro s t h; omega
  | succ fuel ih =>
    intro s t hl hs ht
    cases s with
    | nil =>
      cases t with
      | nil => exact ⟨0, rfl, by simp [Sign, tokens, lexLt]⟩
      | cons d t =>
        refine ⟨-1, rfl, ?_⟩
        cases hd : isDigit d with
        | true => rw [tokens_digit hd]; simp [Sign, tokens, lexLt]
        | false => rw [tokens_other hd]; simp [Sign, tokens, lexLt]
    | cons c s =>
      cases t with
      | nil =>
        refine ⟨1, rfl, ?_⟩
        cases hd : isDigit c with
        | true => rw [tokens_digit hd]; simp [Sign, tokens, lexLt]
        | false => rw [tokens_other hd]; simp [Sign, tokens, lexLt]
      | cons d t =>
        unfold cmpLoop
        by_cases hb : isDigit c = true ∧ isDigit d = true
        · rw [if_pos hb]
          have e1 := tokens_digit (s := s) hb.1
          have e2 := tokens_digit (s := t) hb.2
          have f1 : digitsVal 0 (c :: s) < 2 ^ 31 := hs _ (by rw [e1]; exact List.mem_cons_self ..)
          have f2 : digitsVal 0 (d :: t) < 2 ^ 31 := ht _ (by rw [e2]; exact List.mem_cons_self ..)
          have a1 : atoi (c :: s) = some (digitsVal 0 (c :: s)) := if_pos f1
          have a2 : atoi (d :: t) = some (digitsVal 0 (d :: t)) := if_pos f2
          simp only [a1, a2, Option.bind_eq_bind, Option.bind_some]
          rw [e1, e2]
          by_cases hn : digitsVal 0 (c :: s) = digitsVal 0 (d :: t)
          · rw [if_neg (by simp [hn]), hn]
            have hlen : (skipDigits (c :: s)).length < fuel := by
              have : skipDigits (c :: s) = skipDigits s := by simp [skipDigits, hb.1]
              rw [this]; have := skip_length s; simp only [List.length_cons] at hl; omega
            obtain ⟨r, er, hr⟩ := ih _ (skipDigits (d :: t)) hlen
              (fun n h => hs n (by rw [e1]; exact List.mem_cons_of_mem _ h))
              (fun n h => ht n (by rw [e2]; exact List.mem_cons_of_mem _ h))
            exact ⟨r, er, by simpa [lexLt, Tok.lt] using hr⟩
          · rw [if_pos hn]
            refine ⟨_, rfl, ?_⟩
            simp only [lexLt, Sign, Tok.lt, Bool.or_eq_true, decide_eq_true_eq, Bool.and_eq_true, beq_iff_eq, Tok.num.injEq, hn, fun h => hn (Eq.symm h), false_and, or_false]
            constructor <;> omega
        · rw [if_neg hb]
          by_cases hcd : c = d
          · subst hcd
            rw [if_pos rfl]
            have hc : isDigit c = false := by
              cases h : isDigit c with
              | false => rfl
              | true => exact absurd ⟨h, h⟩ hb
            rw [tokens_other hc, tokens_other hc]
            obtain ⟨r, er, hr⟩ := ih s t (by simp only [List.length_cons] at hl; omega)
              (fun n h => hs n (by rw [tokens_other hc]; exact List.mem_cons_of_mem _ h))
              (fun n h => ht n (by rw [tokens_other hc]; exact List.mem_cons_of_mem _ h))
            exact ⟨r, er, by simpa [lexLt, Tok.lt] using hr⟩
          · rw [if_neg hcd, strcmp_ne hcd]
            refine ⟨_, rfl, ?_⟩
            cases hc : isDigit c with
            | true =>
              have hd : isDigit d = false := by
                cases h : isDigit d with
                | false => rfl
                | true => exact absurd ⟨hc, h⟩ hb
              rw [tokens_digit hc, tokens_other hd]
              rw [digit_iff] at hc
              rw [digit_iff'] at hd
              simp only [Sign, lexLt, Tok.lt, reduceCtorEq, Bool.or_eq_true, decide_eq_true_eq, Bool.and_eq_true, beq_iff_eq, false_and, or_false]
              split <;> omega
            | false =>
              cases hd : isDigit d with
              | true =>
                rw [tokens_digit hd, tokens_other hc]
                rw [digit_iff'] at hc
                rw [digit_iff] at hd
                simp only [Sign, lexLt, Tok.lt, reduceCtorEq, Bool.or_eq_true, decide_eq_true_eq, Bool.and_eq_true, beq_iff_eq, false_and, or_false]
                split <;> omega
              | false =>
                rw [tokens_other hc, tokens_other hd]
                simp only [Sign, lexLt, Tok.lt, Tok.ch.injEq, hcd, fun h => hcd (Eq.symm h), Bool.or_eq_true, decide_eq_true_eq, Bool.and_eq_true, beq_iff_eq, false_and, or_false]
                split <;> omega

theorem tok_trans {a b c : Tok} (ga : Good a) (gb : Good b) (gc : Good c) (h1 : a.lt b = true) (h2 : b.lt c = true) : a.lt c = true := by
  cases a <;> cases b <;> cases c <;> simp only [Tok.lt, Good, digit_iff', decide_eq_true_eq] at * <;> omega

theorem tok_irrefl (a : Tok) : a.lt a = false := by cases a <;> simp [Tok.lt]

theorem tok_total {a b : Tok} (ga : Good a) (gb : Good b) : a.lt b = true ∨ a = b ∨ b.lt a = true := by
  cases a <;> cases b <;> simp only [Tok.lt, Good, digit_iff', decide_eq_true_eq, Tok.num.injEq, Tok.ch.injEq, reduceCtorEq] at * <;> omega

theorem lex_irrefl : ∀ s, lexLt s s = false := by
  intro s
  induction s with
  | nil => rfl
  | cons a s ih => simp [lexLt, tok_irrefl, ih]

theorem lex_trans : ∀ (s t u : List Tok), (∀ k ∈ s, Good k) → (∀ k ∈ t, Good k) → (∀ k ∈ u, Good k) →
    lexLt s t = true → lexLt t u = true → lexLt s u = true := by
  intro s
  induction s with
  | nil =>
    intro t u _ _ _ h1 h2
    cases t with
    | nil => simp [lexLt] at h1
    | cons b t => cases u with
      | nil => simp [lexLt] at h2
      | cons c u => rfl
  | cons a s ih =>
    intro t u gs gt gu h1 h2
    cases t with
    | nil => simp [lexLt] at h1
    | cons b t => cases u with
      | nil => simp [lexLt] at h2
      | cons c u =>
        simp only [lexLt, Bool.or_eq_true, Bool.and_eq_true, beq_iff_eq] at h1 h2 ⊢
        have ga := gs a (List.mem_cons_self ..)
        have gb := gt b (List.mem_cons_self ..)
        have gc := gu c (List.mem_cons_self ..)
        rcases h1 with h1 | ⟨rfl, h1⟩
        · rcases h2 with h2 | ⟨rfl, h2⟩
          · exact Or.inl (tok_trans ga gb gc h1 h2)
          · exact Or.inl h1
        · rcases h2 with h2 | ⟨rfl, h2⟩
          · exact Or.inl h2
          · exact Or.inr ⟨rfl, ih t u (fun k h => gs k (List.mem_cons_of_mem _ h)) (fun k h => gt k (List.mem_cons_of_mem _ h))
              (fun k h => gu k (List.mem_cons_of_mem _ h)) h1 h2⟩

theorem lex_total : ∀ (s t : List Tok), (∀ k ∈ s, Good k) → (∀ k ∈ t, Good k) →
    lexLt s t = true ∨ s = t ∨ lexLt t s = true := by
  intro s
  induction s with
  | nil => intro t _ _; cases t <;> simp [lexLt]
  | cons a s ih =>
    intro t gs gt
    cases t with
    | nil => simp [lexLt]
    | cons b t =>
      simp only [lexLt, Bool.or_eq_true, Bool.and_eq_true, beq_iff_eq, List.cons.injEq]
      rcases tok_total (gs a (List.mem_cons_self ..)) (gt b (List.mem_cons_self ..)) with h | rfl | h
      · exact Or.inl (Or.inl h)
      · rcases ih t (fun k h => gs k (List.mem_cons_of_mem _ h)) (fun k h => gt k (List.mem_cons_of_mem _ h)) with h | h | h
        · exact Or.inl (Or.inr ⟨rfl, h⟩)
        · exact Or.inr (Or.inl ⟨rfl, h⟩)
        · exact Or.inr (Or.inr (Or.inr ⟨rfl, h⟩))
      · exact Or.inr (Or.inr (Or.inl h))

theorem tokens_append {c : Nat} (hc : isDigit c = false) (s : List Nat) : ∀ (p : List Nat) (a : Option Nat),
    tokens a (p ++ c :: s) = tokens a (p ++ [c]) ++ tokens none s := by
  intro p
  induction p with
  | nil => intro a; cases a <;> simp [tokens, hc]
  | cons d p ih =>
    intro a
    cases hd : isDigit d with
    | true => cases a <;> simp [tokens, hd, ih]
    | false => cases a <;> simp [tokens, hd, ih]

theorem lex_prefix (p s t : List Tok) : lexLt (p ++ s) (p ++ t) = lexLt s t := by
  induction p with
  | nil => rfl
  | cons a p ih => simp [lexLt, tok_irrefl, ih]

end Voss.Lib.Name
