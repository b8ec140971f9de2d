import Verif.Lex.StrLemmas

/-!
# C103: string literals mean what is written
-/

namespace Voss.Lex

/-- **C103.**  A literal in one or more parts is read as the characters that
its parts say together, and the reading goes on right after it.  `line_nbr` is
increased by the number of newlines inside of the quotes. -/
theorem c103_literal {e s : List Char} (he : Enc e s) {ps : List Part} {t : List Char}
    (hp : Says ps t) {rest : List Char} (hr : ends rest) :
    readLit (writeLit e ps ++ rest) =
      some (s ++ t, newlines e + (ps.map fun p => newlines p.2).sum, rest) := by
  have hl : (ps.map fun p => newlines p.2).sum = partLines ps := by
    clear hp
    induction ps with
    | nil => rfl
    | cons p ps ih => obtain ⟨w, x⟩ := p; simp [partLines, ih]
  have e1 : writeLit e ps ++ rest = e ++ '"' :: (writeMore ps ++ rest) := by simp [writeLit]
  have hf : ps.length ≤ (writeMore ps ++ rest).length := by
    have := parts_length ps
    rw [List.length_append]; omega
  unfold readLit
  rw [e1, enc_body he]
  dsimp only
  rw [more_parts hp hr _ hf]
  dsimp only
  rw [read_parts he hp, hl]
  rfl

/-- `"a\"\\` `"\` newline blank `"\n\q"` followed by `;`. -/
example : readLit (writeLit ['a', '\\', '"', '\\', '\\'] [([' '], ['\\', 'n', '\\', 'q'])] ++ [';'])
    = some (['a', '"', '\\', '\n', 'q'], 0, [';']) := by
  refine c103_literal (s := ['a', '"', '\\']) (t := ['\n', 'q']) ?_ ?_ ?_
  · exact .plain _ (by decide) (by decide) (.char _ (by decide) (by decide) (by decide)
      (.char _ (by decide) (by decide) (by decide) .nil))
  · exact .cons (s := ['\n', 'q']) (t := []) (by decide)
      (.newline (.char _ (by decide) (by decide) (by decide) .nil)) .nil
  · intro r; simp

/-- **C103.**  Every string can be written as a literal: a quote and a
backslash after a backslash, all other characters as they are. -/
theorem c103_every_string (s : List Char) :
    Enc (s.flatMap fun c => if c = '"' ∨ c = '\\' then ['\\', c] else [c]) s := by
  induction s with
  | nil => exact .nil
  | cons c s ih =>
    rw [List.flatMap_cons]
    by_cases h : c = '"' ∨ c = '\\'
    · rw [if_pos h]
      refine .char c ?_ ?_ ?_ ih <;> rcases h with h | h <;> rw [h] <;> decide
    · rw [if_neg h]
      exact .plain c (fun g => h (.inl g)) (fun g => h (.inr g)) ih

example : Enc ['x', '\\', '"', '\n'] ['x', '"', '\n'] := c103_every_string ['x', '"', '\n']

/-- **C103.**  Nothing else is read as a literal: what is read has the form of
the theorem above, and the string is the one that it says. -/
theorem c103_only {inp str rest : List Char} {k : Nat} (h : readLit inp = some (str, k, rest)) :
    ∃ e s ps t, Enc e s ∧ Says ps t ∧ inp = writeLit e ps ++ rest ∧ str = s ++ t ∧
      k = newlines e + (ps.map fun p => newlines p.2).sum := by
  unfold readLit at h
  cases hb : litBody inp with
  | none => rw [hb] at h; cases h
  | some p =>
    obtain ⟨e, r⟩ := p
    rw [hb] at h
    dsimp only at h
    obtain ⟨h1, s, he⟩ := enc_exists_of_body _ _ _ hb
    obtain ⟨ps, t, hp, g1, g2⟩ := says_exists_of_more r.length r
    rw [g1, read_parts he hp] at h
    simp only [Option.map_some, Option.some.injEq, Prod.mk.injEq] at h
    obtain ⟨h2, h3, h4⟩ := h
    have hl : (ps.map fun p => newlines p.2).sum = partLines ps := by
      clear hp g1 g2 h2 h3
      induction ps with
      | nil => rfl
      | cons p ps ih => obtain ⟨w, x⟩ := p; simp [partLines, ih]
    refine ⟨e, s, ps, t, he, hp, ?_, h2.symm, by rw [hl, ← h3]⟩
    rw [h1, writeLit, List.append_assoc, List.cons_append, ← h4, ← g2]

example : readLit ['a', '"', ';'] = some (['a'], 0, [';']) := by decide +kernel

/-- **C103.**  An opening quote does not start a literal exactly if there is
no first part with its closing quote after it; the functions that take the
text apart never read past its end. -/
theorem c103_none (inp : List Char) :
    readLit inp = none ↔ ¬ ∃ e s r, Enc e s ∧ inp = e ++ '"' :: r := by
  constructor
  · rintro h ⟨e, s, r, he, rfl⟩
    unfold readLit at h
    rw [enc_body he] at h
    dsimp only at h
    obtain ⟨ps, t, hp, g1, _⟩ := says_exists_of_more r.length r
    rw [g1, read_parts he hp] at h
    cases h
  · intro h
    unfold readLit
    cases hb : litBody inp with
    | none => rfl
    | some p =>
      obtain ⟨h1, s, he⟩ := enc_exists_of_body _ _ _ hb
      exact absurd ⟨_, _, _, he, h1⟩ h

example : readLit ['a', '\\', '"'] = none := by decide +kernel

/-- **C103.**  After a literal in one part the line number has grown by the
number of newlines that were read. -/
theorem c103_line_partial {e s rest : List Char} (he : Enc e s) (hr : ends rest) :
    ∃ str k, readLit (writeLit e [] ++ rest) = some (str, k, rest) ∧
      k = newlines (writeLit e []) := by
  refine ⟨_, _, c103_literal he .nil hr, ?_⟩
  simp [writeLit, writeMore, newlines]

example : readLit (writeLit ['a', '\n', 'b'] [] ++ [';']) = some (['a', '\n', 'b'], 1, [';']) := by
  decide +kernel

/-- **C103 (violated).**  After a literal in more than one part the line number
is wrong, always: the newlines between the parts are not counted. -/
theorem c103_line_violated {e s : List Char} (he : Enc e s) {ps : List Part} {t : List Char}
    (hp : Says ps t) (h0 : ps ≠ []) {rest : List Char} (hr : ends rest) :
    ∃ str k, readLit (writeLit e ps ++ rest) = some (str, k, rest) ∧
      k + ps.length = newlines (writeLit e ps) ∧ k ≠ newlines (writeLit e ps) := by
  have key : (ps.map fun p => newlines p.2).sum + ps.length = newlines (writeMore ps) := by
    clear h0
    induction hp with
    | nil => rfl
    | @cons w e s ps t hw _ _ ih =>
      have hw0 : w.count '\n' = 0 := by
        rw [List.count_eq_zero]
        intro hm; exact absurd (hw _ hm) (by decide)
      simp only [List.map_cons, List.sum_cons, List.length_cons, writeMore, newlines,
        List.cons_append, List.append_assoc, List.count_cons, List.count_append, hw0] at ih ⊢
      simp
      omega
  have e1 : newlines (writeLit e ps) = newlines e + newlines (writeMore ps) := by
    simp [writeLit, newlines]
  have hlen : 0 < ps.length := List.length_pos_iff.mpr h0
  refine ⟨_, _, c103_literal he hp hr, ?_, ?_⟩ <;> omega

example : readLit (writeLit ['a'] [([], ['b'])] ++ [';']) = some (['a', 'b'], 0, [';']) ∧
    newlines (writeLit ['a'] [([], ['b'])]) = 1 := by decide +kernel

end Voss.Lex
