import Verif.Lex.MoreLemmas

/-!
# C102: conditional sections, and the lines that the lexer reads
-/

namespace Voss.Lex

/-- **C102.**  Properly nested files are loaded one after the other, in a new
session.  The lines that are read, each with its file and line number, are
those that `semAll` says, and no others; so are the names that are defined in
the end.  After that the lexer is ready for the next file as at the start.

Missing, because false of the program: names and directives followed by
blanks, and files that are not properly nested (see below). -/
theorem c102_conditionals_partial (fs : List (List Char × Doc × List Char))
    (h : ∀ f ∈ fs, f.2.1.ok) :
    ∃ st, loadAll init (fs.map fun f => (f.1, f.2.1.render (.eof f.2.2))) = some st ∧
      st.out = (semAll fs fun _ => false).1 ∧
      (∀ n, okName n →
        isDefined st.defs (ident n) = (semAll fs fun _ => false).2 n) ∧
      st.pol = init.pol ∧ st.ign = init.ign ∧ st.file = init.file ∧ st.line = init.line := by
  obtain ⟨defs, h1, h2⟩ := loadAll_read fs init (fun _ => false) h rfl rfl
    (by intro n _; simp [init])
  refine ⟨_, h2, by simp [init], ?_, rfl, rfl, rfl, rfl⟩
  intro n hn
  have : ident n = n ++ ['\n'] := ident_name (b := []) (by simp) hn
  rw [this]
  exact agrees_isDefined h1 hn

/-- A document with a section in a section, where the outer one is skipped and
has an `#else`, that loads a file which defines a name. -/
def exDoc : Doc :=
  .text ['a'] <|
  .load ['L'] ['g'] (.define [' '] ['X'] .nil) [] <|
  .ifelse [' ', '\t'] ['X']
    (.ifelse [' '] ['Y'] (.text ['b'] .nil) (.text ['c'] .nil) (.text ['d'] .nil))
    (.ifelse [' '] ['X'] (.text ['e'] .nil) (.text ['f'] .nil) .nil) <|
  .undefine [' '] ['X'] <|
  .ifdef [' '] ['X'] (.text ['h'] (.define [' '] ['Y'] .nil)) <|
  .text ['i'] .nil

example : exDoc.ok := by
  simp only [exDoc, Doc.ok, okBlanks, okName, and_true]; decide +kernel

example : (semAll [(['f'], exDoc, ['z'])] fun _ => false).1 =
    [(['f'], 1, ['a']), (['f'], 2, ['L']), (['f'], 7, ['c']), (['f'], 9, ['d']),
     (['f'], 22, ['i']), (['f'], 23, ['z'])] := by decide +kernel

/-- **C102.**  For every file, properly nested or not, and every state of the
lexer: a line that is read is a line of the file with the line number that is
reported for it (or of a file that it loads, with that file's name); the lines
are read in their order, and none twice. -/
theorem c102_lines (src : Src) (st st' : St) (h : run src st = some st') :
    ∃ o, st'.out = st.out ++ o ∧ o.Sublist (src.numbered st.file st.line) :=
  run_numbered src st st' h

example : ∃ st', run (.line kwElse (.line ['a'] (.line kwElse (.line ['b'] (.eof []))))) init =
    some st' ∧ st'.out = [(init.file, 4, ['b'])] := by
  refine ⟨_, rfl, ?_⟩; decide +kernel

/-- **C102.**  A file ends the program (with the message of an unmatched
directive) exactly if there is an `#else` or `#endif` before which there are
as many `#endif`s as there are `#ifdef`s and entries on the stack.  In a new
session there is one entry already, so the first unmatched directive is not
found. -/
theorem c102_unmatched_partial (last : List Char) (ls : List (List Char)) (st : St) :
    run (Src.ofLines last ls) st = none ↔
      ∃ pre l post, ls = pre ++ l :: post ∧ (isElse l = true ∨ isEndif l = true) ∧
        pre.countP isIfdef + st.pol.length = pre.countP isEndif :=
  run_none_iff last ls st

example : run (Src.ofLines [] [kwEndif, ['a'], kwEndif]) init = none := by decide +kernel

/-- **C102 (violated).**  An `#endif` without an `#ifdef` is accepted without
a message, and the lines after it are read. -/
theorem c102_unmatched_endif_violated :
    ∃ st, run (Src.ofLines [] [kwEndif, ['a']]) init = some st ∧
      st.out = [(init.file, 2, ['a'])] := by
  refine ⟨_, rfl, ?_⟩; decide +kernel

/-- **C102 (violated).**  An `#else` without an `#ifdef` is accepted without a
message.  The rest of the file is skipped, and in the files that are loaded
after it the sections of names that are defined are skipped too, with all that
follows them. -/
theorem c102_unmatched_else_violated :
    ∃ st, loadAll init
        [(['f'], Src.ofLines [] [kwElse, ['a']]),
         (['g'], Src.ofLines [] [['b'], kwDefine ++ [' ', 'X'], kwIfdef ++ [' ', 'X'], ['c'],
           kwEndif, ['d']])] = some st ∧
      st.out = [(['g'], 1, ['b'])] := by
  refine ⟨_, rfl, ?_⟩; decide +kernel

/-- **C102 (violated).**  A section left open at the end of a file is accepted
without a message, and the rest of the file that loaded it is skipped. -/
theorem c102_open_violated :
    ∃ st, run (.line ['a'] (.load ['L'] ['g'] (Src.ofLines [] [kwIfdef ++ [' ', 'X']])
        (.line ['b'] (.eof [])))) init = some st ∧
      st.out = [(init.file, 1, ['a']), (init.file, 2, ['L'])] := by
  refine ⟨_, rfl, ?_⟩; decide +kernel

/-- **C102 (violated).**  A blank at the end of a directive changes its
meaning: `#define X ` does not define `X`, and `#else ` is not an `#else`. -/
theorem c102_blank_violated :
    (∃ st, run (Src.ofLines [] [kwDefine ++ [' ', 'X', ' '], kwIfdef ++ [' ', 'X'], ['a'],
        kwEndif]) init = some st ∧ st.out = []) ∧
    (∃ st, run (Src.ofLines [] [kwIfdef ++ [' ', 'X'], ['a'], kwElse ++ [' '], ['b'],
        kwEndif]) init = some st ∧ st.out = []) := by
  refine ⟨⟨_, rfl, ?_⟩, ⟨_, rfl, ?_⟩⟩ <;> decide +kernel

/-- **C102.**  Which lines are directives, in terms of their characters: the
words `#define`, `#undefine` and `#ifdef`, followed by a blank or a tab, and
the lines `#else` and `#endif` exactly.  All other lines are passed on. -/
theorem c102_directives (l : List Char) :
    (∀ a, classify l = .define a ↔ ∃ c r, (c = ' ' ∨ c = '\t') ∧ l = "#define".toList ++ c :: r ∧
      a = ident r) ∧
    (∀ a, classify l = .undefine a ↔ ∃ c r, (c = ' ' ∨ c = '\t') ∧ l = "#undefine".toList ++ c :: r ∧
      a = ident r) ∧
    (∀ a, classify l = .ifdef a ↔ ∃ c r, (c = ' ' ∨ c = '\t') ∧ l = "#ifdef".toList ++ c :: r ∧
      a = ident r) ∧
    (classify l = .els ↔ l = "#else".toList) ∧ (classify l = .endif ↔ l = "#endif".toList) := by
  have e1 : "#define".toList = kwDefine := by decide +kernel
  have e2 : "#undefine".toList = kwUndefine := by decide +kernel
  have e3 : "#ifdef".toList = kwIfdef := by decide +kernel
  have e4 : "#else".toList = kwElse := by decide +kernel
  have e5 : "#endif".toList = kwEndif := by decide +kernel
  rw [e1, e2, e3, e4, e5]
  have w : ∀ kw l' r, dirArg kw l' = some r ↔ ∃ c, (c = ' ' ∨ c = '\t') ∧ l' = kw ++ c :: r := by
    intro kw l' r
    rw [dirArg_iff]
    simp [isWhite]
  have n12 : ∀ r r', dirArg kwDefine l = some r → dirArg kwUndefine l ≠ some r' := by
    intro r r' h h'
    obtain ⟨c, -, h⟩ := (w _ _ _).1 h
    obtain ⟨c', -, h'⟩ := (w _ _ _).1 h'
    rw [h] at h'
    simp [kwDefine, kwUndefine] at h'
  have n13 : ∀ r r', dirArg kwDefine l = some r → dirArg kwIfdef l ≠ some r' := by
    intro r r' h h'
    obtain ⟨c, -, h⟩ := (w _ _ _).1 h
    obtain ⟨c', -, h'⟩ := (w _ _ _).1 h'
    rw [h] at h'
    simp [kwDefine, kwIfdef] at h'
  have n23 : ∀ r r', dirArg kwUndefine l = some r → dirArg kwIfdef l ≠ some r' := by
    intro r r' h h'
    obtain ⟨c, -, h⟩ := (w _ _ _).1 h
    obtain ⟨c', -, h'⟩ := (w _ _ _).1 h'
    rw [h] at h'
    simp [kwUndefine, kwIfdef] at h'
  have n4 : dirArg kwDefine kwElse = none ∧ dirArg kwUndefine kwElse = none ∧ dirArg kwIfdef kwElse = none ∧
      dirArg kwDefine kwEndif = none ∧ dirArg kwUndefine kwEndif = none ∧ dirArg kwIfdef kwEndif = none ∧
      kwElse ≠ kwEndif := by decide +kernel
  have q : ∀ (kw : List Char) (a : List Char), (∃ c r, (c = ' ' ∨ c = '\t') ∧ l = kw ++ c :: r ∧ a = ident r) ↔
      ∃ r, dirArg kw l = some r ∧ a = ident r := by
    intro kw a
    constructor
    · rintro ⟨c, r, h1, h2, h3⟩
      exact ⟨r, (w _ _ _).2 ⟨c, h1, h2⟩, h3⟩
    · rintro ⟨r, h1, h2⟩
      obtain ⟨c, h3, h4⟩ := (w _ _ _).1 h1
      exact ⟨c, r, h3, h4, h2⟩
  simp only [q]
  unfold classify
  cases h1 : dirArg kwDefine l with
  | some r =>
    have h2 : dirArg kwUndefine l = none := by
      cases h : dirArg kwUndefine l with
      | none => rfl
      | some r' => exact absurd h (n12 r r' h1)
    have h3 : dirArg kwIfdef l = none := by
      cases h : dirArg kwIfdef l with
      | none => rfl
      | some r' => exact absurd h (n13 r r' h1)
    refine ⟨?_, ?_, ?_, ?_, ?_⟩
    · intro a; simp [eq_comm]
    · intro a; simp [h2]
    · intro a; simp [h3]
    · constructor
      · intro h; simp at h
      · intro h; rw [h, n4.1] at h1; simp at h1
    · constructor
      · intro h; simp at h
      · intro h; rw [h, n4.2.2.2.1] at h1; simp at h1
  | none =>
    cases h2 : dirArg kwUndefine l with
    | some r =>
      have h3 : dirArg kwIfdef l = none := by
        cases h : dirArg kwIfdef l with
        | none => rfl
        | some r' => exact absurd h (n23 r r' h2)
      refine ⟨?_, ?_, ?_, ?_, ?_⟩
      · intro a; simp
      · intro a; simp [eq_comm]
      · intro a; simp [h3]
      · constructor
        · intro h; simp at h
        · intro h; rw [h, n4.2.1] at h2; simp at h2
      · constructor
        · intro h; simp at h
        · intro h; rw [h, n4.2.2.2.2.1] at h2; simp at h2
    | none =>
      cases h3 : dirArg kwIfdef l with
      | some r =>
        refine ⟨?_, ?_, ?_, ?_, ?_⟩
        · intro a; simp
        · intro a; simp
        · intro a; simp [eq_comm]
        · constructor
          · intro h; simp at h
          · intro h; rw [h, n4.2.2.1] at h3; simp at h3
        · constructor
          · intro h; simp at h
          · intro h; rw [h, n4.2.2.2.2.2.1] at h3; simp at h3
      | none =>
        refine ⟨?_, ?_, ?_, ?_, ?_⟩
        · intro a; simp; split <;> (try split) <;> simp
        · intro a; simp; split <;> (try split) <;> simp
        · intro a; simp; split <;> (try split) <;> simp
        · by_cases h4 : l = kwElse
          · simp [h4]
          · by_cases h5 : l = kwEndif <;> simp [h4, h5]
        · by_cases h4 : l = kwElse
          · simp [h4, n4.2.2.2.2.2.2]
          · by_cases h5 : l = kwEndif <;> simp [h4, h5]
            exact n4.2.2.2.2.2.2.symm

example : classify "#ifdefX".toList = .text ∧ classify "#ifdef\tX".toList = .ifdef "X\n".toList := by
  decide +kernel

/-- **C102.**  In a section that is skipped nothing is passed on before the
next `#else` or `#endif`, and not the rest of the file after the last newline
either. -/
theorem c102_skipped (last : List Char) : ∀ (ls : List (List Char)) (st : St), st.ign = true →
    (∀ l ∈ ls, classify l ≠ .els ∧ classify l ≠ .endif) →
    ∃ st', run (Src.ofLines last ls) st = some st' ∧ st'.out = st.out ∧ st'.defs = st.defs
  | [], st, h, _ => ⟨st, by simp [Src.ofLines, run, h], rfl, rfl⟩
  | l :: ls, st, h, hl => by
    obtain ⟨h1, h2⟩ := hl l (by simp)
    have : ∃ st1, step st l = some st1 ∧ st1.ign = true ∧ st1.out = st.out ∧ st1.defs = st.defs := by
      unfold step
      cases hc : classify l with
      | define a => exact ⟨{ st with line := st.line + 1 }, by simp [h], h, rfl, rfl⟩
      | undefine a => exact ⟨{ st with line := st.line + 1 }, by simp [h], h, rfl, rfl⟩
      | ifdef a => exact ⟨_, rfl, by simp [doIfdef, h], by simp [doIfdef, h], by simp [doIfdef, h]⟩
      | els => exact absurd hc h1
      | endif => exact absurd hc h2
      | text => exact ⟨_, rfl, by simp [doText, h], by simp [doText, h], by simp [doText, h]⟩
    obtain ⟨st1, g1, g2, g3, g4⟩ := this
    obtain ⟨st', g5, g6, g7⟩ := c102_skipped last ls st1 g2 (fun x hx => hl x (by simp [hx]))
    refine ⟨st', ?_, by rw [g6, g3], by rw [g7, g4]⟩
    rw [Src.ofLines, run, g1]
    exact g5

example : ∃ st, run (Src.ofLines ['b'] [kwIfdef ++ [' ', 'X'], ['a']]) init = some st ∧ st.out = [] := by
  refine ⟨_, rfl, ?_⟩; decide +kernel

end Voss.Lex
