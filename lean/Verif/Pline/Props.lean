import Verif.Pline.TextLemmas

/-! C111: what `print` prints. -/

namespace Voss.Pline

/-- Printing any string, with any number of columns, is defined, and prints the rows of the sheet on which the commands of
the string have been carried out one after the other. -/
theorem c111_sheet (max : Int) (s : List Char) :
    printLine max s = some (joinNl ((cmds s).foldl (exec max) blank).used) := by
  obtain ⟨st, e, r⟩ := go_spec max s.length s (Nat.le_refl _) _ _ rel_init
  simp only [printLine, e, Option.bind_some]
  exact rel_print r

/-- `b` is written over the row above after moving one up and one to the left. -/
example : printLine 80 ("a\nxy".toList ++ [esc, '[', 'A', esc, '[', 'D', 'b']) = some "ab\nxy".toList := by
  rw [c111_sheet]; decide

/-- A row is added above the first one. -/
example : printLine 80 ("ab".toList ++ [esc, '[', 'A', 'c']) = some "  c\nab".toList := by
  rw [c111_sheet]; decide

/-- What writing over a row does: the character at its place, the others as they were, blanks in between. -/
theorem c111_over (n : Nat) (c : Char) (l : List Char) (i : Nat) :
    (over n c l)[i]? = if i = n then some c else if i < l.length then l[i]? else if i < n then some ' ' else none :=
  over_get n c l i

example : over 4 'x' "ab".toList = "ab  x".toList := by decide

/-- A string without escape bytes and places for a break is printed as it is. -/
theorem c111_plain (max : Int) (s : List Char) (h1 : esc ∉ s) (h2 : mark ∉ s) : printLine max s = some s := by
  obtain ⟨u, hu, hr⟩ := run_text max s h1 _ _ atEnd_blank
  rw [c111_sheet, hr.text, List.nil_append, broken_self hu h2]

example : printLine 3 "a long line\n\nanother\n".toList = some "a long line\n\nanother\n".toList :=
  c111_plain _ _ (by decide) (by decide)

/-- A string without escape bytes is printed with each place for a break taken out or replaced by a newline; and if there
are at most `w` characters between such places and newlines, and `w + 2` columns, no line is longer than `w`. -/
theorem c111_broken (max : Int) (s : List Char) (h : esc ∉ s) :
    ∃ u, printLine max s = some u ∧ Broken s u ∧
      ∀ w : Nat, max = w + 2 → Short w s → ∃ rows, u = joinNl rows ∧ ∀ r ∈ rows, r.length ≤ w := by
  obtain ⟨u, hu, hr⟩ := run_text max s h _ _ atEnd_blank
  refine ⟨u, by rw [c111_sheet, hr.text, List.nil_append], hu, ?_⟩
  intro w hm hw
  subst hm
  refine ⟨((cmds s).foldl (exec (w + 2)) blank).used, by rw [hr.text, List.nil_append], ?_⟩
  intro r hr'
  simp only [Sheet.used, List.mem_map] at hr'
  obtain ⟨i, _, rfl⟩ := hr'
  exact run_width w s h hw blank (by simpa [blank] using hw.1) (by simp [blank]) _

example : printLine 8 ("abc".toList ++ mark :: "de".toList ++ mark :: "fgh".toList) = some "abcde\nfgh".toList := by
  rw [c111_sheet]; decide

end Voss.Pline
