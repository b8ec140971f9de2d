import Verif.Txt.Model
/-
Specification of the string functions.
-/
namespace Voss.Txt

/-- `x` occurs in `s` at offset `i`. -/
def At (x s : List Char) (i : Nat) : Prop := ∃ a b, s = a ++ x ++ b ∧ a.length = i

/-- `x` occurs in `s`. -/
def Occurs (x s : List Char) : Prop := ∃ i, At x s i

/-- White space: the blank, the tabulators, the line feed, the form feed and the carriage return. -/
def Blank (c : Char) : Prop := c ∈ [' ', '\t', '\n', '\x0b', '\x0c', '\r']

/-- The pieces, with the separator between them. -/
def join (sep : List Char) : List (List Char) → List Char
  | [] => []
  | [p] => p
  | p :: q :: ps => p ++ sep ++ join sep (q :: ps)

/-- The pieces are what is left of `s` when the separator is looked for from the left: in a piece together with the
separator behind it there is no earlier occurrence, and the last piece has none. -/
def Pieces (sep : List Char) : List (List Char) → Prop
  | [] => True
  | [p] => ¬ Occurs sep p
  | p :: q :: ps => (∀ i, At sep (p ++ sep) i → p.length ≤ i) ∧ Pieces sep (q :: ps)

/-- Text in which braces match; a backslash takes the next character with it. -/
inductive Braces : List Char → Prop where
  | nil : Braces []
  | plain {c : Char} {t : List Char} : c ≠ '{' → c ≠ '}' → c ≠ '\\' → Braces t → Braces (c :: t)
  | esc {c : Char} {t : List Char} : Braces t → Braces ('\\' :: c :: t)
  | group {a b : List Char} : Braces a → Braces b → Braces ('{' :: a ++ '}' :: b)

/-- A word that Tcl reads as it stands. -/
def Bare (w : List Char) : Prop := w ≠ [] ∧ ∀ c ∈ w, c ≠ ' ' ∧ c ≠ '{' ∧ c ≠ '}' ∧ c ≠ '\\'

/-- How an element of a Tcl list is written: as it stands or in braces. -/
inductive Written : List Char → List Char → Prop where
  | bare {w : List Char} : Bare w → Written w w
  | braced {w : List Char} : Braces w → Written w ('{' :: w ++ ['}'])

end Voss.Txt
