import Verif.Lex.Model

/-!
# String literals

Model of the two rules for string literals (`/repo/src/bin/fl/lexer:515-525`)
and of `expand_string` and `merge_strings` (625-692).  The input is a list of
characters other than NUL.
-/

namespace Voss.Lex

/-- The switch on the character after a backslash (lexer:641-646,
674-679). -/
def unesc (c : Char) : Char :=
  if c = 'n' then '\n' else if c = '"' then '"' else if c = 't' then '\t' else c

/-- `expand_string` (lexer:663-686): the string and the number of times that
`line_nbr` is increased.  `none`: reading past the end of the text, which the
rules for the literals exclude. -/
def expandString : List Char → Option (List Char × Nat)
  | [] => some ([], 0)
  | ['\\'] => none
  | '\\' :: c :: r => (expandString r).map fun p => (unesc c :: p.1, p.2)
  | c :: r => (expandString r).map fun p => (c :: p.1, p.2 + if c = '\n' then 1 else 0)

/-- `merge_strings` (lexer:625-660); the Boolean is `outside`. -/
def mergeStrings : Bool → List Char → Option (List Char × Nat)
  | _, [] => some ([], 0)
  | true, c :: r => if c = '"' then mergeStrings false r else mergeStrings true r
  | false, ['\\'] => none
  | false, '\\' :: c :: r => (mergeStrings false r).map fun p => (unesc c :: p.1, p.2)
  | false, '"' :: '\\' :: '\n' :: r => mergeStrings true r
  | false, c :: r =>
    (mergeStrings false r).map fun p => (c :: p.1, p.2 + if c = '\n' then 1 else 0)

/-- Matching `([^\"\\]|(\\.))*\"` (lexer:515): the text before the closing
quote, and what follows the quote.  `.` is every character but a newline. -/
def litBody : List Char → Option (List Char × List Char)
  | [] => none
  | ['\\'] => none
  | '\\' :: c :: r =>
    if c = '\n' then none else (litBody r).map fun p => ('\\' :: c :: p.1, p.2)
  | c :: r => if c = '"' then some ([], r) else (litBody r).map fun p => (c :: p.1, p.2)

/-- Matching `(\"\\\n[ \t]*\"([^\"\\]|(\\.))*)*\"` (lexer:521) after a closing
quote: as many more parts as there are.  The text of these parts (it starts
with the closing quote before them, and does not have the last one), and what
follows.  `fuel` bounds the number of parts. -/
def litMore : (fuel : Nat) → List Char → List Char × List Char
  | 0, inp => ([], inp)
  | fuel + 1, '\\' :: '\n' :: r =>
    match r.dropWhile isWhite with
    | '"' :: r' =>
      match litBody r' with
      | some (b, rest) =>
        let m := litMore fuel rest
        ('"' :: '\\' :: '\n' :: r.takeWhile isWhite ++ '"' :: b ++ m.1, m.2)
      | none => ([], '\\' :: '\n' :: r)
    | _ => ([], '\\' :: '\n' :: r)
  | _, inp => ([], inp)

/-- Reading a string literal from the input after its opening quote: the
string, the number of times that `line_nbr` is increased, and the rest of the
input.  The longest match is taken; if both rules match as much, the first is
used (lexer:515-525). -/
def readLit (inp : List Char) : Option (List Char × Nat × List Char) :=
  match litBody inp with
  | none => none
  | some (b, rest) =>
    let m := litMore rest.length rest
    let r := if m.1 = [] then expandString b else mergeStrings false (b ++ m.1)
    r.map fun p => (p.1, p.2, m.2)

/-! ## What a literal means -/

/-- `Enc e s`: `e` is a way to write the characters `s` inside of quotes. -/
inductive Enc : List Char → List Char → Prop
  | nil : Enc [] []
  | plain (c : Char) {e s : List Char} (h1 : c ≠ '"') (h2 : c ≠ '\\') (h : Enc e s) :
      Enc (c :: e) (c :: s)
  | newline {e s : List Char} (h : Enc e s) : Enc ('\\' :: 'n' :: e) ('\n' :: s)
  | tab {e s : List Char} (h : Enc e s) : Enc ('\\' :: 't' :: e) ('\t' :: s)
  | char (c : Char) {e s : List Char} (h1 : c ≠ 'n') (h2 : c ≠ 't') (h3 : c ≠ '\n')
      (h : Enc e s) : Enc ('\\' :: c :: e) (c :: s)

/-- A further part of a literal: the blanks before its opening quote, and what
is written inside of the quotes. -/
abbrev Part := List Char × List Char

/-- A literal after its first part: each further part is on a new line, after
`\` and a newline. -/
def writeMore : List Part → List Char
  | [] => []
  | (w, e) :: ps => '\\' :: '\n' :: w ++ '"' :: e ++ '"' :: writeMore ps

/-- A literal without its opening quote. -/
def writeLit (e : List Char) (ps : List Part) : List Char := e ++ '"' :: writeMore ps

/-- What the parts of a literal say together. -/
inductive Says : List Part → List Char → Prop
  | nil : Says [] []
  | cons {w e s : List Char} {ps : List Part} {t : List Char} (hw : ∀ c ∈ w, isWhite c = true)
      (he : Enc e s) (h : Says ps t) : Says ((w, e) :: ps) (s ++ t)

/-- The newlines in a text. -/
def newlines (l : List Char) : Nat := l.count '\n'

/-- What follows a literal cannot be read as a further part of it. -/
def ends (rest : List Char) : Prop := ∀ r, rest ≠ '\\' :: '\n' :: r

end Voss.Lex
