/-!
# Conditional sections and string literals of the fl lexer

Model of `/repo/src/bin/fl/lexer`: the directives `#define`, `#undefine`,
`#ifdef`, `#else` and `#endif`, the loading of files, the counting of lines
(`__LINE__`, `__FILE__`), and the reading of string literals.

Simplifications: a file is a sequence of lines.  A token that is longer than a
line (a string literal with a newline in it, `<{ … }>`) does not occur in
the part on conditional sections.  A line that loads a file carries the
contents of the file; a file that loads itself forever is not modelled, nor is
a load that fails.
-/

namespace Voss.Lex

/-- The characters of `isspace` (C locale), used by `hash_define`,
`hash_undefine` and `is_defined` (lexer:579, 594, 609). -/
def isSpace (c : Char) : Bool :=
  c == ' ' || c == '\t' || c == '\n' || c == '\x0b' || c == '\x0c' || c == '\r'

/-- The class `white` (lexer:8). -/
def isWhite (c : Char) : Bool := c == ' ' || c == '\t'

/-- What a line is to the lexer (lexer:213-330). -/
inductive Line where
  | define (arg : List Char)
  | undefine (arg : List Char)
  | ifdef (arg : List Char)
  | els
  | endif
  | text
  deriving DecidableEq, Repr

/-- Matching `^"kw"{white}+[^\n]*\n` against a line (given without its
newline): the rest after `kw` and one white character. -/
def dirArg : List Char → List Char → Option (List Char)
  | [], [] => none
  | [], c :: rest => if isWhite c then some rest else none
  | _ :: _, [] => none
  | k :: kw, c :: l => if k = c then dirArg kw l else none

/-- Skipping the blanks before the identifier (lexer:579, 594, 609).  The
newline is part of the matched text, so it is part of the identifier. -/
def ident (rest : List Char) : List Char := (rest ++ ['\n']).dropWhile isSpace

def kwDefine : List Char := ['#', 'd', 'e', 'f', 'i', 'n', 'e']
def kwUndefine : List Char := ['#', 'u', 'n', 'd', 'e', 'f', 'i', 'n', 'e']
def kwIfdef : List Char := ['#', 'i', 'f', 'd', 'e', 'f']
def kwElse : List Char := ['#', 'e', 'l', 's', 'e']
def kwEndif : List Char := ['#', 'e', 'n', 'd', 'i', 'f']

/-- The rule that matches a line that ends in a newline (lexer:213-330). -/
def classify (l : List Char) : Line :=
  match dirArg kwDefine l with
  | some r => .define (ident r)
  | none =>
    match dirArg kwUndefine l with
    | some r => .undefine (ident r)
    | none =>
      match dirArg kwIfdef l with
      | some r => .ifdef (ident r)
      | none => if l = kwElse then .els else if l = kwEndif then .endif else .text

/-- The state of the lexer: `define_tbl`, `define_polarity` (top first; `true`
is ignore), the start condition (`ign` is `PREPROC_IGNORE`), `cur_file_name`,
`line_nbr`, and the lines that were passed on as tokens, each with the file
name and the line number of these tokens. -/
structure St where
  defs : List (List Char)
  pol : List Bool
  ign : Bool
  file : List Char
  line : Nat
  out : List (List Char × Nat × List Char)
  deriving DecidableEq, Repr

/-- `Init_lexer` (lexer:547-573): one entry is pushed on `define_polarity`. -/
def init : St :=
  { defs := [], pol := [false], ign := false,
    file := ['s', 't', 'd', 'i', 'n'], line := 1, out := [] }

/-- `hash_define` (lexer:576-589); nothing happens without an identifier. -/
def hashDefine (defs : List (List Char)) (id : List Char) : List (List Char) :=
  if id = [] then defs else if id ∈ defs then defs else id :: defs

/-- `hash_undefine` (lexer:591-604). -/
def hashUndefine (defs : List (List Char)) (id : List Char) : List (List Char) :=
  if id = [] then defs else defs.filter (fun d => d ≠ id)

/-- `is_defined` (lexer:606-621). -/
def isDefined (defs : List (List Char)) (id : List Char) : Bool :=
  if id = [] then false else decide (id ∈ defs)

/-- The loop over `define_polarity` that chooses the start condition
(lexer:226-234, repeated in the rules for `#else` and `#endif`). -/
def ignoring (pol : List Bool) : Bool := pol.any id

/-- `#ifdef` (lexer:216-235), and inside of an ignored section
(lexer:237-241). -/
def doIfdef (st : St) (id : List Char) : St :=
  if st.ign then { st with pol := true :: st.pol, line := st.line + 1 }
  else
    let pol := (!isDefined st.defs id) :: st.pol
    { st with pol := pol, ign := ignoring pol, line := st.line + 1 }

/-- `#else` (lexer:243-288); the rules for both start conditions are the same.
`Eprintf` ends the program (`none`). -/
def doElse (st : St) : Option St :=
  match st.pol with
  | [] => none
  | p :: ps =>
    some { st with pol := (!p) :: ps, ign := ignoring ((!p) :: ps), line := st.line + 1 }

/-- `#endif` (lexer:290-330). -/
def doEndif (st : St) : Option St :=
  match st.pol with
  | [] => none
  | _ :: ps => some { st with pol := ps, ign := ignoring ps, line := st.line + 1 }

/-- A line that is no directive: its tokens are passed on (lexer:335-544), or
it is skipped (lexer:332-333). -/
def doText (st : St) (l : List Char) : St :=
  if st.ign then { st with line := st.line + 1 }
  else { st with out := st.out ++ [(st.file, st.line, l)], line := st.line + 1 }

/-- One line.  `#define` and `#undefine` have no rule in the start condition
`PREPROC_IGNORE` and are skipped there (lexer:213-214). -/
def step (st : St) (l : List Char) : Option St :=
  match classify l with
  | .define id =>
    if st.ign then some { st with line := st.line + 1 }
    else some { st with defs := hashDefine st.defs id, line := st.line + 1 }
  | .undefine id =>
    if st.ign then some { st with line := st.line + 1 }
    else some { st with defs := hashUndefine st.defs id, line := st.line + 1 }
  | .ifdef id => some (doIfdef st id)
  | .els => doElse st
  | .endif => doEndif st
  | .text => some (doText st l)

/-- The contents of a file: lines, lines that load a file, and what follows
the last newline. -/
inductive Src where
  | eof (last : List Char)
  | line (l : List Char) (rest : Src)
  | load (l : List Char) (name : List Char) (file : Src) (rest : Src)
  deriving Repr

/-- Reading a file to its end.  A line that loads a file (`Read_from_file`,
lexer:831-887, and `Return_to_old_fid`, 890-908): the file name and the line
number are saved and restored, the start condition is set to `INITIAL` before,
and left as it is after; the table and the stack of the conditional sections
are shared. -/
def run : Src → St → Option St
  | .eof last, st =>
    if last = [] ∨ st.ign = true then some st
    else some { st with out := st.out ++ [(st.file, st.line, last)] }
  | .line l rest, st => (step st l).bind (run rest)
  | .load l name file rest, st =>
    if classify l = .text ∧ st.ign = false then
      (run file { st with out := st.out ++ [(st.file, st.line, l)],
                          file := name, line := 1, ign := false }).bind fun st' =>
        run rest { st' with file := st.file, line := st.line + 1 }
    else (step st l).bind (run rest)

/-- `Read_from_file` for a file loaded at the top level. -/
def loadFile (st : St) (f : List Char × Src) : Option St :=
  (run f.2 { st with file := f.1, line := 1, ign := false }).map fun st' =>
    { st' with file := st.file, line := st.line }

/-- Loading a sequence of files at the top level. -/
def loadAll (st : St) : List (List Char × Src) → Option St
  | [] => some st
  | f :: fs => (loadFile st f).bind fun st' => loadAll st' fs

end Voss.Lex
