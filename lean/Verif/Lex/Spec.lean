import Verif.Lex.Model

/-!
# What conditional sections mean

A document is a properly nested text.  `Doc.sem` says which lines of it are
read, by recursion over its structure: no stack, no start condition.
-/

namespace Voss.Lex

/-- A properly nested text.  `b` are the blanks between a directive and the
name. -/
inductive Doc where
  | nil
  | text (l : List Char) (rest : Doc)
  | define (b name : List Char) (rest : Doc)
  | undefine (b name : List Char) (rest : Doc)
  | ifdef (b name : List Char) (thn : Doc) (rest : Doc)
  | ifelse (b name : List Char) (thn els : Doc) (rest : Doc)
  | load (l name : List Char) (file : Doc) (last : List Char) (rest : Doc)

/-- The characters of a document, followed by `k`. -/
def Doc.render : Doc → Src → Src
  | .nil, k => k
  | .text l r, k => .line l (r.render k)
  | .define b n r, k => .line (kwDefine ++ b ++ n) (r.render k)
  | .undefine b n r, k => .line (kwUndefine ++ b ++ n) (r.render k)
  | .ifdef b n t r, k =>
    .line (kwIfdef ++ b ++ n) (t.render (.line kwEndif (r.render k)))
  | .ifelse b n t e r, k =>
    .line (kwIfdef ++ b ++ n)
      (t.render (.line kwElse (e.render (.line kwEndif (r.render k)))))
  | .load l name f last r, k => .load l name (f.render (.eof last)) (r.render k)

/-- The number of lines of a document. -/
def Doc.lines : Doc → Nat
  | .nil => 0
  | .text _ r => r.lines + 1
  | .define _ _ r => r.lines + 1
  | .undefine _ _ r => r.lines + 1
  | .ifdef _ _ t r => t.lines + r.lines + 2
  | .ifelse _ _ t e r => t.lines + e.lines + r.lines + 3
  | .load _ _ _ _ r => r.lines + 1

/-- A line that has been read: the file, the number of the line, the text. -/
abbrev Read := List Char × Nat × List Char

def setName (e : List Char → Bool) (n : List Char) (v : Bool) : List Char → Bool :=
  fun m => if m = n then v else e m

def lastLine (f : List Char) (n : Nat) (last : List Char) : List Read :=
  if last = [] then [] else [(f, n, last)]

/-- The lines of a document that are read, and the names that are defined
after it, when it starts at line `n` of the file `f` with the names `e`
defined. -/
def Doc.sem : Doc → (f : List Char) → (n : Nat) → (e : List Char → Bool) →
    List Read × (List Char → Bool)
  | .nil, _, _, e => ([], e)
  | .text l r, f, n, e => ((f, n, l) :: (r.sem f (n + 1) e).1, (r.sem f (n + 1) e).2)
  | .define _ x r, f, n, e => r.sem f (n + 1) (setName e x true)
  | .undefine _ x r, f, n, e => r.sem f (n + 1) (setName e x false)
  | .ifdef _ x t r, f, n, e =>
    let p := if e x then t.sem f (n + 1) e else ([], e)
    let q := r.sem f (n + t.lines + 2) p.2
    (p.1 ++ q.1, q.2)
  | .ifelse _ x t s r, f, n, e =>
    let p := if e x then t.sem f (n + 1) e else s.sem f (n + t.lines + 2) e
    let q := r.sem f (n + t.lines + s.lines + 3) p.2
    (p.1 ++ q.1, q.2)
  | .load l g d last r, f, n, e =>
    let p := d.sem g 1 e
    let q := r.sem f (n + 1) p.2
    ((f, n, l) :: p.1 ++ lastLine g (1 + d.lines) last ++ q.1, q.2)

/-- A name in a directive: at least one character, no blanks in it. -/
def okName (n : List Char) : Prop := n ≠ [] ∧ ∀ c ∈ n, isSpace c = false

/-- Blanks between a directive and its name: at least one. -/
def okBlanks (b : List Char) : Prop := b ≠ [] ∧ ∀ c ∈ b, isWhite c = true

/-- The names and blanks of a document are in order, and its text lines are
no directives. -/
def Doc.ok : Doc → Prop
  | .nil => True
  | .text l r => classify l = .text ∧ r.ok
  | .define b n r => okBlanks b ∧ okName n ∧ r.ok
  | .undefine b n r => okBlanks b ∧ okName n ∧ r.ok
  | .ifdef b n t r => okBlanks b ∧ okName n ∧ t.ok ∧ r.ok
  | .ifelse b n t e r => okBlanks b ∧ okName n ∧ t.ok ∧ e.ok ∧ r.ok
  | .load l _ f _ r => classify l = .text ∧ f.ok ∧ r.ok

/-- The lines read and the names defined by documents loaded one after the
other. -/
def semAll : List (List Char × Doc × List Char) → (List Char → Bool) →
    List Read × (List Char → Bool)
  | [], e => ([], e)
  | (g, d, last) :: fs, e =>
    let p := d.sem g 1 e
    let q := semAll fs p.2
    (p.1 ++ lastLine g (1 + d.lines) last ++ q.1, q.2)

/-- All the lines of a file, with their numbers, whether they are read or not,
and with the lines of the files that it loads. -/
def Src.numbered : Src → (f : List Char) → (n : Nat) → List Read
  | .eof last, f, n => [(f, n, last)]
  | .line l r, f, n => (f, n, l) :: r.numbered f (n + 1)
  | .load l g d r, f, n => (f, n, l) :: d.numbered g 1 ++ r.numbered f (n + 1)

/-- A file that loads no files. -/
def Src.ofLines (last : List Char) : List (List Char) → Src
  | [] => .eof last
  | l :: ls => .line l (Src.ofLines last ls)

def isIfdef (l : List Char) : Bool :=
  match classify l with
  | .ifdef _ => true
  | _ => false

def isEndif (l : List Char) : Bool := decide (classify l = .endif)
def isElse (l : List Char) : Bool := decide (classify l = .els)

end Voss.Lex
