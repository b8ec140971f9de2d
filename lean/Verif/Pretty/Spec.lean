import Verif.Pretty.Model

/-
What the combinators of the pretty printer mean: sets of layouts.  A layout
is a list of lines, each with its indentation and its text; no lines at all
is the empty document.  Nothing here is taken from the model but the type of
the texts, except for `build`, which applies the functions of the model.
-/

namespace Voss.Pretty

abbrev Layout := List (Int × List Char)

/-- All lines moved to the right by `k`. -/
def shift (k : Int) (l : Layout) : Layout := l.map fun x => (x.1 + k, x.2)

/-- What is put between two texts. -/
def gap (b : Bool) : List Char := if b then [' '] else []

/-- The second layout begins where the last line of the first one ends (after
a blank if `b`), and its other lines move along. -/
def besideL (b : Bool) : Layout → Layout → Layout
  | [], m => m
  | [x], [] => [x]
  | [(i, s)], (j, t) :: r =>
    (i, s ++ gap b ++ t) :: shift (i + s.length + (gap b).length - j) r
  | x :: y :: l, m => x :: besideL b (y :: l) m

/-- The second layout follows on the next line; unless `b` is true, its first
line is put on the last line of the first one if it begins to the right of
the end of that line. -/
def aboveL (b : Bool) : Layout → Layout → Layout
  | [], m => m
  | [x], [] => [x]
  | [(i, s)], (j, t) :: r =>
    if b = false ∧ i + s.length < j then
      (i, s ++ List.replicate (j - (i + s.length)).toNat ' ' ++ t) :: r
    else (i, s) :: (j, t) :: r
  | x :: y :: l, m => x :: aboveL b (y :: l) m

def hcatL (b : Bool) (ls : List Layout) : Layout := ls.foldr (besideL b) []
def vcatL (ls : List Layout) : Layout := ls.foldr (aboveL false) []

/-- The second list is the first one with a layout in `P` beside all but the
last. -/
inductive PunctL (P : Layout → Prop) : List Layout → List Layout → Prop
  | nil : PunctL P [] []
  | one (x : Layout) : PunctL P [x] [x]
  | cons (x y lp : Layout) (r s : List Layout) :
      P lp → PunctL P (y :: r) s → PunctL P (x :: y :: r) (besideL false x lp :: s)

mutual
/-- What a user writes: `nil`, `text s`, `nest k d`, `$-$` and `$+$`, `<->`
and `<+>`, `hcat` and `hsep`, `vcat`, `cat` and `sep`, `hang`. -/
inductive Expr where
  | nil
  | text (s : List Char)
  | nest (k : Int) (e : Expr)
  | above (e : Expr) (b : Bool) (f : Expr)
  | beside (e : Expr) (b : Bool) (f : Expr)
  | hcat (b : Bool) (es : Exprs)
  | vcat (es : Exprs)
  | sep (b : Bool) (es : Exprs)
  | hang (e : Expr) (k : Int) (f : Expr)
/-- Lists of documents, and `punctuate`. -/
inductive Exprs where
  | nil
  | cons (e : Expr) (es : Exprs)
  | punctuate (e : Expr) (es : Exprs)
end

mutual
/-- The layouts that are allowed.  With `loose`, a document `$+$` another one
may be laid out as with `$-$`. -/
def Expr.Spec (loose : Bool) : Expr → Layout → Prop
  | .nil, l => l = []
  | .text s, l => l = [(0, s)]
  | .nest k e, l => ∃ m, e.Spec loose m ∧ l = shift k m
  | .above e b f, l => ∃ c m n, (c = b ∨ (loose = true ∧ b = true)) ∧
      e.Spec loose m ∧ f.Spec loose n ∧ l = aboveL c m n
  | .beside e b f, l => ∃ m n, e.Spec loose m ∧ f.Spec loose n ∧ l = besideL b m n
  | .hcat b es, l => ∃ ls, es.Spec loose ls ∧ l = hcatL b ls
  | .vcat es, l => ∃ ls, es.Spec loose ls ∧ l = vcatL ls
  | .sep b es, l => ∃ ls, es.Spec loose ls ∧ (l = vcatL ls ∨ (l = hcatL b ls ∧ l.length ≤ 1))
  | .hang e k f, l => ∃ m n, e.Spec loose m ∧ f.Spec loose n ∧
      (l = aboveL false m (shift k n) ∨ (l = besideL true m (shift k n) ∧ l.length ≤ 1))
def Exprs.Spec (loose : Bool) : Exprs → List Layout → Prop
  | .nil, ls => ls = []
  | .cons e es, ls => ∃ m ms, e.Spec loose m ∧ es.Spec loose ms ∧ ls = m :: ms
  | .punctuate e es, ls => ∃ ms, es.Spec loose ms ∧ PunctL (e.Spec loose) ms ls
end

mutual
/-- The document that the program makes. -/
def Expr.build : Expr → Option Doc
  | .nil => some .nil
  | .text s => some (Pretty.text s)
  | .nest k e => e.build.bind fun d => mkNest k d
  | .above e b f => e.build.bind fun d => f.build.map fun d' => mkAbove d b d'
  | .beside e b f => e.build.bind fun d => f.build.map fun d' => mkBeside d b d'
  | .hcat b es => es.build.map fun ds => Pretty.hcat b ds
  | .vcat es => es.build.map fun ds => Pretty.vcat ds
  | .sep b es => es.build.bind fun ds => sepSpace b ds
  | .hang e k f => e.build.bind fun d => f.build.bind fun d' => (mkNest k d').bind fun d'' =>
      sepSpace true [d, d'']  -- pretty.fl:242
def Exprs.build : Exprs → Option (List Doc)
  | .nil => some []
  | .cons e es => e.build.bind fun d => es.build.map fun ds => d :: ds
  | .punctuate e es => e.build.bind fun d => es.build.map fun ds => Pretty.punctuate d ds
end

mutual
/-- `$+$` occurs. -/
def Expr.plus : Expr → Bool
  | .nil => false
  | .text _ => false
  | .nest _ e => e.plus
  | .above e b f => b || e.plus || f.plus
  | .beside e _ f => e.plus || f.plus
  | .hcat _ es => es.plus
  | .vcat es => es.plus
  | .sep _ es => es.plus
  | .hang e _ f => e.plus || f.plus
def Exprs.plus : Exprs → Bool
  | .nil => false
  | .cons e es => e.plus || es.plus
  | .punctuate e es => e.plus || es.plus
end

mutual
/-- `vcat` occurs. -/
def Expr.usesVcat : Expr → Bool
  | .nil => false
  | .text _ => false
  | .nest _ e => e.usesVcat
  | .above e _ f => e.usesVcat || f.usesVcat
  | .beside e _ f => e.usesVcat || f.usesVcat
  | .hcat _ es => es.usesVcat
  | .vcat _ => true
  | .sep _ es => es.usesVcat
  | .hang e _ f => e.usesVcat || f.usesVcat
def Exprs.usesVcat : Exprs → Bool
  | .nil => false
  | .cons e es => e.usesVcat || es.usesVcat
  | .punctuate e es => e.usesVcat || es.usesVcat
end

mutual
/-- The texts in the order in which they are written. -/
def Expr.words : Expr → List Char
  | .nil => []
  | .text s => s
  | .nest _ e => e.words
  | .above e _ f => e.words ++ f.words
  | .beside e _ f => e.words ++ f.words
  | .hcat _ es => es.words.flatten
  | .vcat es => es.words.flatten
  | .sep _ es => es.words.flatten
  | .hang e _ f => e.words ++ f.words
def Exprs.words : Exprs → List (List Char)
  | .nil => []
  | .cons e es => e.words :: es.words
  | .punctuate e es => punctW e.words es.words
where
  punctW (p : List Char) : List (List Char) → List (List Char)
  | [] => []
  | [x] => [x]
  | x :: y :: r => (x ++ p) :: punctW p (y :: r)
end

/-- A layout as it is printed: every line after its indentation, as `blank`
has it. -/
def showL (blank : Int → List Char) : Layout → List Char
  | [] => []
  | [x] => blank x.1 ++ x.2
  | x :: y :: l => blank x.1 ++ x.2 ++ '\n' :: showL blank (y :: l)

/-- The characters that are not white space. -/
def ink (s : List Char) : List Char := s.filter fun c => c != ' ' && c != '\n'

end Voss.Pretty
