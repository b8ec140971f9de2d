import Verif.Bvstr.Model

/-! What a printed bit-vector should be. -/

namespace Voss.Bvstr

variable {α : Type}

/-- A constant bit. -/
def const (b : Bool) : Bit α := if b then .one else .zero

/-- The letter of a constant bit. -/
def letter (b : Bool) : List Char := if b then ['T'] else ['F']

/-- Texts with commas in between. -/
def commas : List (List Char) → List Char
  | [] => []
  | [t] => t
  | t :: l => t ++ ',' :: commas l

/-- The texts between angle brackets. -/
def angle (l : List (List Char)) : List Char := '<' :: commas l ++ ['>']

/-- A value in parentheses after a blank. -/
def paren (z : Int) : List Char := ' ' :: '(' :: Vec.decimal z ++ [')']

/-- How a single bit should be shown: a constant by its letter, another function by `S` at depth 0 and otherwise by the
text the printer of Boolean functions gives. -/
def shown (pr : Int → Bit α → List Char) (depth : Int) : Bit α → List Char
  | .one => ['T']
  | .zero => ['F']
  | .sym a => if depth = 0 then ['S'] else pr depth (.sym a)

end Voss.Bvstr
