/-
Terms of fl as the parser builds them (graph nodes before compilation), and the combinator code the
compiler makes from them.
-/
namespace Voss.Fl

/-- Identifiers.  (The C strings are byte strings; identifiers are ASCII, lexer:3-9.) -/
abbrev Name := List Char

/-- Leaves other than variables: combinators and the primitive functions that the compiler itself
inserts (fl.h: `P_...`), constants, and all other primitives (`prim`).  BOOL leaves are only the two
constants here; symbolic Boolean values exist at run time only (`Verif.Fl.Heap`).  `nil` is the CONS_ND
with two NULL sons. -/
inductive Con where
  | S | S' | K | I | C | C' | B | Bstar | B' | Y
  | cond | pfail | pcatch | error | namedArg | seq
  | equal | constrEq | identical
  | empty | isCons | isTuple | head | tail | fst | snd
  | cons | tuple | nil
  | int (n : Int) | str (s : Name) | tt | ff
  | prim (n : Nat)
  deriving DecidableEq, Repr

/-- LEAF (variable or other), APPLY_ND, LAMBDA_ND. -/
inductive Term where
  | var (x : Name)
  | con (c : Con)
  | app (a b : Term)
  | lam (x : Name) (b : Term)
  deriving DecidableEq, Repr

/-- Graphs without LAMBDA_ND, the result of compilation. -/
inductive Code where
  | var (x : Name)
  | con (c : Con)
  | app (a b : Code)
  deriving DecidableEq, Repr

/-- `is_free` (graph.c:2914-2936). -/
def isFree (x : Name) : Term → Bool
  | .var y => x = y
  | .con _ => false
  | .app a b => isFree x a || isFree x b
  | .lam y b => if x = y then false else isFree x b

/-- Variables of combinator code. -/
def Code.fv : Code → List Name
  | .var x => [x]
  | .con _ => []
  | .app a b => a.fv ++ b.fv

end Voss.Fl
