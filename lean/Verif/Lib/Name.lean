/-
Model of `node_name_cmp` (`src/lib/strmgr.c`).  A C string is the list of its bytes (1..255).
`none` is undefined behaviour.
-/
namespace Voss.Lib.Name

/-- `isdigit`. -/
def isDigit (c : Nat) : Bool := decide (48 ≤ c ∧ c ≤ 57)

/-- Value of the leading digits. -/
def digitsVal : Nat → List Nat → Nat
  | acc, [] => acc
  | acc, c :: s => if isDigit c then digitsVal (10 * acc + (c - 48)) s else acc

/-- `atoi` on a string that starts with a digit: undefined behaviour when the value is not an `int`
(C11 7.22.1). -/
def atoi (s : List Nat) : Option Nat :=
  let v := digitsVal 0 s
  if v < 2 ^ 31 then some v else none

/-- `while( *s && isdigit(*s) ) s++`. -/
def skipDigits : List Nat → List Nat
  | [] => []
  | c :: s => if isDigit c then skipDigits s else c :: s

/-- `strcmp`: the sign of the first difference as `unsigned char`. -/
def strcmp : List Nat → List Nat → Int
  | [], [] => 0
  | [], _ :: _ => -1
  | _ :: _, [] => 1
  | c :: s, d :: t => if c = d then strcmp s t else if c < d then -1 else 1

/-- `node_name_cmp` strmgr.c:284-321.  The number bounds the rounds of the loop; every round shortens
both strings. -/
def cmpLoop : Nat → List Nat → List Nat → Option Int
  | 0, _, _ => none
  | fuel + 1, c :: s, d :: t =>
    if isDigit c = true ∧ isDigit d = true then do
      let i1 ← atoi (c :: s)
      let i2 ← atoi (d :: t)
      if i1 ≠ i2 then some ((i1 : Int) - i2) else cmpLoop fuel (skipDigits (c :: s)) (skipDigits (d :: t))
    else if c = d then cmpLoop fuel s t
    else some (strcmp (c :: s) (d :: t))
  | _ + 1, _ :: _, [] => some 1
  | _ + 1, [], _ :: _ => some (-1)
  | _ + 1, [], [] => some 0

def nodeNameCmp (s t : List Nat) : Option Int := cmpLoop (s.length + 1) s t

/-! ### Specification: order of token sequences -/

/-- A name is a sequence of numbers (maximal digit runs) and other characters. -/
inductive Tok where
  | num (n : Nat)
  | ch (c : Nat)
deriving DecidableEq, Repr

/-- Split into tokens; `acc` is the value of the digit run in progress. -/
def tokens : Option Nat → List Nat → List Tok
  | none, [] => []
  | some n, [] => [.num n]
  | none, c :: s => if isDigit c then tokens (some (c - 48)) s else .ch c :: tokens none s
  | some n, c :: s => if isDigit c then tokens (some (10 * n + (c - 48))) s else .num n :: .ch c :: tokens none s

/-- Order of tokens: numbers by value, characters by code, and all numbers at the place of the digits. -/
def Tok.lt : Tok → Tok → Bool
  | .num a, .num b => decide (a < b)
  | .ch a, .ch b => decide (a < b)
  | .num _, .ch b => decide (48 ≤ b)
  | .ch a, .num _ => decide (a < 48)

/-- Lexicographic order of token sequences. -/
def lexLt : List Tok → List Tok → Bool
  | [], [] => false
  | [], _ :: _ => true
  | _ :: _, [] => false
  | a :: s, b :: t => a.lt b || (a == b && lexLt s t)

/-- All numbers in the name fit an `int`. -/
def Fits (s : List Nat) : Prop := ∀ n, Tok.num n ∈ tokens none s → n < 2 ^ 31

end Voss.Lib.Name
