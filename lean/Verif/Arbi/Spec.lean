import Verif.Arbi.Model
import Mathlib.Data.Nat.Digits.Defs
/-
Specification side for arbitrary precision integers: the integer a word array denotes
(comment in arb_prec.h:91-104) and the canonical form the library keeps.
-/
namespace Voss.Arbi

/-- The integer denoted by a digit array: all digits unsigned except the most significant one. -/
def val : List W → Int
  | [] => 0
  | [d] => d.toInt
  | d :: ds => (d.toNat : Int) + 2^64 * val ds

/-- Unsigned value of a digit array. -/
def uval : List W → Nat
  | [] => 0
  | d :: ds => d.toNat + 2^64 * uval ds

/-- Canonical arrays: at least one digit, and no redundant sign digit on top. -/
def Norm (x : List W) : Prop :=
  x ≠ [] ∧ ∀ init lo hi, x = init ++ [lo, hi] →
    ¬ ((lo.toInt < 0 ∧ hi = -1#64) ∨ (0 ≤ lo.toInt ∧ hi = 0#64))

/-- Bit `i` of the two's complement expansion of an integer (`/` and `%` round down here). -/
def ibit (z : Int) (i : Nat) : Bool := z / 2^i % 2 == 1

/-- The floor division law: `x = q*y + r`, and `r` is 0 or has the sign of `y` and is smaller. -/
def FloorDiv (x y q r : Int) : Prop :=
  x = q * y + r ∧ (0 < y → 0 ≤ r ∧ r < y) ∧ (y < 0 → y < r ∧ r ≤ 0)

/-- The characters for the digits 0 to 35. -/
def digitTable : List Char := "0123456789abcdefghijklmnopqrstuvwxyz".toList

/-- The numeral of a natural number: most significant digit first, no leading zeros, `0` for zero. -/
def numeral (base n : Nat) : List Char :=
  if n = 0 then ['0'] else ((Nat.digits base n).map fun d => digitTable.getD d '?').reverse

/-- The numeral of an integer: a minus sign for negative numbers. -/
def renderInt (base : Nat) (z : Int) : List Char :=
  if z < 0 then '-' :: numeral base z.natAbs else numeral base z.natAbs

/-- Value of a digit character, either case. -/
def digitVal (c : Char) : Option Nat :=
  if c ∈ digitTable then some (digitTable.idxOf c)
  else if c.toLower ∈ digitTable then some (digitTable.idxOf c.toLower) else none

/-- Value of a digit string, most significant digit first; `none` unless every character is a digit
of the base. -/
def readNat (base : Nat) (s : List Char) : Option Nat :=
  s.foldl (fun acc c => acc.bind fun n => (digitVal c).bind fun d => if d < base then some (n * base + d) else none) (some 0)

end Voss.Arbi
