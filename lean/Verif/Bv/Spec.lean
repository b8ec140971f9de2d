import Verif.Bv.Model
import Verif.Arbi.Spec
/-
Specification side for bit-vectors: the integer a bit list denotes (two's complement, most significant
bit first), and the integer a symbolic bit-vector has under an assignment of the variables.
-/
namespace Voss.Bv

/-- Unsigned value, most significant bit first. -/
def uv : List Bool → Nat
  | [] => 0
  | b :: l => (if b then 2^l.length else 0) + uv l

/-- Two's complement value: the first bit has negative weight. -/
def tc : List Bool → Int
  | [] => 0
  | b :: l => (if b then -(2:Int)^l.length else 0) + uv l

variable {F Env : Type} [Fml F Env]

/-- The bits of a symbolic list under an assignment. -/
def bits (l : List F) (ρ : Env) : List Bool := l.map fun f => Fml.den f ρ

/-- The integer a symbolic bit-vector has under an assignment. -/
def sv (l : List F) (ρ : Env) : Int := tc (bits l ρ)

/-- Canonical bit-vectors: no redundant sign bit. -/
def Trimmed : List F → Prop
  | a :: b :: _ => Fml.eqb a b = false
  | _ => True

end Voss.Bv
