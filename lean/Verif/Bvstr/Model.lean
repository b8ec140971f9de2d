import Verif.Bv.Spec
import Verif.Vec.Model

/-! Model of the printing of bit-vectors: bv.c:175-219 `bv_list2str`, with `bv2str_fn` (bv.c:221-227) and `bv2str`
(bv.c:748-763) as its callers. -/

namespace Voss.Bvstr

/-- A Boolean function as `bv_list2str` sees it: one of the two constants, or another one (bv.c:169-173 `is_symbolic`). -/
inductive Bit (α : Type) where
  | one | zero
  | sym (a : α)

/-- What a call does.  `undefined`: signed overflow or a shift C does not define.  `tooLong`: the text and its
terminating byte do not fit into the 4096 bytes of `bv_str_buf`, so that it is cut. -/
inductive Res where
  | text (s : List Char)
  | undefined
  | tooLong
  deriving DecidableEq

/-- A C `int` of 32 bits; other values are signed overflow. -/
def int (z : Int) : Option Int := if -2147483648 ≤ z ∧ z ≤ 2147483647 then some z else none

/-- `1 << n` in `int`: defined as long as the shift is not negative and `2^n` is an `int`. -/
def shl1 (n : Int) : Option Int := if 0 ≤ n then int (2 ^ n.toNat) else none

/-- The local variables of bv.c:181-185 and the text written so far. -/
structure St where
  scalar : Bool
  negative : Bool
  value : Int
  sz : Int
  sep : Char
  out : List Char

/-- bv.c:181-185. -/
def init : St := ⟨true, false, 0, 0, '<', []⟩

variable {α : Type}

/-- The loop body, bv.c:187-206.  `pr` is `B_Print` at the given depth (new_bdd.c:666-686), which depends on the print
format and is a parameter. -/
def step (pr : Int → Bit α → List Char) (depth : Int) (s : St) (f : Bit α) : Option St :=
  let out := s.out ++ [s.sep]
  match s.scalar, f with
  | true, .one => do
      let sz ← int (s.sz + 1)
      let d ← int (2 * s.value)
      let v ← int (d + 1)
      some { s with negative := if s.sz = 0 then true else s.negative, value := v, sz := sz, sep := ',', out := out ++ ['T'] }
  | true, .zero => do
      let sz ← int (s.sz + 1)
      let v ← int (2 * s.value)
      some { s with value := v, sz := sz, sep := ',', out := out ++ ['F'] }
  | _, .sym a =>
      some { s with scalar := false, sep := ',', out := out ++ (if depth = 0 then ['S'] else pr depth (.sym a)) }
  | false, f => some { s with scalar := false, sep := ',', out := out ++ pr depth f }

/-- The loop, bv.c:186-207. -/
def loop (pr : Int → Bit α → List Char) (depth : Int) : St → List (Bit α) → Option St
  | s, [] => some s
  | s, f :: l => (step pr depth s f).bind (fun s' => loop pr depth s' l)

/-- bv.c:208-215. -/
def finish (s : St) : Option (List Char) :=
  if s.scalar then
    if s.negative then do
      let p ← shl1 s.sz
      let v ← int (s.value - p)
      some (s.out ++ ['>'] ++ (" (".toList ++ Vec.decimal v ++ [')']))
    else some (s.out ++ ['>'] ++ (" (".toList ++ Vec.decimal s.value ++ [')']))
  else some (s.out ++ ['>'])

/-- bv.c:175-219 `bv_list2str`. -/
def list2str (pr : Int → Bit α → List Char) (depth : Int) (l : List (Bit α)) : Res :=
  match (loop pr depth init l).bind finish with
  | none => .undefined
  | some s => if s.length < 4096 then .text s else .tooLong

end Voss.Bvstr
