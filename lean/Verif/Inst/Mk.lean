import Verif.Inst.Sha
import Verif.Lib.Hash

/-
Model of the making of instances (pexlif.c).
Simplified: characters are bytes; reference counts are left out; the two signatures are parameters, instantiated by those of
`Fp.lean` and `Sha.lean`.
-/
namespace Voss.Inst
open Hier

/-- What a call ends with: a result, a failure of fl, the end of the program, or undefined behaviour. -/
inductive Made (α : Type) where
  | ok (a : α)
  | fail
  | die
  | ub
deriving DecidableEq

/-- A character as a `char`, which is signed, converted to `unsigned int`. -/
def charBits (c : Char) : BitVec 32 := (BitVec.ofNat 8 c.toNat).signExtend 32

/-- The body of the loop in hash.c:133-138. -/
def hashStep (h : BitVec 32) (c : Char) : BitVec 32 :=
  let h := h + charBits c
  let h := h + (h <<< 10)
  h ^^^ (h >>> 6)

/-- hash.c:128-143 `str_hash`. -/
def strHash (s : Name) (n : Nat) : Nat :=
  let h := s.foldl hashStep 0
  let h := h + (h <<< 3)
  let h := h ^^^ (h >>> 11)
  let h := h + (h <<< 15)
  h.toNat % n

/-- hash.c:151-155 `str_equ`. -/
def strEqu (a b : Name) : Bool := a == b

/-- `strstr(s, pat) != NULL` (C11 7.24.5.7). -/
def contains (pat : Name) : Name → Bool
  | [] => pat.isEmpty
  | c :: s => pat.isPrefixOf (c :: s) || contains pat s

/-- pexlif.c:3283-3297 `is_assertion`; the first actual of a pin without actuals is a null pointer that is followed. -/
def isAssertion (k : Kid) : Option (Option Name) :=
  match k.outs with
  | [q] =>
    match q.acts with
    | [] => none
    | n :: _ => do
      let s ← Vec.mdSize n
      if s ≠ 1 then some none else if contains "assert__".toList n then some (some n) else some none
  | _ => some none

abbrev ATbl := Lib.Tbl Name Name

/-- pexlif.c:3344-3357: the names of assertions. -/
def collect : ATbl → List Kid → Made ATbl
  | t, [] => .ok t
  | t, k :: ks =>
    match isAssertion k with
    | none => .ub
    | some none => collect t ks
    | some (some n) =>
      match Lib.find strHash strEqu t n with
      | none => .ub
      | some (some _) => .fail
      | some none =>
        match Lib.insert strHash t n (some n) with
        | none => .ub
        | some t => collect t ks

/-- pexlif.c:3361-3367, 3369-3375: delete names that are declared. -/
def discard : ATbl → List Name → Option ATbl
  | t, [] => some t
  | t, n :: ns =>
    match Lib.find strHash strEqu t n with
    | none => none
    | some none => discard t ns
    | some (some _) =>
      match Lib.delete strHash strEqu t n with
      | none => none
      | some t => discard t ns

/-- pexlif.c:3358-3379: add the assertions that are not declared, each in front of the others (pexlif.c:3299-3305
`add_assertion_declarations`). -/
def addAssertions (t : ATbl) (outs : List Pin) (ints : List Name) : Option (List Name) :=
  if t.elements ≠ 0 then
    match discard t ints with
    | none => none
    | some t =>
      match discard t (outs.map Pin.formal) with
      | none => none
      | some t => some ((Lib.scan t).foldl (fun l e => e.1 :: l) ints)
  else some ints

/-- pexlif.c:3340-3383: the internal signals of the instance. -/
def declare {φ : Type} (outs : List Pin) (ints : List Name) : Content φ → Made (List Name)
  | .leaf _ => .ok ints
  | .hier ks =>
    match Lib.create 100 with
    | none => .ub
    | some t =>
      match collect t ks with
      | .ok t =>
        match addAssertions t outs ints with
        | none => .ub
        | some l => .ok l
      | .fail => .fail
      | .die => .die
      | .ub => .ub

/-- pexlif.c:3307-3313 `is_signature`. -/
def isSignature (a : Name × Name) : Bool := a.1 == "FP".toList || a.1 == "SHA".toList

/-- pexlif.c:3315-3332 `strip_signatures`. -/
def strip : List (Name × Name) → List (Name × Name)
  | [] => []
  | a :: as => if isSignature a then strip as else a :: strip as

/-- pexlif.c:3334-3393 `mk_pinst`: the attributes and the other arguments of the instance. -/
def mkPinst {φ : Type} (fp : Inst φ → Option W64) (sha : Inst φ → Option Name) (attrs : List (Name × Name)) (p : Inst φ) :
    Made (List (Name × Name) × Inst φ) :=
  match declare p.outs p.ints p.content with
  | .ok ints =>
    let p := { p with ints := ints }
    match fp p with
    | none => .ub
    | some w =>
      match sha p with
      | none => .die
      | some s => .ok (("SHA".toList, s) :: ("FP".toList, showLong w) :: strip attrs, p)
  | .fail => .fail
  | .die => .die
  | .ub => .ub

end Voss.Inst
