import Verif.Lst.Model
import Verif.Plist.Model

/-! Model of `fixed_bv2list` and `fixed_bev2list` (preamble.fl:662-688), which have the same text.  A vector is the list of its
bits (bv.c:736-746 `bv2list`), of any type; `zero` is `F` or `bF`. -/

namespace Voss.Fixed

open Voss.Lst (Res)

variable {α : Type}

/-- preamble.fl:666-670: extend to the size. -/
def extend (zero : α) (bits : Int) (signExt : Bool) (l : List α) : Res (List α) :=
  let len : Int := l.length
  if len > bits then .own
  else if len = bits then .ok l
  else
    match (if signExt then l.head? else some zero) with
    | none => .own
    | some b =>
      match Plist.replicate (bits - len) b with
      | none => .own
      | some r => .ok (r ++ l)

/-- preamble.fl:662-671 `fixed_bv2list`; the failures of `eprintf`, `hd` and `replicate` are `own`. -/
def fixedList (zero : α) (bits : Int) (signExt truncate : Bool) (l : List α) : Res (List α) :=
  let len : Int := l.length
  match (if truncate then Lst.lastn (min len bits) l else .ok l) with
  | .ok l => extend zero bits signExt l
  | e => e

end Voss.Fixed
