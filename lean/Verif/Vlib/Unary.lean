import Verif.Pre.Fn
/-
Model of the library of numbers in unary representation: src/vosslib/unary.fl.

A number is a list of conditions of which exactly one holds.  A failure is `none`.  Sizes are natural numbers; for a
negative size the recursions of the code do not end.
-/
namespace Voss.Vlib
open Voss.Pre Voss.Pre.Fn
variable {o : Order}

/-- unary.fl:15-21 `ite_l`. -/
def iteL (cond : Fn o) : List (Fn o) → List (Fn o) → Option (List (Fn o))
  | [], [] => some []
  | t :: ts, e :: es => (iteL cond ts es).map (((cond.and t).or (cond.not.and e)) :: ·)
  | _, _ => none

/-- unary.fl:30 `pow2`. -/
def pow2 : Nat → Nat
  | 0 => 1
  | n + 1 => 2 * pow2 n

/-- unary.fl:32-33 `rnum2bv`. -/
def rnum2bv (o : Order) : Nat → Int → List (Fn o)
  | 0, _ => []
  | s + 1, n => (if n = (s + 1 : Nat) then tt o else ff o) :: rnum2bv o s n

/-- unary.fl:29-34 `num2bv`. -/
def num2bv (o : Order) (size : Nat) (n : Int) : Option (List (Fn o)) :=
  if n < (pow2 size : Nat) then some (rnum2bv o (pow2 size) (n + 1)) else none

/-- unary.fl:37-44 `bin2unary`. -/
def bin2unary : List (Fn o) → List (Fn o)
  | [] => [tt o]
  | b :: bl => (bin2unary bl).map (fun x => b.and x) ++ (bin2unary bl).map (fun x => b.not.and x)

/-- unary.fl:51-54 `rval`; a symbolic condition merges its two values, which fails unless they are the same integer.
(`rcheck`, 48-50, compares each bit with `T` and `F` by `=`, which makes the disjunction true of every bit.) -/
def rval : List (Fn o) → Int → Int → Option Int
  | [], _, res => some res
  | b :: l, n, res =>
    if b = tt o then rval l (n - 1) (n - 1)
    else if b = ff o then rval l (n - 1) res
    else if n - 1 = res then rval l (n - 1) res
    else none

/-- unary.fl:47-56 `value`. -/
def value (l : List (Fn o)) : Option Int := rval l l.length 0

/-- unary.fl:62-66 `list_prefix`. -/
def listPrefix {α : Type} (n : Int) (av : List α) : Option (List α) :=
  if n > av.length then none
  else if n < 0 then none
  else some (av.take n.toNat)

/-- unary.fl:68-70 `list_suffix`. -/
def listSuffix {α : Type} (n : Int) (av : List α) : Option (List α) :=
  if n > av.length then none
  else (listPrefix n av.reverse).map List.reverse

/-- unary.fl:82-86 `radd`. -/
def radd : List (Fn o) → List (Fn o) → Option (List (Fn o))
  | av, [] => some (av.map fun _ => ff o)
  | av, b :: bv => (radd (av.tail ++ [ff o]) bv).bind fun r => iteL b av r

/-- unary.fl:78-86 `add`. -/
def add1 (av bv : List (Fn o)) : Option (List (Fn o)) :=
  if av.length ≠ bv.length then none else radd av bv.reverse

/-- unary.fl:89-90 `increment`; `tl []` fails. -/
def increment (av : List (Fn o)) : Option (List (Fn o)) := if av = [] then none else some (av.tail ++ [ff o])

/-- unary.fl:93-94 `decrement`. -/
def decrement (av : List (Fn o)) : Option (List (Fn o)) := if av = [] then none else some (ff o :: av.reverse.tail.reverse)

/-- unary.fl:97-98 `subtract`. -/
def subtract1 (av bv : List (Fn o)) : Option (List (Fn o)) := (add1 av.reverse bv).map List.reverse

/-- unary.fl:104-111 `greater`. -/
def greater (av bv : List (Fn o)) : Option (Fn o) :=
  if av.length ≠ bv.length then none
  else some ((av.zip bv).foldr (fun p r => (p.1.and p.2.not).or r) (ff o))

/-- unary.fl:113-118 `equal`. -/
def equal (av bv : List (Fn o)) : Option (Fn o) :=
  if av.length ≠ bv.length then none
  else some ((av.zip bv).foldr (fun p r => (p.1.and p.2).and r) (tt o))

/-- unary.fl:120-123 `geq`, -/
def geq (av bv : List (Fn o)) : Option (Fn o) := (greater av bv).bind fun g => (equal av bv).map fun e => g.or e
/-- 125-128 `less`, -/
def less (av bv : List (Fn o)) : Option (Fn o) := greater bv av
/-- 130-133 `leq`. -/
def leq (av bv : List (Fn o)) : Option (Fn o) := (greater bv av).bind fun g => (equal av bv).map fun e => g.or e

/-- unary.fl:139-144 `bitwise`. -/
def bitwise (fn : Fn o → Fn o → Fn o) (av bv : List (Fn o)) : Option (List (Fn o)) :=
  if av.length ≠ bv.length then none else some ((av.zip bv).map fun p => fn p.1 p.2)

end Voss.Vlib
