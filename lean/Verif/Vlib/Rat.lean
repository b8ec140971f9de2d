import Verif.Io.Fmt
import Verif.Txt.Model
import Verif.Pre.Ints
/-
Model of the library of rational numbers: src/vosslib/rationals.fl.

The integers of fl are exact (C01 to C03), its division rounds down (C03), `gcd` is the non-negative greatest common
divisor (C07).  The parts of a string are those of `str_split` and `substr` (C74), the numbers in it those of
`sscanf` (C63), the power is that of C91.  Evaluation is lazy; here a result is a failure when a part of it is one.
-/
namespace Voss.Vlib
open Voss.Io (Out)

/-- rationals.fl:8, `lettype rat = RAT int int`: numerator (named `d` there) and denominator (`n`). -/
structure Rt where
  d : Int
  n : Int
deriving DecidableEq

def bind {α β : Type} (x : Out α) (f : α → Out β) : Out β :=
  match x with
  | .ok a => f a
  | .fail => .fail
  | .ub => .ub

/-- rationals.fl:11-14 `mk_rat`; division by 0 fails. -/
def mkRat (d n : Int) : Out Rt :=
  let c : Int := Int.gcd d n
  if c = 0 then .fail else .ok ⟨d.fdiv c, n.fdiv c⟩

/-- `sscanf "%d"`, rationals.fl:23. -/
def s2i (s : List Char) : Out Int :=
  match Io.sscanf "%d".toList [] s with
  | .ok [.int z] => .ok z
  | .ok _ => .fail
  | .fail => .fail
  | .ub => .ub

def pow10 (k : Int) : Out Int :=
  match Pre.ipow 10 k with
  | some z => .ok z
  | none => .fail

def ofRes {α : Type} : Txt.Res α → Out α
  | .ok a => .ok a
  | .fail => .fail
  | .ub => .ub

/-- rationals.fl:33-40: the last digit is repeated. -/
def repLast (sign : Int) (ip frac : List Char) : Out Rt :=
  let lfrac := Txt.strlen frac
  bind (pow10 (lfrac - 1)) fun gFact =>
  bind (s2i ip) fun i =>
  bind (ofRes (Txt.substr frac 1 (lfrac - 1))) fun front =>
  bind (s2i front) fun f =>
  bind (ofRes (Txt.substr frac lfrac 1)) fun last =>
  bind (s2i last) fun digit =>
  mkRat (sign * (9 * (gFact * i + f) + digit)) (9 * gFact)

/-- rationals.fl:41-52: the part in braces is repeated. -/
def repPart (sign : Int) (ip frac : List Char) : Out Rt :=
  if !Txt.isSuffix "}".toList frac then .fail
  else
    match Txt.split frac "{".toList with
    | pre :: rest :: _ =>
      bind (pow10 (Txt.strlen pre)) fun gFact =>
      bind (s2i ip) fun i =>
      bind (s2i pre) fun p =>
      match Txt.split rest "}".toList with
      | rep :: _ =>
        bind (pow10 (Txt.strlen rep)) fun g =>
        bind (s2i rep) fun digits =>
        mkRat (sign * ((g - 1) * (gFact * i + p) + digits)) ((g - 1) * gFact)
      | [] => .fail
    | _ => .fail

/-- rationals.fl:24-52, the part of `str2rat` after the sign. -/
def unsigned (sign : Int) (t : List Char) : Out Rt :=
  match Txt.split t ".".toList with
  | [] => .fail
  | [_] => bind (s2i t) fun i => .ok ⟨i, 1⟩
  | [ip, frac] =>
    bind (pow10 (Txt.strlen frac)) fun scale =>
    bind (s2i ip) fun i =>
    bind (s2i frac) fun f =>
    mkRat (sign * (scale * i + f)) scale
  | ip :: frac :: _ => if !Txt.isSubstr "{".toList frac then repLast sign ip frac else repPart sign ip frac

/-- rationals.fl:20-53 `str2rat`. -/
def str2rat (s : List Char) : Out Rt :=
  let neg := Txt.isPrefix "-".toList s
  bind (if neg then ofRes (Txt.substr s 2 (-1)) else .ok s) fun t => unsigned (if neg then -1 else 1) t

/-- rationals.fl:61-67 `'+'`. -/
def add (r1 r2 : Rt) : Out Rt := mkRat (r1.d * r2.n + r2.d * r1.n) (r1.n * r2.n)
/-- rationals.fl:71-77 `'-'`. -/
def sub (r1 r2 : Rt) : Out Rt := mkRat (r1.d * r2.n - r2.d * r1.n) (r1.n * r2.n)
/-- rationals.fl:81-87 `'*'`. -/
def mul (r1 r2 : Rt) : Out Rt := mkRat (r1.d * r2.d) (r1.n * r2.n)
/-- rationals.fl:91-97 `'/'`. -/
def div (r1 r2 : Rt) : Out Rt := mkRat (r1.d * r2.n) (r1.n * r2.d)
/-- rationals.fl:100-102 `floor`. -/
def floor (r : Rt) : Out Int := if r.n = 0 then .fail else .ok (r.d.fdiv r.n)
/-- rationals.fl:104-106 `round`. -/
def round (r : Rt) : Out Int := if r.n = 0 then .fail else .ok (((r.d * 10).fdiv r.n + 5).fdiv 10)

end Voss.Vlib
