import Verif.Arbi.Spec
/-
Model of formatted printing and scanning (`io.c`).

Conventions.
* A string is the list of its characters, without the final NUL.
* The text of an integer that is not negative, `Arbi_ToString`, is its numeral (C06), and the value of a
  string of digits, `Arbi_FromString`, is `readNat` of it (C06).
* Arguments are values: `force_arg_and_check` (io.c:1386-1397) has been run on them.
* The value of `%B` is given by the text that `B_Print` writes for it.
-/
namespace Voss.Io
open Voss.Arbi

/-- Arguments and results. -/
inductive Val where
  | int (z : Int)
  | str (s : List Char)
  | strs (l : List (List Char))
  | bool (text : List Char)
deriving DecidableEq

/-- What happens: a result, a failure of the fl program, or undefined behaviour (which includes a result that
depends on the memory after the end of a string). -/
inductive Out (α : Type) where
  | ok (a : α)
  | fail
  | ub
deriving DecidableEq

/-- `STR_BLOCK_SIZE` strmgr.h:22. -/
def strBlock : Nat := 130000

/-- `strappend`, `charappend` strmgr.c:237-268: what does not fit into the buffer is dropped. -/
def app (buf s : List Char) : List Char := buf ++ s.take (strBlock - buf.length)

/-- `while( fill-- > 0 ) charappend(c)` io.c:1446-1447. -/
def fill (c : Char) : Nat → List Char → List Char
  | 0, buf => buf
  | n + 1, buf => fill c n (app buf [c])

/-- `prs` io.c:1423-1451; `none`: the argument does not fit. -/
def prs (buf s : List Char) (ljust zfill : Bool) (size : Int) : Option (List Char) :=
  if size > 0 ∧ s.length > size then none
  else
    let size := if size > 0 then size.toNat else s.length
    let buf := if ljust then app buf s else buf
    let buf := fill (if !ljust && zfill then '0' else ' ') (size - s.length) buf
    some (if ljust then buf else app buf s)

/-- io.c:740-751: the sign goes to the place of a filling character; `s` is the text after `tmp`. -/
def setSign (s : List Char) : Option (List Char) :=
  if s.head? = some '0' then some (s.set 0 '-')
  else
    let k := (s.takeWhile (· = ' ')).length
    if k = 0 then none else some (s.set (k - 1) '-')

/-- `pat_o`, `pat_x`, `pat_d` io.c:716-821. -/
def putInt (base : Nat) (buf : List Char) (z : Int) (ljust zfill : Bool) (size : Int) : Option (List Char) :=
  if z < 0 ∧ (size = 0 ∨ ljust) then
    let buf := app buf ['-']
    if size = 1 then none
    else
      let size := if size > 0 then size - 1 else size
      prs buf (numeral base z.natAbs) ljust zfill size
  else
    match prs buf (numeral base z.natAbs) ljust zfill size with
    | none => none
    | some buf' =>
      if z < 0 then (setSign (buf'.drop buf.length)).map (buf'.take buf.length ++ ·)
      else some buf'

/-- io.c:693-702: all digits in front of the last `1` are complemented. -/
def complement (s : List Char) : List Char :=
  let k := (s.reverse.takeWhile (· ≠ '1')).length
  if k = s.length then s
  else (s.take (s.length - 1 - k)).map (fun c => if c = '1' then '0' else '1') ++ s.drop (s.length - 1 - k)

/-- `pat_b` io.c:676-715. -/
def putBin (buf : List Char) (z : Int) (ljust zfill : Bool) (size : Int) : Option (List Char) :=
  let zfill := if size ≠ 0 then true else zfill
  let ljust := if size ≠ 0 then false else ljust
  if z < 0 then
    let buf' := if !zfill then app buf ['0'] else buf
    match prs buf' (numeral 2 z.natAbs) ljust zfill size with
    | none => none
    | some b => some (b.take buf.length ++ complement (b.drop buf.length))
  else
    let buf := if !zfill && z ≠ 0 then app buf ['0'] else buf
    prs buf (numeral 2 z.natAbs) ljust zfill size

/-- The loop of `print_list` io.c:1462-1472. -/
def putAll (ljust zfill : Bool) (size : Int) (sep : List Char) : List (List Char) → List Char → Option (List Char)
  | [], buf => some buf
  | s :: ss, buf =>
    match prs (app buf sep) s ljust zfill size with
    | none => none
    | some buf => putAll ljust zfill size [',', ' '] ss buf

/-- `print_list` io.c:1455-1476. -/
def putList (buf : List Char) (l : List (List Char)) (ljust zfill : Bool) (size : Int) : Option (List Char) :=
  if l = [] then some (app buf ['[', ']'])
  else (putAll ljust zfill size ['['] l buf).map (app · [']'])

/-- Inside a directive: the local variables `size`, `zfill` and `ljust`. -/
structure Dir where
  size : Int
  zfill : Bool
  ljust : Bool

def Dir.start : Dir := ⟨0, false, false⟩

/-- A value of type `int`. -/
def inInt (z : Int) : Bool := -2^31 ≤ z && z < 2^31

/-- `size = GET_INT(...)`: the value is that of a 64 bit word, converted to `int`; `none`: an integer with more
than one word (`Arbi_ToInt` returns a null pointer, arb_prec.c:110-118). -/
def starSize (z : Int) : Option Int :=
  if -2^63 ≤ z ∧ z < 2^63 then some (z.bmod (2^32)) else none

/-- `pat_star` io.c:671-675: the width is the next argument. -/
def star : List Val → Option (Int × List Val)
  | .int z :: args => (starSize z).map (·, args)
  | _ => none

/-- `'0'` to `'9'`. -/
def digit? (c : Char) : Option Nat := if '0' ≤ c ∧ c ≤ '9' then some (c.toNat - '0'.toNat) else none

/-- After a directive: go on, or fail. -/
def put (args : List Val) (r : Option (List Char)) : Out (List Val × List Char) :=
  match r with
  | some buf => .ok (args, buf)
  | none => .fail

/-- The text of a directive, printed after `buf`; the type checker has seen to it that the argument has the right
type.  An unknown directive is ignored. -/
def conv (c : Char) (d : Dir) (args : List Val) (buf : List Char) : Out (List Val × List Char) :=
  if c = '%' then .ok (args, app buf ['%'])
  else if c = 'b' then
    match args with
    | .int z :: args => put args (putBin buf z d.ljust d.zfill d.size)
    | _ => .ub
  else if c = 'o' then
    match args with
    | .int z :: args => put args (putInt 8 buf z d.ljust d.zfill d.size)
    | _ => .ub
  else if c = 'x' then
    match args with
    | .int z :: args => put args (putInt 16 buf z d.ljust d.zfill d.size)
    | _ => .ub
  else if c = 'd' then
    match args with
    | .int z :: args => put args (putInt 10 buf z d.ljust d.zfill d.size)
    | _ => .ub
  else if c = 's' then
    match args with
    | .str s :: args => put args (prs buf s d.ljust d.zfill d.size)
    | _ => .ub
  else if c = 'B' then
    match args with
    | .bool s :: args => put args (prs buf s d.ljust d.zfill d.size)
    | _ => .ub
  else if c = 'S' then
    match args with
    | .strs l :: args => put args (putList buf l d.ljust d.zfill d.size)
    | _ => .ub
  else .ok (args, buf)

/-- `PROCESS_PRINTF_PAT` io.h:17-84 as used in `Printf` io.c:641-842.  `none`: outside of a directive. -/
def run : List Char → Option Dir → List Val → List Char → Out (List Char)
  | [], none, _, buf => .ok buf
  -- the end of the format is taken for an unknown directive, and skipped
  | [], some _, _, _ => .ub
  | c :: r, none, args, buf => if c = '%' then run r (some .start) args buf else run r none args (app buf [c])
  | c :: r, some d, args, buf =>
    match digit? c with
    | some k =>
      if inInt (10 * d.size + k) then
        run r (some { d with size := 10 * d.size + k, zfill := d.zfill || (k == 0 && d.size == 0) }) args buf
      else .ub
    | none =>
      if c = '-' then run r (some { d with ljust := true }) args buf
      else if c = '*' then
        match star args with
        | some (n, args) => run r (some { d with size := n }) args buf
        | none => .ub
      else
        match conv c d args buf with
        | .ok (args, buf) => run r none args buf
        | .fail => .fail
        | .ub => .ub

/-- `sprintf`: `Printf` io.c:592-925. -/
def sprintf (fmt : List Char) (args : List Val) : Out (List Char) := run fmt none args []

/-- `Printf_arity` typecheck.c:1222-1250; `none`: the text after the format is read. -/
def arity : List Char → Bool → Option Nat
  | [], false => some 0
  | [], true => none
  | c :: r, false => arity r (c = '%')
  | c :: r, true =>
    if (digit? c).isSome ∨ c = '-' then arity r true
    else if c = '*' then (arity r true).map (· + 1)
    else if c ∈ ['b', 'o', 'x', 'd', 's', 'B', 'S'] then (arity r false).map (· + 1)
    else arity r false

/-- The text that `printf` prints: `Make_Printf_Primitive` graph.c:717-739. -/
def printf (fmt : List Char) (args : List Val) : Out (List Char) :=
  match arity fmt false with
  | none => .ub
  | some 0 => .ok fmt
  | some _ => run fmt none args []

/-- `in_range` io.c:317-333. -/
def inRange (c : Char) (max : Nat) : Bool :=
  let d := (c.toNat : Int) - '0'.toNat
  if max < 10 then 0 ≤ d && d ≤ max
  else
    let a := (c.toNat : Int) - 'a'.toNat
    let A := (c.toNat : Int) - 'A'.toNat
    (0 ≤ d && d ≤ 10) || (0 ≤ a && a ≤ 6) || (0 ≤ A && A ≤ 6)

/-- `while( size > 0 && in_range(*inp, max) )` io.c:421-424. -/
def takeDigits (max : Nat) : Nat → List Char → List Char × List Char
  | n + 1, c :: r =>
    if inRange c max then
      let (ds, r) := takeDigits max n r
      (c :: ds, r)
    else ([], c :: r)
  | _, r => ([], r)

/-- `pat_b`, `pat_o`, `pat_x`, `pat_d` io.c:408-518; `none`: `Arbi_FromString` returns a null pointer, which
becomes the value or is negated. -/
def getInt (base : Nat) (size : Int) (inp : List Char) : Option (Int × List Char) :=
  let size := if size = 0 then inp.length else size.toNat
  let neg := inp.head? = some '-'
  let p := takeDigits (base - 1) size (if neg then inp.tail else inp)
  (readNat base p.1).map fun n => (if neg then -n else n, p.2)

/-- `isspace`. -/
def isSpace (c : Char) : Bool := c ∈ [' ', '\t', '\n', '\x0b', '\x0c', '\r']

/-- `while( size > 0 && !isspace(*inp) )` io.c:524-527; `none`: the loop goes on after the end of the
string. -/
def takeStr : Nat → List Char → Option (List Char × List Char)
  | 0, r => some ([], r)
  | _ + 1, [] => none
  | n + 1, c :: r =>
    if isSpace c then some ([], c :: r)
    else (takeStr n r).map fun p => (c :: p.1, p.2)

/-- A character of the format must be the next one of the input (io.c:395-400, 546-552). -/
def expect (c : Char) : List Char → Option (List Char)
  | i :: inp => if i = c then some inp else none
  | [] => none

/-- What a directive reads: a value, if any, and the rest of the input.  An unknown directive is ignored. -/
def sconv (c : Char) (size : Int) (inp : List Char) : Out (List Val × List Char) :=
  let num (base : Nat) : Out (List Val × List Char) :=
    match getInt base size inp with
    | some (z, inp) => .ok ([.int z], inp)
    | none => .ub
  if c = '%' then
    match expect '%' inp with
    | some inp => .ok ([], inp)
    | none => .fail
  else if c = 'b' then num 2
  else if c = 'o' then num 8
  else if c = 'x' then num 16
  else if c = 'd' then num 10
  else if c = 's' then
    match takeStr (if size = 0 then inp.length else size.toNat) inp with
    | some (s, inp) => .ok ([.str s], inp)
    | none => .ub
  else if c = 'B' ∨ c = 'S' then .fail
  else .ok ([], inp)

/-- `PROCESS_PRINTF_PAT` as used in `Sscanf` io.c:382-553; `none`: outside of a directive. -/
def scan : List Char → Option Int → List Val → List Char → Out (List Val)
  | [], none, _, _ => .ok []
  | [], some _, _, _ => .ub
  | c :: r, none, args, inp =>
    if c = '%' then scan r (some 0) args inp
    else
      match expect c inp with
      | some inp => scan r none args inp
      | none => .fail
  | c :: r, some size, args, inp =>
    match digit? c with
    | some k => if inInt (10 * size + k) then scan r (some (10 * size + k)) args inp else .ub
    | none =>
      if c = '-' then scan r (some size) args inp
      else if c = '*' then
        match star args with
        | some (n, args) => scan r (some n) args inp
        | none => .ub
      else
        match sconv c size inp with
        | .ok (v, inp) =>
          match scan r none args inp with
          | .ok vs => .ok (v ++ vs)
          | e => e
        | .fail => .fail
        | .ub => .ub

/-- `sscanf`: `Sscanf` io.c:336-589 (the values are returned as nested pairs, or `()` when there is none). -/
def sscanf (fmt : List Char) (args : List Val) (inp : List Char) : Out (List Val) :=
  scan fmt none args (inp.take strBlock)

end Voss.Io
