import Verif.Arbi.Model
import Mathlib.Data.Nat.Digits.Defs
/-
Model of src/bin/fl/arb_prec.c: gcd and conversion from and to strings.
-/
namespace Voss.Arbi

/-- Inner loop of `arbi__gcd` on one-word operands (arb_prec.c:852-858), with a step budget. -/
def gcdWord : Nat → W → W → Option (Res (List W))
  | 0, _, _ => none
  | fuel+1, wx, wy =>
    if wy = 0#64 then some (.ok (fromWord wx))
    else match cmod wx wy with
      | .ok wx' =>
        if wx' = 0#64 then some (.ok (fromWord wy))
        else match cmod wy wx' with
          | .ok wy' => gcdWord fuel wx' wy'
          | _ => some .ub
      | _ => some .ub

/-- Outer loop of `arbi__gcd` (arb_prec.c:848-864).  `ay[0]` of a longer `ay` never occurs because
`ay <= ax`; it is modelled as reading the first word, as the C code does. -/
def gcdLoop (mfuel : Nat) : Nat → List W → List W → Option (Res (List W))
  | 0, _, _ => none
  | fuel+1, ax, ay =>
    if cmp0 ay = 0 then some (.ok ax)
    else match ax with
      | [wx] => gcdWord mfuel wx (ay.headD 0#64)
      | _ => match mod mfuel ax ay with
        | none => none
        | some (.ok t) => gcdLoop mfuel fuel ay t
        | some _ => some .ub

/-- arb_prec.c:837-866 `arbi__gcd`. -/
def gcd (fuel : Nat) (x y : List W) : Option (Res (List W)) :=
  let ax := abs x
  let ay := abs y
  if cmp ax ay < 0 then gcdLoop fuel fuel ay ax else gcdLoop fuel fuel ax ay

/-- arb_prec.c:81-85 `c2i_convert`, for 7-bit characters. -/
def c2i (c : Char) : Nat :=
  if '0' ≤ c ∧ c ≤ '9' then c.toNat - '0'.toNat
  else if 'a' ≤ c ∧ c ≤ 'z' then c.toNat - 'a'.toNat + 10
  else if 'A' ≤ c ∧ c ≤ 'Z' then c.toNat - 'A'.toNat + 10
  else 1000

/-- arb_prec.c:79-80 `i2c_convert`. -/
def i2c (d : Nat) : Char := if d < 10 then Char.ofNat ('0'.toNat + d) else Char.ofNat ('a'.toNat + (d - 10))

/-- Loop of `arbi__FromString` (arb_prec.c:898-909).  The table is indexed by
`(unint) (*t)` with `char` signed: characters from 128 on index far outside of it. -/
def fromDigits (base : Nat) : List Char → List W → Res (List W)
  | [], x => .ok x
  | c :: cs, x =>
    if c.toNat ≥ 128 then .ub
    else if c2i c ≥ base then .null
    else match mul x (fromWord (BitVec.ofNat 64 base)) with
      | .ok y => fromDigits base cs (add y (fromWord (BitVec.ofNat 64 (c2i c))))
      | _ => .ub

/-- arb_prec.c:885-912 `arbi__FromString`. -/
def fromString1 (s : List Char) (base : Nat) : Res (List W) :=
  if base < 2 ∨ base > 36 then .null else fromDigits base s (fromWord 0#64)

/-- arb_prec.c:158-166 `Arbi_FromString`; `arbi__neg(NULL)` reads through a null pointer. -/
def fromString (s : List Char) (base : Nat) : Res (List W) :=
  match s with
  | '-' :: cs => match fromString1 cs base with
    | .ok x => .ok (neg x)
    | _ => .ub
  | _ => fromString1 s base

/-- Decimal and hexadecimal printing of a word by `sprintf` (`%ld`, `%lx`): the C library's contract. -/
def fmtNat (base : Nat) (n : Nat) : List Char :=
  if n = 0 then ['0'] else ((Nat.digits base n).map i2c).reverse
def fmtDec (z : Int) : List Char := if z < 0 then '-' :: fmtNat 10 z.natAbs else fmtNat 10 z.natAbs

/-- arb_prec.c:942 `for(lgb4 = 4; b4 >> (lgb4+1); lgb4++)`; `n` bounds the search (b4 < 2^21). -/
def lgLoop (b4 : Nat) : Nat → Nat → Nat
  | 0, l => l
  | n+1, l => if b4 / 2^(l+1) = 0 then l else lgLoop b4 n (l+1)

/-- arb_prec.c:945 `for(m = 0; w >> m; m++)` for a non-negative word. -/
def bitLen (w : Nat) : Nat → Nat → Nat
  | 0, m => m
  | n+1, m => if w / 2^m = 0 then m else bitLen w n (m+1)

/-- arb_prec.c:952-956: the largest power of the base that fits a word; returns the power and its
exponent. -/
def chunkLoop (base : W) : Nat → W → Nat → W × Nat
  | 0, bb, m => (bb, m)
  | n+1, bb, m => if (bb * base).sdiv base = bb then chunkLoop base n (bb * base) (m+1) else (bb, m)

/-- Digit loop for one chunk (arb_prec.c:966-969): at most `m` digits are put in front of `acc`. -/
def emit (base : Nat) (rz : Bool) : Nat → Int → List Char → List Char
  | 0, _, acc => acc
  | m+1, w, acc =>
    if rz || w ≠ 0 then emit base rz m (w.tdiv base) (i2c (w.tmod base).toNat :: acc) else acc

/-- arb_prec.c:960-971: divide by the chunk base until nothing is left. -/
def strLoop (dfuel : Nat) (base : Nat) (b : List W) (m : Nat) : Nat → List W → List Char → Option (Res (List Char))
  | 0, _, _ => none
  | fuel+1, r, acc =>
    if cmp0 r = 0 then some (.ok acc)
    else match divmod dfuel r b with
      | none => none
      | some (.ok (q, w)) =>
        strLoop dfuel base b m fuel q (emit base (cmp0 q ≠ 0) m (w.headD 0#64).toInt acc)
      | some _ => some .ub

/-- arb_prec.c:914-979 `arbi__ToString`.  A most significant word equal to `MinWord` makes the loop of
line 945 run without end (`-w` is again negative, `w >> m` never 0, shifts by 64 and more): `ub`.
Writing in front of the buffer is `ub`. -/
def toString (fuel : Nat) (x : List W) (base : Nat) : Option (Res (List Char)) :=
  if x.length = 1 ∧ base = 10 then some (.ok (fmtDec (top x).toInt))
  else if x.length = 1 ∧ base = 16 then some (.ok (fmtNat 16 (top x).toNat))
  else if x.length = 1 ∧ top x = 0#64 then some (.ok ['0'])
  else if base < 2 ∨ base > 36 then some .null
  else if top x = minWord then some .ub
  else
    let b4 := base * base * base * base
    let lgb4 := lgLoop b4 32 4
    let wbits := bitLen (wabs (top x)).toNat 64 0
    -- the size is computed in `int`
    if 4 * (wbits + 64 * (x.length - 1)) + lgb4 ≥ 2^31 then some .ub else
    let size := (4 * (wbits + 64 * (x.length - 1)) + lgb4 - 1) / lgb4 + 1
    let size := if isNeg (top x) then size + 1 else size
    let (bb, m) := chunkLoop (BitVec.ofNat 64 base) 64 (BitVec.ofNat 64 b4) 4
    match strLoop fuel base (fromWord bb) m fuel (abs x) [] with
    | none => none
    | some (.ok ds) =>
      let s := if isNeg (top x) then '-' :: ds else ds
      if s.length + 1 ≤ size then some (.ok s) else some .ub
    | some _ => some .ub

end Voss.Arbi
