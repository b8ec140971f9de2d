/-
Model of src/bin/fl/arb_prec.c and arb_prec.h: arbitrary precision integers.

An `arbi_T` is an array of 64-bit words, least significant first (arb_prec.h:91-104); here a
`List W`.  `Length(x)` is `x.length`.  Signed 64-bit operations wrap (the file is compiled without
optimisation, bin/fl/Makefile:61, and relies on wrapping); the traps of integer division are
represented (`Res.ub`).  Not modelled: the allocator, the 16-bit limit of `Length_T` (stated as a
hypothesis where it matters), and `arbi__errmsg`.
-/
namespace Voss.Arbi

/-- arb_prec.h:75 `typedef long int Word`. -/
abbrev W := BitVec 64

/-- arb_prec.h:82 `MinWord`. -/
def minWord : W := BitVec.ofNat 64 (2^63)
/-- arb_prec.h:83 `MaxWord`. -/
def maxWord : W := ~~~ minWord

/-- Outcome of an arithmetic routine: a number, a NULL pointer (reported error), or undefined
behaviour (trap, out-of-bounds access, shift by an illegal amount). -/
inductive Res (α : Type) where
  | ok (a : α)
  | null
  | ub
  deriving DecidableEq, Repr

/-- Continue with a non-NULL result.  A NULL passed on to another routine is dereferenced there. -/
def Res.bind {α β : Type} : Res α → (α → Res β) → Res β
  | .ok a, f => f a
  | .null, _ => .ub
  | .ub, _ => .ub

/-- C `w < 0`. -/
abbrev isNeg (w : W) : Bool := w.msb

/-- `(w < 0) ? -1 : 0`. -/
def signExt (w : W) : W := if isNeg w then -1#64 else 0#64

/-- Most significant word; `x[Length(x)-1]`. Lists are never empty in the C code. -/
def top (x : List W) : W := x.getLastD 0#64

/-- arb_prec.c:302-313 `cmp0`. -/
def cmp0 (x : List W) : Int :=
  if top x = 0#64 ∧ x.length = 1 then 0 else if isNeg (top x) then -1 else 1

/-- arb_prec.c:321: digit `hi` above `lo` carries no information. -/
def redundant (lo hi : W) : Bool := if isNeg lo then hi == -1#64 else hi == 0#64

/-- The loop of `trim`, on the digits most significant first (arb_prec.c:320-322). -/
def trimRev : List W → List W
  | hi :: lo :: rest => if redundant lo hi then trimRev (lo :: rest) else hi :: lo :: rest
  | l => l

/-- arb_prec.c:315-324 `trim`. -/
def trim (x : List W) : List W := (trimRev x.reverse).reverse

/-- arb_prec.c:874-883 `arbi__FromInt`. -/
def fromWord (w : W) : List W := [w]

/-- Carry out of one digit addition (arb_prec.c:358, 366). -/
def carryOut (wx wy wz : W) : W :=
  if (isNeg wx && isNeg wy) || ((isNeg wx || isNeg wy) && !isNeg wz) then 1#64 else 0#64

/-- Next digit of `y`, or its sign digit once it is used up (arb_prec.c:355, 362). -/
def nextDigit (ys : List W) (wy : W) : W := match ys with | b :: _ => b | [] => signExt wy

/-- The two loops of `arbi__add` and the overflow test after them (arb_prec.c:353-375); `y` is not
longer than `x`; `wy` is the last digit of `y` seen.  When `y` is used up its sign is used
(arb_prec.c:362).  Result: the `lx` digits of the sum and the extra digit on overflow. -/
def addLoop : List W → List W → W → W → List W × Option W
  | [], _, _, _ => ([], none)
  | a :: xs, ys, wy, c =>
    let b := nextDigit ys wy
    let s := a + b + c
    match xs with
    | [] => if isNeg a == isNeg b && isNeg s != isNeg a
            then ([s], some (if isNeg s then 0#64 else -1#64)) else ([s], none)
    | _ :: _ => let r := addLoop xs ys.tail b (carryOut a b s)
                (s :: r.1, r.2)

/-- arb_prec.c:348-376: the general path of `arbi__add`. -/
def addSlow (x y : List W) : List W :=
  let (x, y) := if x.length < y.length then (y, x) else (x, y)
  match addLoop x y 0#64 0#64 with
  | (z, some d) => z ++ [d]
  | (z, none) => trim z

/-- arb_prec.c:331-377 `arbi__add`. -/
def add (x y : List W) : List W :=
  match x, y with
  | [wx], [wy] =>
    let wz := wx + wy
    if isNeg wx != isNeg wy || isNeg wz == isNeg wx then fromWord wz else addSlow x y
  | _, _ => addSlow x y

/-- arb_prec.c:462-470: invert and add one. -/
def negSlow (x : List W) : List W :=
  add (x.map (~~~ ·) ++ [if isNeg (top x) then 0#64 else -1#64]) (fromWord 1#64)

/-- arb_prec.c:446-471 `arbi__neg`. -/
def neg (x : List W) : List W :=
  match x with
  | [wx] => if isNeg wx != isNeg (-wx) then fromWord (-wx) else negSlow x
  | _ => negSlow x

/-- arb_prec.c:473-479 `arbi__abs`. -/
def abs (x : List W) : List W := if isNeg (top x) then neg x else x

/-- arb_prec.c:481-497 `arbi__sub`. -/
def sub (x y : List W) : List W :=
  match x, y with
  | [wx], [wy] =>
    let wz := wx - wy
    if isNeg wx == isNeg wy || isNeg wx == isNeg wz then fromWord wz else add x (neg y)
  | _, _ => add x (neg y)

/-- Digit comparison from the most significant digit down, unsigned (arb_prec.c:103-107).
Digits most significant first. -/
def cmpDigits : List W → List W → Int
  | a :: as, b :: bs => if a.toNat < b.toNat then -1 else if a.toNat > b.toNat then 1 else cmpDigits as bs
  | _, _ => 0

/-- arb_prec.c:88-108 `Arbi_cmp`; -1 less, 0 equal, 1 greater. -/
def cmp (x y : List W) : Int :=
  if x.length > y.length then (if isNeg (top x) then -1 else 1)
  else if x.length < y.length then (if isNeg (top y) then 1 else -1)
  else if (top x).toInt < (top y).toInt then -1
  else if (top x).toInt > (top y).toInt then 1
  else cmpDigits x.reverse.tail y.reverse.tail

/-- arb_prec.c:561-571 `cmpa`. -/
def cmpa (x y : List W) : Int := cmp (abs x) (abs y)

/-- Bit operation of `arbi__bvop` over the digits, `y` sign extended (arb_prec.c:421-425). -/
def bvLoop (op : W → W → W) (sign : W) : List W → List W → List W
  | [], _ => []
  | a :: xs, b :: ys => op a b :: bvLoop op sign xs ys
  | a :: xs, [] => op a sign :: bvLoop op sign xs []

/-- arb_prec.c:404-429 `arbi__bvop`. -/
def bvop (op : W → W → W) (x y : List W) : List W :=
  match x, y with
  | [a], [b] => fromWord (op a b)
  | _, _ =>
    let (x, y) := if x.length < y.length then (y, x) else (x, y)
    trim (bvLoop op (signExt (top y)) x y)

/-- arb_prec.c:243-265 `Arbi_bvAND/OR/XOR/NOT`. -/
def bvAnd := bvop (· &&& ·)
def bvOr := bvop (· ||| ·)
def bvXor := bvop (· ^^^ ·)
def bvNot (x : List W) := bvop (fun a _ => ~~~ a) x x

/-! ### Multiplication -/

/-- C signed division: traps on zero divisor and on `MinWord / -1`. -/
def cdiv (a b : W) : Res W :=
  if b = 0#64 then .ub else if a = minWord ∧ b = -1#64 then .ub else .ok (a.sdiv b)

/-- C signed remainder, same traps. -/
def cmod (a b : W) : Res W :=
  if b = 0#64 then .ub else if a = minWord ∧ b = -1#64 then .ub else .ok (a.srem b)

/-- Unsigned 64-bit addition, arb_prec.h:109-111. -/
def u64 (n : Nat) : Nat := n % 2^64

/-- The four accumulators of the column loop (arb_prec.c:509). -/
structure Acc4 where
  p0 : Nat
  p1 : Nat
  p2 : Nat
  p3 : Nat
  deriving DecidableEq, Repr

/-- One inner iteration: the product of two digits by halves (arb_prec.c:537-543 with
`Split`, `Acc` of arb_prec.h:106-110). -/
def mulStep (xx yy : Nat) (a : Acc4) : Acc4 :=
  let xl := xx % 2^32; let xh := xx / 2^32
  let yl := yy % 2^32; let yh := yy / 2^32
  let pp := xl * yl
  let a := { a with p0 := u64 (a.p0 + pp % 2^32), p1 := u64 (a.p1 + pp / 2^32) }
  let pp := xl * yh
  let a := { a with p1 := u64 (a.p1 + pp % 2^32), p2 := u64 (a.p2 + pp / 2^32) }
  let pp := xh * yl
  let a := { a with p1 := u64 (a.p1 + pp % 2^32), p2 := u64 (a.p2 + pp / 2^32) }
  let pp := xh * yh
  { a with p2 := u64 (a.p2 + pp % 2^32), p3 := u64 (a.p3 + pp / 2^32) }

/-- Inner loop over `j` for column `i` (arb_prec.c:533-544): `n` iterations starting at `j`.
`ax[j]`, `ay[i-j]` outside the arrays is undefined behaviour (`none`). -/
def mulCol (ax ay : List W) (i : Nat) : Nat → Nat → Acc4 → Option Acc4
  | 0, _, a => some a
  | n+1, j, a =>
    match ax[j]?, ay[i-j]? with
    | some xx, some yy => mulCol ax ay i n (j+1) (mulStep xx.toNat yy.toNat a)
    | _, _ => none

/-- Outer loop over columns (arb_prec.c:527-548): `n` columns starting at column `i`. -/
def mulLoop (ax ay : List W) (lx ly : Nat) : Nat → Nat → Nat → Nat → Option (List W)
  | 0, _, _, _ => some []
  | n+1, i, p0, p1 =>
    let jmax := if i < lx then i else lx-1
    let kmax := if i < ly then i else ly-1
    -- for(j = i-kmax; j <= jmax; j++): jmax+1-(i-kmax) iterations
    match mulCol ax ay i (jmax + 1 - (i - kmax)) (i - kmax) ⟨p0, p1, 0, 0⟩ with
    | none => none
    | some a =>
      let p1 := u64 (a.p1 + a.p0 / 2^32)          -- Carry(p0, p1)
      let p2 := u64 (a.p2 + p1 / 2^32)            -- Carry(p1, p2)
      let d : W := BitVec.ofNat 64 (a.p0 % 2^32) ||| (BitVec.ofNat 64 p1 <<< 32)  -- Merge
      match mulLoop ax ay lx ly n (i+1) p2 a.p3 with
      | none => none
      | some ds => some (d :: ds)

/-- arb_prec.c:524-557: the general path of `arbi__mlt`. -/
def mulSlow (x y : List W) : Res (List W) :=
  let ax := if cmp0 x < 0 then neg x else x
  let ay := if cmp0 y < 0 then neg y else y
  match mulLoop ax ay x.length y.length (x.length + y.length) 0 0 0 with
  | none => .ub
  | some ap =>
    let p := if (cmp0 x < 0) ≠ (cmp0 y < 0) then neg ap else ap
    .ok (trim p)

/-- arb_prec.c:505-558 `arbi__mlt`. -/
def mul (x y : List W) : Res (List W) :=
  match x, y with
  | [wx], [wy] =>
    if wx = 0#64 then .ok (fromWord 0#64)
    else if wy = 0#64 then .ok (fromWord 0#64)
    else
      let wp := wx * wy
      (cdiv wp wx).bind fun q1 =>
        if wy = q1 then
          (cdiv wp wy).bind fun q2 =>
            if wx = q2 then .ok (fromWord wp) else mulSlow x y
        else mulSlow x y
  | _, _ => mulSlow x y

/-! ### Division -/

/-- The normalising loops arb_prec.c:656 and 714: the least `k ≥ 1` with
`(w<0) != ((w<<k)<0)`.  The loops start at `ys+2 = 1`, `rs+3 = 1`. `n` bounds the search. -/
def signShift (w : W) : Nat → Nat → Nat
  | 0, k => k
  | n+1, k => if isNeg w == isNeg (w <<< k) then signShift w n (k+1) else k

/-- The scaled leading bits of a number and the scale: `c = 2` is arb_prec.c:648-661 (for the divisor),
`c = 3` is arb_prec.c:706-719 (for the remainder); the two pieces of C text differ only in this
constant.  `yy` is the most significant digit, `lo` the second one, absent when there is just one
digit (then reading it is undefined). -/
def scale (c : Nat) (yy : W) (lo : Option W) : Res (W × Int) :=
  if yy = 0#64 then
    match lo with | some l => .ok (l >>> c, 64 - c) | none => .ub
  else if yy = -1#64 then
    match lo with | some l => .ok (((l.sshiftRight 1) ||| minWord).sshiftRight 2, 61) | none => .ub
  else
    let ys : Int := (signShift yy 64 1 : Int) - c
    if ys < 0 then .ok (yy.sshiftRight (-ys).toNat, ys)
    else match lo with
      | none => .ok (yy <<< ys.toNat, ys)
      | some l => if ys = 0 then .ok (yy <<< ys.toNat, ys)
                  else .ok ((yy <<< ys.toNat) ||| (l >>> (64 - ys).toNat), ys)

/-- `Abs` of arb_prec.h:86. -/
def wabs (w : W) : W := if isNeg w then -w else w

/-- Second most significant digit, if there is one. -/
def top2 (x : List W) : Option W := x.reverse.tail.head?

/-- The guessed refinement of the quotient (arb_prec.c:648-663 and 700-744).  Shifts by 64 or more
are undefined in C. -/
def guess (r y : List W) : Res W :=
  let yy := top y
  let rr := top r
  (scale 2 yy (top2 y)).bind fun (zy, ys) =>
  let yh := zy.sshiftRight 31
  let yl := zy &&& BitVec.ofNat 64 (2^31 - 1)
  (scale 3 rr (top2 r)).bind fun (z, rs) =>
  (cdiv z yh).bind fun gh =>
  (cmod z yh).bind fun zm =>
  (cdiv ((zm <<< 31) - yl * gh) yh).bind fun gl =>
  let gg := gl + (gh <<< 31)
  let gs : Int := 62 - 64 * ((r.length : Int) - y.length) + (rs - ys)
  if gs < 0 then
    if -gs ≥ 64 then .ub else
    let z := gg <<< (-gs).toNat
    -- saturate when the shift lost bits
    if isNeg z != isNeg gg || (wabs z).toInt < (wabs gg).toInt then
      .ok (if isNeg gg then minWord else maxWord)
    else .ok z
  else if gs = 0 then .ok gg
  else if gs ≥ 64 then .ub
  else
    let z := gg.sshiftRight gs.toNat + ((gg.sshiftRight (gs.toNat - 1)) &&& 1#64)
    if z = 0#64 then .ok (if isNeg rr == isNeg yy then 1#64 else -1#64) else .ok z

/-- The loop of `divmod` (arb_prec.c:665-755) with a step budget; running out of budget is `none`.
`x` supplies the digits shifted in. `g` is the guess function. -/
def divLoop (g : List W → List W → Res W) (x y : List W) :
    Nat → Nat → List W → List W → Option (Res (List W × List W))
  | 0, _, _, _ => none
  | fuel+1, j, q, r =>
    if cmpa y r > 0 then
      match j with
      | 0 =>
        if ((cmp0 r < 0) ≠ (cmp0 y < 0)) ∧ cmp0 r ≠ 0 then
          some (.ok (sub q (fromWord 1#64), add r y))
        else some (.ok (q, r))
      | j+1 =>
        divLoop g x y fuel j (trim (0#64 :: q)) (trim (x.getD j 0#64 :: r))
    else
      match g r y with
      | .ok z =>
        match mul (fromWord z) y with
        | .ok t => divLoop g x y fuel j (add q (fromWord z)) (sub r t)
        | .null => some .ub
        | .ub => some .ub
      | .null => some .ub
      | .ub => some .ub

/-- arb_prec.c:612-756 `divmod`. -/
def divmodG (g : List W → List W → Res W) (fuel : Nat) (x y : List W) :
    Option (Res (List W × List W)) :=
  if x.length < y.length then
    if (cmp0 x < 0 ↔ cmp0 y < 0) ∨ cmp0 x = 0 then some (.ok (fromWord 0#64, x))
    else some (.ok (fromWord (-1#64), add x y))
  else
    let j := x.length - y.length
    divLoop g x y fuel j (fromWord 0#64) (x.drop j)

def divmod (fuel : Nat) (x y : List W) := divmodG guess fuel x y

/-- Signed C division and remainder of words known not to trap. -/
def wdiv (a b : W) : W := a.sdiv b
def wmod (a b : W) : W := a.srem b

/-- One-word fast path of `arbi__div` (arb_prec.c:775-798), `wy` not 0, 1, -1. -/
def divFast (wx wy : W) : W :=
  if !isNeg wx && !isNeg wy then wdiv wx wy
  else if isNeg wx && !isNeg wy then
    (if wmod (-wx) wy = 0#64 then -(wdiv (-wx) wy) else -(wdiv (-wx) wy) - 1#64)
  else if !isNeg wx && isNeg wy then
    (if wmod wx (-wy) = 0#64 then -(wdiv wx (-wy)) else -(wdiv wx (-wy)) - 1#64)
  else wdiv (-wx) (-wy)

/-- One-word fast path of `arbi__mod` (arb_prec.c:821-830). -/
def modFast (wx wy : W) : W :=
  if !isNeg wx && !isNeg wy then wmod wx wy
  else if wmod wx wy = 0#64 then 0#64
  else if isNeg wx && !isNeg wy then wy - wmod (-wx) wy
  else if !isNeg wx && isNeg wy then wy + wmod wx (-wy)
  else -(wmod (-wx) (-wy))

/-- arb_prec.c:758-803 `arbi__div`. -/
def div (fuel : Nat) (x y : List W) : Option (Res (List W)) :=
  let slow : Option (Res (List W)) := (divmod fuel x y).map fun r => r.bind fun (q, _) => .ok q
  match y with
  | [wy] =>
    if wy = 0#64 then some .null
    else if wy = 1#64 then some (.ok x)
    else if wy = -1#64 then some (.ok (neg x))
    else match x with
      | [wx] => if wx ≠ minWord ∧ wy ≠ minWord then some (.ok (fromWord (divFast wx wy))) else slow
      | _ => slow
  | _ => slow

/-- arb_prec.c:805-835 `arbi__mod`. -/
def mod (fuel : Nat) (x y : List W) : Option (Res (List W)) :=
  let slow : Option (Res (List W)) := (divmod fuel x y).map fun r => r.bind fun (_, m) => .ok m
  match y with
  | [wy] =>
    if wy = 0#64 then some (.ok x)
    else if wy = 1#64 ∨ wy = -1#64 then some (.ok (fromWord 0#64))
    else match x with
      | [wx] => if wx ≠ minWord ∧ wy ≠ minWord then some (.ok (fromWord (modFast wx wy))) else slow
      | _ => slow
  | _ => slow

end Voss.Arbi
