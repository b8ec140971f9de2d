import Verif.Io.Fmt
import Verif.Pre.Pow
import Mathlib.Data.Int.Bitwise
/-
Model of functions on integers of src/bin/fl/preamble.fl: 609-655 (`log2`, `ipow`, `bvpow`, `bl2int`, `int2bl`),
1027-1045 (`random`), 1226-1305 (sets of integers), 1307-1341 (`primes`, `factor`), 2535-2571 (`sbits_needed`,
`ubits_needed`, `nearest_power_of_2`), 2747-2763 (`factorial`, `choose`).

`/` and `%` of fl round down (C03), as do those of `Int` for a positive divisor.  A failure is `none`.  Recursive
functions get a bound for the depth of the calls that is large enough; without it the result would be `none`.
-/
namespace Voss.Pre

/-- preamble.fl:614, `log`. -/
def logGo : Nat → Int → Option Int
  | 0, _ => none
  | k + 1, n => if n = 1 then some 0 else (logGo k (n / 2)).map (1 + ·)

/-- preamble.fl:610-616 `log2`. -/
def log2 (n : Int) : Option Int := if n ≤ 0 then none else logGo n.toNat n

/-- preamble.fl:622, `pow`. -/
def powGo (base : Int) : Nat → Int
  | 0 => 1
  | n + 1 => base * powGo base n

/-- preamble.fl:627-630, `square`. -/
def square : Int → List Char → Int
  | _, [] => 1
  | cur, d :: ds => (if d = '1' then cur else 1) * square (cur * cur) ds

/-- preamble.fl:618-632 `ipow`. -/
def ipow (base n : Int) : Option Int :=
  if n < 0 then none
  else if n = 0 then some 1
  else if n ≤ 10 then some (powGo base n.toNat)
  else match Io.sprintf "%b".toList [.int n] with
    | .ok digits => some (square base digits.reverse)
    | _ => none

/-- preamble.fl:634-637 `bvpow`, the power of bit-vectors with `**`. -/
def bvpow {o : Order} : Nat → Fn o → List (Fn o) → List (Fn o) → Out (List (Fn o))
  | 0, _, _, _ => .more
  | k + 1, p, base, n =>
    (Out.ofOption (Bv.bvEq n [Fn.ff o])).bind fun c =>
      branch p c (fun _ => .ok [Fn.ff o, Fn.tt o])
        (fun p => (Out.ofOption (Bv.bvSub n [Fn.ff o, Fn.tt o])).bind fun m =>
          (bvpow k p base m).bind fun r => Out.ofOption (Bv.bvMul base r)) mergeBv

/-- preamble.fl:644-647 `bl2int`, for a list of constants; `bv2num` is the number of the binary digits. -/
def bl2int (bv : List Bool) : Option Int :=
  match bv with
  | [] => none
  | b :: _ => some (if b then -1 * (2 ^ bv.length - (Bv.uv bv : Int)) else (Bv.uv bv : Int))

/-- preamble.fl:652, `map (\e. e = "1") es`. -/
def ones : Io.Out (List Char) → Option (List Bool)
  | .ok es => some (es.map fun e => decide (e = '1'))
  | _ => none

/-- preamble.fl:650-653 `int2bl`. -/
def int2bl (bits i : Int) : Option (List Bool) := ones (Io.sprintf "%0*b".toList [.int bits, .int i])

/-- preamble.fl:2537-2546 `sbits_needed`. -/
def sbitsNeeded (n : Int) : Option Int :=
  if n = 0 then some 1
  else if 0 < n then (log2 n).map fun r => if 2 ^ r.toNat ≤ n then r + 2 else r + 1
  else
    let n := -1 * n
    (log2 n).map fun r => if 2 ^ r.toNat < n then r + 2 else r + 1

/-- preamble.fl:2550-2555 `ubits_needed`. -/
def ubitsNeeded (n : Int) : Option Int :=
  if n < 0 then none
  else if n = 0 then some 1
  else (log2 n).map fun r => if 2 ^ r.toNat ≤ n then r + 1 else r

/-- preamble.fl:2568-2571 `nearest_power_of_2`. -/
def nearestPower (n : Int) : Option Int :=
  (log2 n).map fun l => if 2 ^ l.toNat = n then n else 2 ^ (l + 1).toNat

/-- preamble.fl:1040-1043 `find_random`; `draw` are the results of `random2`, one after the other. -/
def findRandom (imax nmax : Int) (draw : Nat → Int) : Nat → Nat → Option Int
  | 0, _ => none
  | k + 1, pos =>
    if draw pos < nmax / imax * imax then some (draw pos % imax) else findRandom imax nmax draw k (pos + 1)

/-- preamble.fl:1029-1045 `random`; `draw` are the results of `random2` with a number of bits; the bound is for
the number of draws. -/
def random (draw : Int → Nat → Int) (k : Nat) (min max : Int) : Option Int :=
  if min = max then some min
  else if min > max then none
  else
    let imax := max - min + 1
    (log2 imax).bind fun l =>
      if 2 ^ l.toNat = imax then some (min + draw l 0)
      else
        (log2 (10000 * imax)).bind fun m => (findRandom imax (2 ^ m.toNat) (draw m) k 0).map (min + ·)

/-- preamble.fl:1233-1239 `set2iset`. -/
def set2iset : List Int → Option Int
  | [] => some 0
  | e :: set => (set2iset set).bind fun i => if e ≤ 0 then none else some (Int.lor (2 ^ (e - 1).toNat) i)

/-- preamble.fl:1245-1253 `try` in `iset2set`. -/
def isetGo : Nat → Int → Int → Option (List Int)
  | 0, _, _ => none
  | k + 1, ci, pow =>
    if ci = 0 then some []
    else if Int.land ci 4294967295 = 0 then isetGo k (ci / 4294967296) (pow + 32)
    else if Int.land ci 65535 = 0 then isetGo k (ci / 65536) (pow + 16)
    else if Int.land ci 255 = 0 then isetGo k (ci / 256) (pow + 8)
    else if Int.land ci 15 = 0 then isetGo k (ci / 16) (pow + 4)
    else if Int.land ci 1 = 0 then isetGo k (ci / 2) (pow + 1)
    else (isetGo k (ci / 2) (pow + 1)).map (pow :: ·)

/-- preamble.fl:1242-1256 `iset2set`. -/
def iset2set (i : Int) : Option (List Int) := if i = 0 then some [] else isetGo (i.toNat + 1) i 1

/-- preamble.fl:1260-1264 `imem`. -/
def imem (i e : Int) : Option Bool :=
  if e ≤ 0 then none else some (decide (Int.land i (2 ^ (e - 1).toNat) ≠ 0))

/-- preamble.fl:1267-1271 `iunion`. -/
def iunion (i j : Int) : Int := Int.lor i j
/-- preamble.fl:1275-1279 `iintersect`. -/
def iintersect (i j : Int) : Int := Int.land i j
/-- preamble.fl:1283-1287 `isubtract`. -/
def isubtract (i j : Int) : Int := Int.land i (Int.lnot j)

/-- preamble.fl:1294-1303 `try` in `ipop_cnt`. -/
def popGo : Nat → Int → Option Int
  | 0, _ => none
  | k + 1, ci =>
    if ci = 0 then some 0
    else if Int.land ci 4294967295 = 0 then popGo k (ci / 4294967296)
    else if Int.land ci 65535 = 0 then popGo k (ci / 65536)
    else if Int.land ci 255 = 0 then popGo k (ci / 256)
    else if Int.land ci 15 = 0 then popGo k (ci / 16)
    else if Int.land ci 1 = 0 then popGo k (ci / 2)
    else (popGo k (ci / 2)).map (1 + ·)

/-- preamble.fl:1291-1305 `ipop_cnt`. -/
def ipopCnt (i : Int) : Option Int := if i = 0 then some 0 else popGo (i.toNat + 1) i

/-- preamble.fl:1314-1326 `primes`: the numbers from `j` on pass through the filters `fs` of the numbers kept so
far.  Only the first `k` numbers are looked at. -/
def sieve : Nat → List Nat → Nat → List Nat
  | 0, _, _ => []
  | k + 1, fs, j =>
    if fs.all (fun i => decide (j % i ≠ 0)) then j :: sieve k (fs ++ [j]) (j + 1) else sieve k fs (j + 1)

/-- preamble.fl:1332-1336 `factor_rec`. -/
def factorRec (ps : List Nat) : Nat → Nat → Option (List Nat)
  | 0, _ => none
  | k + 1, n =>
    if n = 1 then some []
    else (ps.find? fun p => decide (n % p = 0)).bind fun p => (factorRec ps k (n / p)).map (p :: ·)

/-- preamble.fl:1330-1338 `factor`. -/
def factor (n : Int) : Option (List Nat) :=
  if n ≤ 0 then none else factorRec (sieve n.toNat [] 2) (n.toNat + 1) n.toNat

/-- preamble.fl:2747 `fac`. -/
def fac : Nat → Int
  | 0 => 1
  | n + 1 => if n + 1 ≤ 1 then 1 else (n + 1 : Int) * fac n

/-- preamble.fl:2750-2753 `factorial`. -/
def factorial (n : Int) : Option Int := if n ≤ 0 then none else some (fac n.toNat)

/-- preamble.fl:2757-2762 `choose`. -/
def choose (n k : Int) : Option Int :=
  if n ≤ 0 then none
  else if k ≤ 0 then none
  else if n < k then none
  else some (fac n.toNat / (fac (n - k).toNat * fac k.toNat))

end Voss.Pre
