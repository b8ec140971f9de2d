import Verif.Sha.Spec

/-
Model of the hash function of `src/bin/fl/sha256.c`.

Conventions.
* `unsigned long` has 64 bits, `unsigned` 32 bits.  Upper halves of the words are kept as the program keeps them.
* Text is a list of bytes without the terminating zero.
-/
namespace Voss.Sha

abbrev W64 := BitVec 64

/-- `SHA256_rec` (sha256.h) without `in_use`. -/
structure Ctx where
  h : Regs W64
  nl : W64
  nh : W64
  num : Nat
  data : List Byte
deriving DecidableEq

/-- sha256.c:41-55 `K`. -/
def K : List W64 := [
    0x428a2f98, 0x71374491, 0xb5c0fbcf, 0xe9b5dba5, 0x3956c25b,
    0x59f111f1, 0x923f82a4, 0xab1c5ed5, 0xd807aa98, 0x12835b01,
    0x243185be, 0x550c7dc3, 0x72be5d74, 0x80deb1fe, 0x9bdc06a7,
    0xc19bf174, 0xe49b69c1, 0xefbe4786, 0x0fc19dc6, 0x240ca1cc,
    0x2de92c6f, 0x4a7484aa, 0x5cb0a9dc, 0x76f988da, 0x983e5152,
    0xa831c66d, 0xb00327c8, 0xbf597fc7, 0xc6e00bf3, 0xd5a79147,
    0x06ca6351, 0x14292967, 0x27b70a85, 0x2e1b2138, 0x4d2c6dfc,
    0x53380d13, 0x650a7354, 0x766a0abb, 0x81c2c92e, 0x92722c85,
    0xa2bfe8a1, 0xa81a664b, 0xc24b8b70, 0xc76c51a3, 0xd192e819,
    0xd6990624, 0xf40e3585, 0x106aa070, 0x19a4c116, 0x1e376c08,
    0x2748774c, 0x34b0bcb5, 0x391c0cb3, 0x4ed8aa4a, 0x5b9cca4f,
    0x682e6ff3, 0x748f82ee, 0x78a5636f, 0x84c87814, 0x8cc70208,
    0x90befffa, 0xa4506ceb, 0xbef9a3f7, 0xc67178f2]

/-- sha256.c:61-70 `put_bigendian`; the bytes are written from the last one on. -/
def putBig (value : W64) : Nat → List Byte
  | 0 => []
  | n + 1 => putBig (value >>> 8) n ++ [(value &&& 0xff).setWidth 8]

/-- sha256.c:72-82 `get_bigendian`. -/
def getBig (l : List Byte) : W64 := l.foldl (fun r b => 256 * r + (b.setWidth 64 &&& 0xff)) 0

/-- sha256.c:86 `Ch`. -/
def ch (x y z : W64) : W64 := z ^^^ (x &&& (y ^^^ z))

/-- sha256.c:87 `Maj`. -/
def maj (x y z : W64) : W64 := ((x ||| y) &&& z) ||| (x &&& y)

/-- sha256.c:89-97 `Sigma0`. -/
def bigSigma0 (x : W64) : W64 :=
  let mx := x &&& 0xFFFFFFFF
  (((mx >>> 2) ||| (mx <<< 30)) ^^^ ((mx >>> 13) ||| (mx <<< 19)) ^^^ ((mx >>> 22) ||| (mx <<< 10))) &&& 0xFFFFFFFF

/-- sha256.c:99-107 `Sigma1`. -/
def bigSigma1 (x : W64) : W64 :=
  let mx := x &&& 0xFFFFFFFF
  (((mx >>> 6) ||| (mx <<< 26)) ^^^ ((mx >>> 11) ||| (mx <<< 21)) ^^^ ((mx >>> 25) ||| (mx <<< 7))) &&& 0xFFFFFFFF

/-- sha256.c:109-117 `Gamma0`. -/
def gamma0 (x : W64) : W64 :=
  let mx := x &&& 0xFFFFFFFF
  (((mx >>> 7) ||| (mx <<< 25)) ^^^ ((mx >>> 18) ||| (mx <<< 14)) ^^^ (mx >>> 3)) &&& 0xFFFFFFFF

/-- sha256.c:119-127 `Gamma1`. -/
def gamma1 (x : W64) : W64 :=
  let mx := x &&& 0xFFFFFFFF
  (((mx >>> 17) ||| (mx <<< 15)) ^^^ ((mx >>> 19) ||| (mx <<< 13)) ^^^ (mx >>> 10)) &&& 0xFFFFFFFF

/-- sha256.c:151-155: the first sixteen words. -/
def words (data : List Byte) : List W64 := (List.range 16).map fun i => getBig ((data.drop (4 * i)).take 4)

/-- sha256.c:159: the next word. -/
def nextWord (w : List W64) (i : Nat) : W64 :=
  gamma1 (w.getD (i - 2) 0) + w.getD (i - 7) 0 + gamma0 (w.getD (i - 15) 0) + w.getD (i - 16) 0

/-- sha256.c:151-160: the array `W`. -/
def schedule (data : List Byte) : List W64 :=
  (List.range 48).foldl (fun w i => w ++ [nextWord w (16 + i)]) (words data)

/-- sha256.c:163-173: one round with the exchange of the registers after it. -/
def round (s : Regs W64) (k w : W64) : Regs W64 :=
  let t0 := s.h + bigSigma1 s.e + ch s.e s.f s.g + k + w
  let t1 := bigSigma0 s.a + maj s.a s.b s.c
  let d := s.d + t0
  let h := t0 + t1
  ⟨h, s.a, s.b, s.c, d, s.e, s.f, s.g⟩

/-- sha256.c:129-185 `sha256_compress`. -/
def compress (h : Regs W64) (data : List Byte) : Regs W64 :=
  let w := schedule data
  let s := (List.range 64).foldl (fun s i => round s (K.getD i 0) (w.getD i 0)) h
  ⟨h.a + s.a, h.b + s.b, h.c + s.c, h.d + s.d, h.e + s.e, h.f + s.f, h.g + s.g, h.h + s.h⟩

/-- sha256.c:187-201 `SHA256_init`, with whatever is in the buffer. -/
def init (data : List Byte) : Ctx :=
  ⟨⟨0x6A09E667, 0xBB67AE85, 0x3C6EF372, 0xA54FF53A, 0x510E527F, 0x9B05688C, 0x1F83D9AB, 0x5BE0CD19⟩, 0, 0, 0, data⟩

/-- sha256.c:212-227: the loop of `SHA256_update`.  The number bounds the rounds (the length suffices). -/
def feed : Nat → Ctx → List Byte → Ctx
  | 0, c, _ => c
  | n + 1, c, src =>
    if src.length = 0 then c else
    let step := min (64 - c.num) src.length
    let data := c.data.take c.num ++ src.take step ++ c.data.drop (c.num + step)
    if step + c.num < 64 then { c with num := c.num + step, data := data }
    else feed n { c with h := compress c.h data, num := 0, data := data } (src.drop step)

/-- sha256.c:203-228 `SHA256_update`. -/
def update (c : Ctx) (src : List Byte) : Ctx :=
  let count := BitVec.ofNat 32 src.length
  let new : BitVec 32 := ((c.nl + (count <<< 3).setWidth 64) &&& 0xffffffff).setWidth 32
  let nh := if new.setWidth 64 < c.nl then c.nh + 1 else c.nh
  feed src.length { c with nl := new.setWidth 64, nh := nh } src

/-- sha256.c:233-259 `SHA256_final`. -/
def final (c : Ctx) : List Byte :=
  let count := putBig c.nh 4 ++ putBig c.nl 4
  let c := update c [0x80]
  let c := if c.num > 56 then update c (List.replicate 8 0) else c
  let c := { c with data := c.data.take c.num ++ List.replicate (56 - c.num) 0 ++ c.data.drop 56, num := 56 }
  let c := update c count
  putBig c.h.a 4 ++ putBig c.h.b 4 ++ putBig c.h.c 4 ++ putBig c.h.d 4 ++ putBig c.h.e 4 ++ putBig c.h.f 4 ++
    putBig c.h.g 4 ++ putBig c.h.h 4

/-- sha256.c:352-360 `do_printf`: the formatted text is cut off after 4095 characters (`SHA_BUF_SIZE`). -/
def shaPrintf (c : Ctx) (text : List Byte) : Ctx := update c (text.take 4095)

/-- `%x` of a digit. -/
def hexDigit (n : Nat) : Char := if n < 10 then Char.ofNat (48 + n) else Char.ofNat (87 + n)

/-- sha256.c:374-390 `Get_SHA256_hash`. -/
def getHash (c : Ctx) : List Char :=
  (final c).flatMap fun b => [hexDigit (b.toNat / 16), hexDigit (b.toNat % 16)]

/-- The hash of what is printed with several calls of `SHA256_printf`. -/
def hashOf (junk : List Byte) (texts : List (List Byte)) : List Char := getHash (texts.foldl shaPrintf (init junk))

end Voss.Sha
