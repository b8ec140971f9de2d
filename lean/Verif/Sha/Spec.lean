/-
Specification: the Secure Hash Standard, FIPS 180-4, for SHA-256.
-/
namespace Voss.Sha

abbrev Byte := BitVec 8
abbrev W32 := BitVec 32

/-- The eight working variables or hash values. -/
structure Regs (α : Type) where
  a : α
  b : α
  c : α
  d : α
  e : α
  f : α
  g : α
  h : α
deriving DecidableEq

namespace Fips

/-- 3.2: rotation to the right by `n`. -/
def rotr (n : Nat) (x : W32) : W32 := x >>> n ||| x <<< (32 - n)

/-! 4.1.2: the functions. -/
def ch (x y z : W32) : W32 := (x &&& y) ^^^ (~~~ x &&& z)
def maj (x y z : W32) : W32 := (x &&& y) ^^^ (x &&& z) ^^^ (y &&& z)
def bigSigma0 (x : W32) : W32 := rotr 2 x ^^^ rotr 13 x ^^^ rotr 22 x
def bigSigma1 (x : W32) : W32 := rotr 6 x ^^^ rotr 11 x ^^^ rotr 25 x
def sigma0 (x : W32) : W32 := rotr 7 x ^^^ rotr 18 x ^^^ x >>> 3
def sigma1 (x : W32) : W32 := rotr 17 x ^^^ rotr 19 x ^^^ x >>> 10

/-- The first sixty-four primes. -/
def primes : List Nat := [2, 3, 5, 7, 11, 13, 17, 19, 23, 29, 31, 37, 41, 43, 47, 53, 59, 61, 67, 71, 73, 79, 83, 89, 97,
  101, 103, 107, 109, 113, 127, 131, 137, 139, 149, 151, 157, 163, 167, 173, 179, 181, 191, 193, 197, 199, 211, 223, 227,
  229, 233, 239, 241, 251, 257, 263, 269, 271, 277, 281, 283, 293, 307, 311]

/-- `w` is the first 32 bits of the fractional part of the cube root of `p`. -/
def CubeRootBits (p : Nat) (w : W32) : Prop :=
  ∃ n : Nat, n ^ 3 ≤ p * 2 ^ 96 ∧ p * 2 ^ 96 < (n + 1) ^ 3 ∧ w.toNat = n % 2 ^ 32

/-- `w` is the first 32 bits of the fractional part of the square root of `p`. -/
def SquareRootBits (p : Nat) (w : W32) : Prop :=
  ∃ n : Nat, n ^ 2 ≤ p * 2 ^ 64 ∧ p * 2 ^ 64 < (n + 1) ^ 2 ∧ w.toNat = n % 2 ^ 32

/-- 5.1.1: the message, a bit 1, bits 0, and the length in bits as a number of 64 bits, to a multiple of 512 bits.
Messages here are whole bytes. -/
def pad (m : List Byte) : List Byte :=
  m ++ [0x80] ++ List.replicate ((119 - m.length % 64) % 64) 0 ++
    (List.range 8).map fun j => BitVec.ofNat 8 (8 * m.length / 256 ^ (7 - j))

/-- 5.2.1: the blocks of 64 bytes. -/
def blocks (m : List Byte) : List (List Byte) :=
  (List.range (m.length / 64)).map fun i => (m.drop (64 * i)).take 64

/-- The words of a block. -/
def word (b : List Byte) (i : Nat) : W32 :=
  BitVec.ofNat 32 ((((b.getD (4 * i) 0).toNat * 256 + (b.getD (4 * i + 1) 0).toNat) * 256 +
    (b.getD (4 * i + 2) 0).toNat) * 256 + (b.getD (4 * i + 3) 0).toNat)

/-- 6.2.2 step 1: the message schedule. -/
def sched (b : List Byte) (t : Nat) : W32 :=
  if t < 16 then word b t
  else sigma1 (sched b (t - 2)) + sched b (t - 7) + sigma0 (sched b (t - 15)) + sched b (t - 16)
termination_by t

/-- 6.2.2 step 3: one round with the constant `k` and the word `w`. -/
def round (r : Regs W32) (k w : W32) : Regs W32 :=
  let t1 := r.h + bigSigma1 r.e + ch r.e r.f r.g + k + w
  let t2 := bigSigma0 r.a + maj r.a r.b r.c
  ⟨t1 + t2, r.a, r.b, r.c, r.d + t1, r.e, r.f, r.g⟩

/-- 6.2.2: one block, with the constants `k`. -/
def compress (k : List W32) (h : Regs W32) (b : List Byte) : Regs W32 :=
  let r := (List.range 64).foldl (fun r t => round r (k.getD t 0) (sched b t)) h
  ⟨r.a + h.a, r.b + h.b, r.c + h.c, r.d + h.d, r.e + h.e, r.f + h.f, r.g + h.g, r.h + h.h⟩

/-- The bytes of a word. -/
def bytes (w : W32) : List Byte :=
  [BitVec.ofNat 8 (w.toNat / 2 ^ 24), BitVec.ofNat 8 (w.toNat / 2 ^ 16), BitVec.ofNat 8 (w.toNat / 2 ^ 8),
    BitVec.ofNat 8 w.toNat]

/-- SHA-256 with the constants `k` and the initial hash values `h0`. -/
def sha256 (k : List W32) (h0 : Regs W32) (m : List Byte) : List Byte :=
  let r := (blocks (pad m)).foldl (compress k) h0
  bytes r.a ++ bytes r.b ++ bytes r.c ++ bytes r.d ++ bytes r.e ++ bytes r.f ++ bytes r.g ++ bytes r.h

/-- 4.2.2: the constants are the cube roots of the first sixty-four primes; 5.3.3: the initial hash values are the square
roots of the first eight. -/
structure Constants (k : List W32) (h0 : Regs W32) : Prop where
  length : k.length = 64
  cube : ∀ i < 64, CubeRootBits (primes.getD i 0) (k.getD i 0)
  a : SquareRootBits 2 h0.a
  b : SquareRootBits 3 h0.b
  c : SquareRootBits 5 h0.c
  d : SquareRootBits 7 h0.d
  e : SquareRootBits 11 h0.e
  f : SquareRootBits 13 h0.f
  g : SquareRootBits 17 h0.g
  h : SquareRootBits 19 h0.h

/-- A byte as two hexadecimal digits. -/
def hex (b : Byte) : List Char := [Nat.digitChar (b.toNat / 16), Nat.digitChar (b.toNat % 16)]

end Fips
end Voss.Sha
