import Verif.Iso.Model

/-
Specification of the search: what an occurrence is, independently of how the program finds it.
-/
namespace Voss.Iso
open Hier

/-- An occurrence, for a relation `like` that says which instances may stand for each other, and the wires of the two
circuits: row `i` of the needle stands for row `f[i]` of the haystack, different ones for different ones, and what has a
wire in the needle has one in the haystack. -/
structure Occurs (R C : Nat) (like p g : Nat → Nat → Prop) (f : List Nat) : Prop where
  length : f.length = R
  inside : ∀ c ∈ f, c < C
  once : f.Nodup
  like : ∀ i c, f[i]? = some c → like i c
  wires : ∀ i j c d, f[i]? = some c → f[j]? = some d → p i j → g c d

/-- The answers to the calls number 0, 1, 2, ...: the occurrences one after the other, then the empty list, and from the
start again. -/
def answer (l : List (List Nat)) (k : Nat) : List (Nat × Nat) :=
  match l[k % (l.length + 1)]? with
  | some f => f.zipIdx.map fun e => (e.2, e.1)
  | none => []

/-- Instance number 0 is the circuit itself, the instances inside follow. -/
def inst (p : Pex) : Nat → Option Pex
  | 0 => some p
  | i + 1 => p.kids.bind fun ks => ks[i]?

/-- The value of an attribute; of several ones the last. -/
def attr (p : Pex) (k : String) : Option Name := (p.attrs.reverse.find? fun a => a.1 == k.toList).map Prod.snd

/-- An instance has the fingerprint `n`, a number other than 0. -/
def HasFp (p : Pex) (n : Int) : Prop := ∃ v, attr p "FP" = some v ∧ atoi v = some n ∧ n ≠ 0

/-- All that the search needs of an instance: both signatures, and all fingerprints are numbers in the range of `int`. -/
structure Signed (p : Pex) : Prop where
  fp : ∃ n, HasFp p n
  sha : ∃ v, attr p "SHA" = some v
  range : ∀ a ∈ p.attrs, a.1 = "FP".toList → (atoi a.2).isSome

/-- Two instances may stand for each other: they have the same fingerprint or the same signature. -/
def Alike (p g : Pex) : Prop :=
  (∃ n, HasFp p n ∧ HasFp g n) ∨ ∃ v, attr p "SHA" = some v ∧ attr g "SHA" = some v

/-- Two different instances are adjacent, in one direction or the other (C77 says when). -/
def Joined (p : Pex) (i j : Nat) : Prop := i ≠ j ∧ ∃ es, adjacencies p = some es ∧ ((i, j) ∈ es ∨ (j, i) ∈ es)

end Voss.Iso
