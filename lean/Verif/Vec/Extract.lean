import Verif.Vec.Merge

/-
Model of the extraction of vectors (voss_strings.c).  The cyclic list is represented from the current vector on.
`qsort` is a parameter: it returns its elements in some order.
-/
namespace Voss.Vec

/-- voss_strings.c:1636-1670 `make_range_canonical`; the number bounds the depth (the length suffices). -/
def canonF : Nat → List Rng → List Rng
  | _, [] => []
  | 0, rs => rs
  | n+1, rp :: next =>
    if next = [] ∧ rp = ⟨-1, 0⟩ then [rp]
    else
      let rp : Rng := if rp.up < rp.lo then ⟨rp.lo, rp.up⟩ else rp
      match canonF n next with
      | [] => [rp]
      | m :: rem =>
        if rp.lo > m.up then rp :: m :: rem
        else if rp.up ≤ m.up then
          if rp.lo ≥ m.lo then m :: rem else canonF n (⟨m.up, rp.lo⟩ :: rem)
        else if m.lo > rp.lo then canonF n (⟨rp.up, rp.lo⟩ :: rem)
        else ⟨rp.up, m.lo⟩ :: rem

def canon (rs : List Rng) : List Rng := canonF rs.length rs

/-- voss_strings.c:1672-1681 `make_vector_ranges_canonical`. -/
def canonVec (v : Vec) : Vec := v.map fun
  | .txt s => .txt s
  | .idx rs => .idx (canon rs)

/-- voss_strings.c:1683-1712 `compress_ranges` after the exchange. -/
def compressStep (go : List Rng → List Rng → List Rng) (a : Rng) (as : List Rng) (b : Rng) (bs : List Rng) :
    List Rng :=
  if a.lo > b.up + 1 then a :: go as (b :: bs)
  else if a.lo ≤ b.lo then go (a :: as) bs
  else match as with
    | [] => go [⟨a.up, b.lo⟩] bs
    | c :: cs => if b.lo = c.up + 1 then go (⟨a.up, c.lo⟩ :: cs) bs else go (⟨a.up, b.lo⟩ :: c :: cs) bs

/-- voss_strings.c:1683-1712 `compress_ranges`; the number bounds the depth. -/
def compressF : Nat → List Rng → List Rng → List Rng
  | _, [], r2 => r2
  | _, r1, [] => r1
  | 0, r1, _ => r1
  | n+1, a :: as, b :: bs =>
    if a.up < b.up then compressStep (compressF n) b bs a as else compressStep (compressF n) a as b bs

def compress (r1 r2 : List Rng) : List Rng := compressF (r1.length + r2.length) r1 r2

/-- voss_strings.c:1871-1916: two vectors with the same signature. -/
def extJoin : Vec → Vec → Join
  | [], _ => .same
  | .txt s :: a, _ :: b => (extJoin a b).cons (.txt s)
  | .idx r :: a, .idx r' :: b =>
    if r = r' then (extJoin a b).cons (.idx r)
    else match sameRest a b with
      | none => .ub
      | some false => .no
      | some true => .join (.idx (compress r r') :: a) true
  | _ :: _, _ => .ub

/-- The loop of `gen_extract_vectors` (voss_strings.c:1861-1920), with the number of rounds without change; the first
argument bounds the rounds.  `none` is undefined behaviour (or too many rounds). -/
def extractLoop : Nat → List Vec → Nat → Option (List Vec)
  | 0, _, _ => none
  | n+1, a :: b :: post, nc =>
    let next (xs : List Vec) (nc : Nat) : Option (List Vec) :=
      if xs.length > 1 ∧ nc ≤ xs.length then extractLoop n xs nc else some xs
    if sig a ≠ sig b ∨ isConst a = true then next (b :: post ++ [a]) (nc + 1)
    else match extJoin a b with
      | .same => next (a :: post) 0
      | .no => next (b :: post ++ [a]) (nc + 1)
      | .join c _ => next (c :: post) 0
      | .ub => none
  | _+1, xs, _ => some xs

/-- voss_strings.c:1834-1919 `gen_extract_vectors`; the rounds suffice. -/
def extractVecs (sort : List Vec → List Vec) (vs : List Vec) : Option (List Vec) :=
  extractLoop ((vs.length + 2) * (vs.length + 2)) (sort vs) 0

/-- voss_strings.c:2072-2090 `extract_vectors_fl`, for `md_extract_vectors`. -/
def mdExtract (sort : List Vec → List Vec) (names : List (List Char)) : Option (List (List Char)) := do
  let vs ← splitAll names
  let out ← extractVecs sort (vs.map canonVec)
  showAll out

end Voss.Vec
