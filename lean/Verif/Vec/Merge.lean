import Verif.Vec.Model

/-
Model of the merging of vectors (voss_strings.c).  The cyclic list is represented by the vectors before the current
one and the vectors from the current one on.
-/
namespace Voss.Vec

/-- voss_strings.c:225-239 `Get_vector_signature`. -/
def sig : Vec → List Char
  | [] => []
  | .txt s :: v => s ++ sig v
  | .idx _ :: v => '*' :: sig v

/-- voss_strings.c:1827-1832 `is_const`. -/
def isConst : Vec → Bool
  | .txt ('0' :: 'b' :: _) :: _ => true
  | _ => false

/-- voss_strings.c:1975-1988 and 2009-2034: the merged ranges, and if the number of alternatives is counted down. -/
def glue : List Rng → List Rng → List Rng × Bool
  | [], cs => (cs, false)
  | [t], [] => ([t], false)
  | [t], c :: cs =>
    if t.up ≥ t.lo ∧ c.up ≥ c.lo ∧ t.lo - 1 = c.up then (⟨t.up, c.lo⟩ :: cs, true)
    else if t.up ≤ t.lo ∧ c.up ≤ c.lo ∧ t.lo + 1 = c.up then (⟨t.up, c.lo⟩ :: cs, true)
    else (t :: c :: cs, false)
  | t :: t' :: ts, cs => let (g, d) := glue (t' :: ts) cs; (t :: g, d)

/-- The rest of the vectors (voss_strings.c:1992-1998): is it the same?  `none` if a text is taken for ranges or the
shorter vector is left. -/
def sameRest : Vec → Vec → Option Bool
  | [], _ => some true
  | .txt _ :: a, _ :: b => sameRest a b
  | .idx r :: a, .idx r' :: b => if r = r' then sameRest a b else some false
  | _ :: _, _ => none

/-- What comparing two vectors gives. -/
inductive Join where
  | same
  | no
  | join (v : Vec) (dec : Bool)
  | ub

def Join.cons (x : Seg) : Join → Join
  | .same => .same
  | .no => .no
  | .join v d => .join (x :: v) d
  | .ub => .ub

/-- voss_strings.c:1966-2035: two vectors with the same signature. -/
def joinVec : Vec → Vec → Join
  | [], _ => .same
  | .txt s :: a, _ :: b => (joinVec a b).cons (.txt s)
  | .idx r :: a, .idx r' :: b =>
    if r = r' then (joinVec a b).cons (.idx r)
    else match sameRest a b with
      | none => .ub
      | some false => .no
      | some true => .join (.idx (glue r r').1 :: a) (glue r r').2
  | _ :: _, _ => .ub

/-- voss_strings.c:1949-1957: constants are put together. -/
def joinConst : Vec → Vec → Vec
  | .txt s :: a, .txt t :: _ => .txt (s ++ t.drop 2) :: a
  | a, _ => a

/-- The loop of `gen_merge_vectors` (voss_strings.c:1944-2043), with the number of rounds without change and the number
of alternatives; the first argument bounds the rounds.  `none` is undefined behaviour (or too many rounds). -/
def mergeLoop : Nat → List Vec → List Vec → Nat → Nat → Option (List Vec)
  | 0, _, _, _, _ => none
  | n+1, pre, rest, nc, alts =>
    if ¬ (alts > 1 ∧ nc < alts) then some (pre ++ rest)
    else
      match (if rest.length = 1 then ([], pre ++ rest) else (pre, rest) : List Vec × List Vec) with
      | (pre, a :: b :: post) =>
        if isConst a && isConst b then mergeLoop n pre (joinConst a b :: post) 0 (alts - 1)
        else if sig a ≠ sig b then mergeLoop n (pre ++ [a]) (b :: post) (nc + 1) alts
        else match joinVec a b with
          | .same => mergeLoop n (pre ++ [a]) (b :: post) (nc + 1) alts
          | .no => mergeLoop n (pre ++ [a]) (b :: post) (nc + 1) alts
          | .join c dec => mergeLoop n pre (c :: post) 0 (if dec then alts - 1 else alts)
          | .ub => none
      | (_, [a]) =>
        if isConst a then mergeLoop n [] [joinConst a a] 0 (alts - 1)
        else match joinVec a a with
          | .same => mergeLoop n [] [a] (nc + 1) alts
          | .no => mergeLoop n [] [a] (nc + 1) alts
          | .join c dec => mergeLoop n [] [c] 0 (if dec then alts - 1 else alts)
          | .ub => none
      | (_, []) => none

/-- voss_strings.c:1921-2046 `gen_merge_vectors`; the rounds suffice. -/
def mergeVecs (vs : List Vec) : Option (List Vec) :=
  match vs with
  | [] => some []
  | _ => mergeLoop (2 * (vs.length + 1) * (vs.length + 1)) [] vs 0 vs.length

/-- voss_strings.c:1751-1764 `buffer_vectors_fl` without canonical ranges. -/
def splitAll : List (List Char) → Option (List Vec)
  | [] => some []
  | s :: ss => do let v ← split s; let vs ← splitAll ss; some (v :: vs)

/-- voss_strings.c:2055-2070 `merge_vectors_fl`, for `md_merge_vectors`. -/
def mdMerge (names : List (List Char)) : Option (List (List Char)) := do
  let vs ← splitAll names
  let out ← mergeVecs vs
  showAll out

end Voss.Vec
