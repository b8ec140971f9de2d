/-
Model of vector names (voss_strings.c): reading, writing, expanding.
Strings are lists of characters without 0.
-/
namespace Voss.Vec

/-- `range_rec` (voss_strings.h). -/
structure Rng where
  up : Int
  lo : Int
deriving DecidableEq

/-- `vec_rec` (voss_strings.h): text or indices. -/
inductive Seg where
  | txt (s : List Char)
  | idx (rs : List Rng)
deriving DecidableEq

abbrev Vec := List Seg

/-- `%d` of `printf`: the C library's contract. -/
def decimal (z : Int) : List Char := if z < 0 then '-' :: Nat.toDigits 10 z.natAbs else Nat.toDigits 10 z.natAbs

/-- Where `is_valid_index_or_range` is: before a number, after its sign, inside the first number, after the colon,
after the sign of the second number, inside the second number. -/
inductive Pos where
  | item | neg | upper | colon | colonNeg | lower

/-- voss_strings.c:1602-1633 `is_valid_index_or_range`.  The end of the string is rejected everywhere. -/
def valid : Pos → List Char → Bool
  | _, [] => false
  | .item, c :: cs => if c = '-' then valid .neg cs else if c.isDigit then valid .upper cs else false
  | .neg, c :: cs => if c.isDigit then valid .upper cs else false
  | .upper, c :: cs =>
    if c.isDigit then valid .upper cs else if c = ':' then valid .colon cs
    else if c = ']' then true else if c = ',' then valid .item cs else false
  | .colon, c :: cs => if c = '-' then valid .colonNeg cs else if c.isDigit then valid .lower cs else false
  | .colonNeg, c :: cs => if c.isDigit then valid .lower cs else false
  | .lower, c :: cs =>
    if c.isDigit then valid .lower cs else if c = ']' then true else if c = ',' then valid .item cs else false

/-- `int` values. -/
def isInt (z : Int) : Bool := decide (-2147483648 ≤ z ∧ z ≤ 2147483647)

/-- `%d` of `sscanf` on a number, with what is left: the C library's contract.  A number that does not fit is
undefined behaviour (`none`).  White space and plus signs do not occur here. -/
def scanInt (cs : List Char) : Option (Int × List Char) :=
  let z : Int × List Char := match cs with
    | '-' :: ds => (-(Nat.ofDigitChars 10 (ds.takeWhile Char.isDigit) 0 : Nat), ds.dropWhile Char.isDigit)
    | ds => ((Nat.ofDigitChars 10 (ds.takeWhile Char.isDigit) 0 : Nat), ds.dropWhile Char.isDigit)
  if isInt z.1 then some z else none

/-- voss_strings.c:147-163: one range. -/
def scanRng (cs : List Char) : Option Rng := do
  let (u, r) ← scanInt cs
  match r with
  | ':' :: r' => let (l, _) ← scanInt r'; some ⟨u, l⟩
  | _ => some ⟨u, u⟩

/-- The comma-separated pieces (voss_strings.c:145-168). -/
def pieces : List Char → List (List Char)
  | [] => [[]]
  | c :: cs =>
    if c = ',' then [] :: pieces cs
    else match pieces cs with
      | p :: ps => (c :: p) :: ps
      | [] => [[c]]

/-- All pieces. -/
def scanAll : List (List Char) → Option (List Rng)
  | [] => some []
  | p :: ps => do let r ← scanRng p; let rs ← scanAll ps; some (r :: rs)

/-- voss_strings.c:1574-1600 `merge_indices`.  (No overflow at the ends of `int`.) -/
def mergeTail (t : Rng) : List Rng → List Rng
  | [] => [t]
  | c :: cs =>
    if t.up ≥ t.lo ∧ c.up ≥ c.lo ∧ t.lo - 1 = c.up then mergeTail ⟨t.up, c.lo⟩ cs
    else if t.up ≤ t.lo ∧ c.up ≤ c.lo ∧ t.lo + 1 = c.up then mergeTail ⟨t.up, c.lo⟩ cs
    else t :: mergeTail c cs

def mergeIndices : List Rng → List Rng
  | [] => []
  | t :: cs => mergeTail t cs

/-- voss_strings.c:196-206: text up to an index or to the end, and what is left. -/
def text : List Char → List Char × List Char
  | [] => ([], [])
  | c :: cs =>
    if c = '[' ∧ (cs = [] ∨ valid .item cs = true) then ([c], cs)
    else (c :: (text cs).1, (text cs).2)

/-- What `Split_vector_name` does: segments, an illegal format, or undefined behaviour. -/
inductive Sp where
  | ok (v : Vec)
  | bad
  | ub
deriving DecidableEq

def Sp.cons (x : Seg) : Sp → Sp
  | .ok v => .ok (x :: v)
  | .bad => .bad
  | .ub => .ub

/-- The loop of `Split_vector_name` (voss_strings.c:134-214); the number bounds the rounds. -/
def splitLoop : Nat → List Char → Sp
  | _, [] => .ok []
  | 0, _ :: _ => .bad
  | n+1, c :: cs =>
    if valid .item (c :: cs) then
      match scanAll (pieces ((c :: cs).takeWhile (· != ']'))) with
      | none => .ub
      | some rs => (splitLoop n ((c :: cs).dropWhile (· != ']'))).cons (.idx (mergeIndices rs))
    else if c = '\\' then
      match cs.dropWhile (· != ' ') with
      | [] => .bad
      | _ :: rest => (splitLoop n rest).cons (.txt ('\\' :: cs.takeWhile (· != ' ') ++ [' ']))
    else (splitLoop n (text (c :: cs)).2).cons (.txt (text (c :: cs)).1)

/-- voss_strings.c:127-223 `Split_vector_name`. -/
def split (s : List Char) : Option Vec :=
  match splitLoop s.length s with
  | .ok v => some v
  | .bad => some [.txt s]
  | .ub => none

/-- voss_strings.c:2093-2098 `SPRINT_RANGE`: a buffer of 20 bytes. -/
def showRng (r : Rng) : Option (List Char) :=
  let s := if r.up = r.lo then decimal r.up else decimal r.up ++ ':' :: decimal r.lo
  if s.length < 20 then some s else none

def showRngs : List Rng → Option (List Char)
  | [] => some []
  | [r] => showRng r
  | r :: rs => do let a ← showRng r; let b ← showRngs rs; some (a ++ ',' :: b)

/-- voss_strings.c:2101-2120 `show_non_contig_vector`. -/
def showVec : Vec → Option (List Char)
  | [] => some []
  | .txt s :: v => do let b ← showVec v; some (s ++ b)
  | .idx rs :: v => do let a ← showRngs rs; let b ← showVec v; some (a ++ b)

/-- voss_strings.c:2122-2138 `show_non_contig_vectors`. -/
def showAll : List Vec → Option (List (List Char))
  | [] => some []
  | v :: vs => do let a ← showVec v; let as ← showAll vs; some (a :: as)

/-- The indices of a range in order (voss_strings.c:357-402). -/
def Rng.bits (r : Rng) : List Int :=
  if r.up ≥ r.lo then (List.range ((r.up - r.lo).toNat + 1)).map fun (i : Nat) => r.up - (i : Int)
  else (List.range ((r.lo - r.up).toNat + 1)).map fun (i : Nat) => r.up + (i : Int)

/-- voss_strings.c:335-405 `Expand_vector`. -/
def expand : Vec → List Vec
  | [] => [[]]
  | .txt s :: v => (expand v).map (.txt s :: ·)
  | .idx rs :: v => rs.flatMap fun r => r.bits.flatMap fun i => (expand v).map (.idx [⟨i, i⟩] :: ·)

/-- The loops of `Expand_vector` overflow at the ends of `int`.  Simplified: the least `int` as a bound counts as
undefined whatever the direction. -/
def Rng.edge (r : Rng) : Bool := r.up == -2147483648 || r.lo == -2147483648 || (r.up < r.lo && r.lo == 2147483647)

def edge : Vec → Bool
  | [] => false
  | .txt _ :: v => edge v
  | .idx rs :: v => rs.any Rng.edge || edge v

/-- voss_strings.c:1714-1731 `vec_size`. -/
def size : Vec → Nat
  | [] => 1
  | .txt _ :: v => size v
  | .idx rs :: v => (rs.map fun r => ((r.up - r.lo).natAbs + 1) * size v).sum

/-- The characters of constants. -/
def isConstChar (c : Char) : Bool := c == '0' || c == '1' || c == 'x'

/-- voss_strings.c:243-276 `expand_constant`. -/
def expandConstant : List Char → Option (List Vec)
  | '0' :: 'b' :: cs => if cs ≠ [] ∧ cs.all isConstChar = true then some (cs.map fun c => [.txt ['0', 'b', c]]) else none
  | _ => none

/-- voss_strings.c:981-1009 `md_expand_vector`. -/
def mdExpand (s : List Char) : Option (List (List Char)) :=
  match expandConstant s with
  | some l => showAll l
  | none => do
    let v ← split s
    if edge v then none else showAll (expand v)

/-- voss_strings.c:949-979 `md_expand_vectors`. -/
def mdExpandAll : List (List Char) → Option (List (List Char))
  | [] => some []
  | s :: ss => do let a ← mdExpand s; let b ← mdExpandAll ss; some (a ++ b)

/-- Is the constant well-formed (voss_strings.c:318-326)? -/
def constSize : List Char → Option Nat
  | '0' :: 'b' :: cs => if cs.all isConstChar then some cs.length else none
  | _ => none

/-- voss_strings.c:315-333 `Get_Vector_Size`.  All intermediate results are at most the last one, so that there is an
overflow exactly if the size does not fit. -/
def mdSize (s : List Char) : Option Nat :=
  match constSize s with
  | some n => some n
  | none => do
    let v ← split s
    if size v < 2147483648 then some (size v) else none

end Voss.Vec
