import Verif.Hier.Adj

/-
Model of the search for occurrences of a circuit in another one (iso.c).
Simplified: matrices and arrays are functions from indices (every access of the program is inside the allocated size, which
`mkAdj` checks for the indices that come from a circuit); memory management and debugging output are left out.
-/
namespace Voss.Iso
open Hier

/-- `mat_rec` (iso.h:27-32). -/
abbrev Mat := Nat → Nat → Bool

def Mat.put (m : Mat) (i j : Nat) (b : Bool) : Mat := fun x y => if x = i ∧ y = j then b else m x y

def put {α} (a : Nat → α) (i : Nat) (b : α) : Nat → α := fun x => if x = i then b else a x

/-- iso.c:439-459 `is_single`, one row: `row` tells if the row had an entry, `used` which columns had one. -/
def singleRow (m : Nat → Bool) : List Nat → Bool → (Nat → Bool) → Option (Nat → Bool)
  | [], _, used => some used
  | j :: js, row, used =>
    if m j then
      if row || used j then none else singleRow m js true (put used j true)
    else singleRow m js row used

/-- iso.c:439-459 `is_single`. -/
def singleRows (C : Nat) (m : Mat) : List Nat → (Nat → Bool) → Bool
  | [], _ => true
  | i :: is, used =>
    match singleRow (m i) (List.range C) false used with
    | none => false
    | some used => singleRows C m is used

def isSingle (R C : Nat) (m : Mat) : Bool := singleRows C m (List.range R) fun _ => false

/-- iso.c:462-502 `is_isomorphism`. -/
def isIsomorphism (R C : Nat) (m p g : Mat) : Bool :=
  (List.range R).all fun i => (List.range R).all fun j =>
    let t1 := (List.range C).any fun k => m i k && (List.range C).any fun l => m j l && g l k
    !(p i j && !t1)

/-- iso.c:504-508 `is_match`. -/
def isMatch (R C : Nat) (m p g : Mat) : Bool := isSingle R C m && isIsomorphism R C m p g

/-- The cells that `trim` goes through: the rows below `r`. -/
def cells (R C r : Nat) : List (Nat × Nat) :=
  (List.range' (r + 1) (R - (r + 1))).flatMap fun i => (List.range C).map fun j => (i, j)

/-- iso.c:529-541: one cell. -/
def trimCell (p g : Mat) (r c : Nat) (s : Mat × List (Nat × Nat)) (ij : Nat × Nat) : Mat × List (Nat × Nat) :=
  if p r ij.1 && (!g c ij.2 && s.1 ij.1 ij.2) then (s.1.put ij.1 ij.2 false, s.2 ++ [ij]) else s

/-- iso.c:516-545 `trim`. -/
def trim (R C : Nat) (m p g : Mat) (r c : Nat) : Mat × List (Nat × Nat) :=
  (cells R C r).foldl (trimCell p g r c) (m, [])

/-- iso.c:547-558 `undo_trim`. -/
def undoTrim (m : Mat) (ps : List (Nat × Nat)) : Mat := ps.foldl (fun m ij => m.put ij.1 ij.2 true) m

/-- iso.c:560-568 `pick`: the copy of the row. -/
def saveRow (C : Nat) (m cpy : Mat) (r : Nat) : Mat := fun x y => if x = r ∧ y < C then m x y else cpy x y

/-- iso.c:560-568 `pick`: the new row. -/
def pickRow (C : Nat) (m : Mat) (r c : Nat) : Mat :=
  Mat.put (fun x y => if x = r ∧ y < C then false else m x y) r c true

/-- iso.c:570-576 `undo_pick`. -/
def undoPick (C : Nat) (m cpy : Mat) (r : Nat) : Mat := fun x y => if x = r ∧ y < C then cpy x y else m x y

/-- `search_rec` (iso.h:63-76), with the numbers of rows of the two circuits. -/
structure Search where
  R : Nat
  C : Nat
  needle : Mat
  haystack : Mat
  isomatch : Mat
  row : Nat
  cols : Nat → Nat
  set : Nat → Bool
  used : Nat → Bool
  changes : Nat → List (Nat × Nat)
  copy : Mat

/-- iso.c:685-708 `init_search`. -/
def initSearch (R C : Nat) (iso p g : Mat) : Search :=
  { R, C, needle := p, haystack := g, isomatch := iso, row := 0, cols := fun _ => 0, set := fun _ => false,
    used := fun _ => false, changes := fun _ => [], copy := fun _ _ => false }

/-- iso.c:784-785: the first column from `c` on that may be picked; the first argument is the number of columns left. -/
def nextCol (bad : Nat → Bool) : Nat → Nat → Nat
  | 0, c => c
  | n + 1, c => if bad c then nextCol bad n (c + 1) else c

/-- iso.c:767-775: taking back the choice of the current row. -/
def undo (s : Search) : Search :=
  let r := s.row
  { s with
    isomatch := undoTrim (undoPick s.C s.isomatch s.copy r) (s.changes r)
    used := put s.used (s.cols r) false
    set := put s.set r false }

/-- iso.c:788-796: choosing column `c` for the current row. -/
def choose (s : Search) (c : Nat) : Search :=
  let r := s.row
  let t := trim s.R s.C s.isomatch s.needle s.haystack r c
  { s with
    isomatch := pickRow s.C t.1 r c
    copy := saveRow s.C t.1 s.copy r
    changes := put s.changes r t.2
    used := put s.used c true
    cols := put s.cols r c
    set := put s.set r true
    row := r + 1 }

/-- iso.c:784-807: looking for the next column, from `start` on. -/
def scan (s : Search) (start : Nat) : Search × Option (Option Mat) :=
  let next := nextCol (fun j => s.used j || !s.isomatch s.row j) (s.C - start) start
  if next < s.C then (choose s next, none)
  else if s.row = 0 then (s, some none)
  else ({ s with row := s.row - 1 }, none)

/-- iso.c:728-811 `lazy_search`: one round of the loop; a result (`NULL` is `none`) if the function returns. -/
def tick (s : Search) : Search × Option (Option Mat) :=
  if s.row = s.R then
    if !s.set s.R && isMatch s.R s.C s.isomatch s.needle s.haystack then
      ({ s with set := put s.set s.R true }, some (some s.isomatch))
    else ({ s with set := put s.set s.R false, row := s.R - 1 }, none)
  else if s.set s.row then scan (undo s) (s.cols s.row + 1)
  else scan s 0

/-- iso.c:728-811 `lazy_search`: at most `fuel` rounds. -/
def lazySearch : Nat → Search → Option (Search × Option Mat)
  | 0, _ => none
  | fuel + 1, s =>
    match tick s with
    | (s', some o) => some (s', o)
    | (s', none) => lazySearch fuel s'

/-- iso.c:940-947: the columns of a result. -/
def toPairs (R C : Nat) (m : Mat) : List (Nat × Nat) :=
  (List.range R).map fun i => (i, nextCol (fun j => !m i j) C 0)

/-- iso.c:925-954 `internal_search_step_fn`. -/
def stepFn (fuel : Nat) (s : Search) : Option (Search × List (Nat × Nat)) :=
  match lazySearch fuel s with
  | none => none
  | some (s', none) => some (s', [])
  | some (s', some m) => some (s', toPairs s'.R s'.C m)

/-- `n` steps of a search, and what they return. -/
def steps (fuel : Nat) : Nat → Search → Option (List (List (Nat × Nat)))
  | 0, _ => some []
  | n + 1, s =>
    match stepFn fuel s with
    | none => none
    | some (s', o) => (steps fuel n s').map (o :: ·)

/-! ### Setting up a search -/

/-- pexlif.c:1156-1173 `get_top_size`. -/
def topSize (p : Pex) : Nat :=
  match p.kids with
  | none => 1
  | some ks => 1 + ks.length

/-- iso.c:283-288: one adjacency; `none` if it is outside of the matrix. -/
def putEdge (n : Nat) (m : Mat) (e : Nat × Nat) : Option Mat :=
  if e.1 < n ∧ e.2 < n then some ((m.put e.1 e.2 true).put e.2 e.1 true) else none

def putEdges (n : Nat) : Mat → List (Nat × Nat) → Option Mat
  | m, [] => some m
  | m, e :: es => do let m ← putEdge n m e; putEdges n m es

/-- Outcomes: undefined behaviour, the program ends with a message (`DIE`), the call fails, a value. -/
inductive Made (α : Type) where
  | ub
  | die
  | fail
  | ok (a : α)

def Made.bind {α β} : Made α → (α → Made β) → Made β
  | .ub, _ => .ub
  | .die, _ => .die
  | .fail, _ => .fail
  | .ok a, f => f a

instance : Monad Made where
  pure := .ok
  bind := Made.bind

/-- iso.c:271-293 `mk_adj`. -/
def mkAdj (p : Pex) : Made Mat :=
  match adjacencies p with
  | none => .fail
  | some [] => .fail
  | some es =>
    match putEdges (topSize p) (fun _ _ => false) es with
    | none => .ub
    | some m => .ok fun i j => if i = j then false else m i j

/-- `atoi` (C11 7.22.1.2): undefined if the value is not an `int`. -/
def atoi (s : Name) : Option Int :=
  let s := s.dropWhile fun c => c ∈ [' ', '\t', '\n', '\x0b', '\x0c', '\r']
  let neg := s.head? == some '-'
  let s := if s.head? == some '-' || s.head? == some '+' then s.drop 1 else s
  let v : Int := (s.takeWhile Char.isDigit).foldl (fun (a : Int) c => 10 * a + (c.toNat - '0'.toNat : Nat)) 0
  let v := if neg then -v else v
  if -2 ^ 31 ≤ v ∧ v < 2 ^ 31 then some v else none

/-- `sig_rec` (iso.h:52-57). -/
structure Sig where
  fp : Int
  sha : Name
deriving DecidableEq

/-- iso.c:319-327, 348-356: the attributes, the last ones count; `none` is undefined behaviour. -/
def readSig : List (Name × Name) → Int × Option Name → Option (Int × Option Name)
  | [], r => some r
  | (k, v) :: as, r =>
    if k = "SHA".toList then readSig as (r.1, some v)
    else if k = "FP".toList then
      match atoi v with
      | none => none
      | some n => readSig as (n, r.2)
    else readSig as r

/-- iso.c:313-335, 342-364: the signature of one instance. -/
def instSig (p : Pex) : Made Sig :=
  match readSig p.attrs (0, none) with
  | none => .ub
  | some (_, none) => .die
  | some (fp, some sha) => if fp = 0 then .die else .ok ⟨fp, sha⟩

def kidSigs : List Pex → Made (List Sig)
  | [] => .ok []
  | k :: ks => do let s ← instSig k; let r ← kidSigs ks; pure (s :: r)

/-- iso.c:297-372 `mk_iso_list`. -/
def mkIsoList (p : Pex) : Made (List Sig) :=
  match p.kids with
  | none => .die
  | some ks => do let s ← instSig p; let r ← kidSigs ks; pure (s :: r)

/-- iso.c:385-403 `mk_iso_matrix`. -/
def mkIsoMatrix (p g : List Sig) : Mat := fun i j =>
  match p[i]?, g[j]? with
  | some r, some c => r.fp == c.fp || r.sha == c.sha
  | _, _ => false

/-- iso.c:405-430 `mk_iso`. -/
def mkIso (p g : Pex) : Made Mat := do
  let ps ← mkIsoList p
  let gs ← mkIsoList g
  pure (mkIsoMatrix ps gs)

/-- iso.c:165-187 `trim_matrix`. -/
def trimMatrix (m : Mat) : Mat := fun i j => m (i + 1) (j + 1)

/-- iso.c:870-920 `internal_search_create_fn`. -/
def create (p g : Pex) (wrapped : Bool) : Made Search :=
  if topSize p ≤ 1 then .fail
  else if topSize g ≤ 1 then .fail
  else do
    let needle ← mkAdj p
    let haystack ← mkAdj g
    let iso ← mkIso p g
    if wrapped then
      pure (initSearch (topSize p - 1) (topSize g - 1) (trimMatrix iso) (trimMatrix needle) (trimMatrix haystack))
    else pure (initSearch (topSize p) (topSize g) iso needle haystack)

end Voss.Iso
