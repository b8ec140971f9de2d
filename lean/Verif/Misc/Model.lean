import Verif.Pre.Range
/-
Model of functions on lists of IDVII/src/fl/design/misc.fl.

The value of a function is its completely evaluated result.  `.fail` is a failure of the evaluator, `.more` an
evaluation that has not ended within the bound.  Integers are unbounded (C04).  `random lo hi` (preamble.fl:1028-1045,
C91) is `lo + r mod (hi - lo + 1)` for some number `r`, which is a parameter: any number of the range can come out.
`qsort` (list_ops.c, C66) is a parameter as well.
-/
namespace Voss.Misc
open Voss.Pre (Out)
variable {α β : Type}

/-- misc.fl:116-119 `exhaust`, with `maybe` (96). -/
def exhaust : List (Option α) → Option α
  | [] => none
  | x :: xs => match x with
    | some v => some v
    | none => exhaust xs

/-- misc.fl:104 `filter_some`. -/
def filterSome (l : List (Option α)) : List α := (l.filter Option.isSome).filterMap id

/-- misc.fl:108 `map_some`. -/
def mapSome (f : α → Option β) (l : List α) : List β := filterSome (l.map f)

/-- list_ops.c:789-830 `find_first0`: the place, from 1, of the first element that is accepted, 0 if there is none. -/
def findFirst0 (p : α → Bool) : Nat → List α → Nat
  | _, [] => 0
  | i, x :: xs => if p x then i else findFirst0 p (i + 1) xs

/-- misc.fl:134 `elem`. -/
def elem [DecidableEq α] (a : α) (l : List α) : Bool := findFirst0 (fun x => decide (a = x)) 1 l != 0

/-- misc.fl:138 `find_maybe`; `el` fails on a place that does not exist. -/
def findMaybe (p : α → Bool) (x : α) (xs : List α) : Option α :=
  let i := findFirst0 p 1 xs
  if i = 0 then some x else xs[i - 1]?

/-- misc.fl:147-151 `zip_uneven`. -/
def zipUneven : List α → List β → List (α × β)
  | x :: xs, y :: ys => (x, y) :: zipUneven xs ys
  | _, [] => []
  | [], _ => []

/-- misc.fl:173 `ixlist`; `sitlist` is `itlist` (preamble.fl:316). -/
def ixlist (f : α → Int → β → β) (xs : List α) (b : β) : β :=
  (xs.foldr (fun x (s : Int × β) => (s.1 - 1, f x s.1 s.2)) ((xs.length : Int), b)).2

/-- misc.fl:177 `ixmap`. -/
def ixmap (f : α → Int → β) (xs : List α) : List β := ixlist (fun x ix r => f x ix :: r) xs []

/-- misc.fl:186-189 `span`. -/
def span (p : α → Bool) : List α → List α × List α
  | [] => ([], [])
  | x :: xs => if p x then (x :: (span p xs).1, (span p xs).2) else ([], x :: xs)

/-- misc.fl:193-196 `group`; the number bounds the length of the list. -/
def groupGo (p : α → α → Bool) : Nat → List α → Out (List (List α))
  | _, [] => .ok []
  | 0, _ :: _ => .more
  | n + 1, x :: xs =>
    let r := span (p x) xs
    (groupGo p n r.2).bind fun g => .ok ((x :: r.1) :: g)

def group (p : α → α → Bool) (l : List α) : Out (List (List α)) := groupGo p l.length l

/-- misc.fl:200 `hist`; the groups are not empty, so that `hd` does not fail. -/
def hist [DecidableEq α] (sort : List α → List α) (l : List α) : Out (List (α × Nat)) :=
  (group (fun a b => decide (a = b)) (sort l)).bind fun gs =>
    .ok (gs.filterMap fun g => g.head?.map fun a => (a, g.length))

/-- misc.fl:205-208, the local `go` of `split_at`. -/
def splitGo : Int → List α → List α × List α
  | _, [] => ([], [])
  | m, y :: ys => if m = 2 then ([y], ys) else (y :: (splitGo (m - 1) ys).1, (splitGo (m - 1) ys).2)

/-- misc.fl:204-211 `split_at`. -/
def splitAt (n : Int) (xs : List α) : List α × List α := if n ≤ 1 then ([], xs) else splitGo n xs

/-- misc.fl:215-220 `chunks`; the first number bounds the recursion. -/
def chunks : Nat → Int → List α → Out (List (List α))
  | _, _, [] => .ok []
  | 0, _, _ :: _ => .more
  | k + 1, n, x :: xs =>
    let r := splitAt (n + 1) (x :: xs)
    (chunks k n r.2).bind fun c => .ok (r.1 :: c)

/-- misc.fl:224-229 `split_into`; division by 0 fails. -/
def splitInto (k : Nat) (n : Int) (xs : List α) : Out (List (List α)) :=
  let y : Int := xs.length
  if n > y then .fail
  else if n = 0 then .fail
  else
    let r := splitAt (y.tdiv n + y.tmod n + 1) xs
    (chunks k (y.tdiv n) r.2).bind fun c => .ok (r.1 :: c)

/-- misc.fl:233-236 `remove`. -/
def remove (n : Int) (xs : List α) : List α :=
  let r := splitAt n xs
  if r.2.isEmpty then r.1 else r.1 ++ r.2.tail

/-- misc.fl:240-243 `modify`. -/
def modify (f : α → α) (n : Int) (xs : List α) : List α :=
  match splitAt n xs with
  | (as, []) => as
  | (as, b :: bs) => as ++ f b :: bs

/-- misc.fl:251 `rotate`; the empty list is not matched. -/
def rotate : List α → Out (List α)
  | [] => .fail
  | x :: xs => .ok (xs ++ [x])

/-- misc.fl:255 `rotations`: the first elements of the list of all rotations (`iterate`, misc.fl:35). -/
def rotGo : Nat → List α → Out (List (List α))
  | 0, _ => .ok []
  | 1, xs => .ok [xs]
  | n + 2, xs => (rotate xs).bind fun r => (rotGo (n + 1) r).bind fun rs => .ok (xs :: rs)

def rotations (l : Int) (xs : List α) : Out (List (List α)) := rotGo l.toNat xs

/-- misc.fl:267-272, the local `interleave'` of `permutations`. -/
def interleave' (t : α) (ts : List α) : (List α → List α) → List α → List (List α) → List α × List (List α)
  | _, [], r => (ts, r)
  | f, y :: ys, r =>
    let q := interleave' t ts (fun x => f (y :: x)) ys r
    (y :: q.1, f (t :: y :: q.1) :: q.2)

/-- misc.fl:265-273, the local `interleave`. -/
def interleave (t : α) (ts xs : List α) (r : List (List α)) : List (List α) := (interleave' t ts id xs r).2

/-- misc.fl:261-274, the local `perms`; where it calls `permutations`, its definition is written out. -/
def perms : List α → List α → List (List α)
  | [], _ => []
  | t :: ts, js => (js :: perms js []).foldr (interleave t ts) (perms ts (t :: js))
termination_by ts js => (ts.length + js.length, ts.length)
decreasing_by all_goals (simp only [Prod.lex_def, List.length_cons, List.length_nil]; omega)

/-- misc.fl:259-277 `permutations`. -/
def permutations (xs : List α) : List (List α) := xs :: perms xs []

/-- preamble.fl:1028-1045 `random`, see above. -/
def random (r : Nat) (lo hi : Int) : Out Int := if lo > hi then .fail else .ok (lo + (r : Int) % (hi - lo + 1))

/-- misc.fl:312-314 `one_of`. -/
def oneOf (r : Nat) (xs : List α) : Out α :=
  if xs.isEmpty then .fail
  else (random r 1 xs.length).bind fun i => if i ≤ 0 then .fail else Out.ofOption xs[i.toNat - 1]?

/-- misc.fl:319-321, the local `pick` of `one_of_weighted`. -/
def pick : Int → List (Int × α) → Out α
  | _, [] => .fail
  | n, (k, a) :: as => if n ≤ k then .ok a else pick (n - k) as

/-- misc.fl:317-324 `one_of_weighted`. -/
def oneOfWeighted (r : Nat) (xs : List (Int × α)) : Out α :=
  if xs.isEmpty then .fail
  else (random r 1 (xs.foldr (fun p s => p.1 + s) 0)).bind fun n => pick n xs

/-- misc.fl:327-329 `remove_one`. -/
def removeOne (r : Nat) (xs : List α) : Out (List α) :=
  if xs.isEmpty then .ok [] else (random r 1 xs.length).bind fun i => .ok (remove i xs)

/-- misc.fl:39 `repeat` with `remove_one`; `rs` are the numbers drawn. -/
def removeMany (rs : Nat → Nat) : Nat → List α → Out (List α)
  | 0, xs => .ok xs
  | n + 1, xs => (removeOne (rs n) xs).bind fun ys => removeMany rs n ys

/-- misc.fl:332-335 `some_of`. -/
def someOf (r : Nat) (rs : Nat → Nat) : List α → Out (List α)
  | [] => .ok []
  | [x] => .ok [x]
  | xs => (random r 0 (xs.length - 1)).bind fun n => removeMany rs n.toNat xs

/-- misc.fl:338-340 `split_at_random`. -/
def splitAtRandom (r : Nat) (xs : List α) : Out (List α × List α) :=
  if xs.isEmpty then .ok ([], []) else (random r 1 (xs.length + 1)).bind fun n => .ok (splitAt n xs)

end Voss.Misc
