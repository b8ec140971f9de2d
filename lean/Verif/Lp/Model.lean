import Mathlib.Algebra.Order.Ring.Rat
import Mathlib.Algebra.Field.Rat

/-
Model of `LP` and `LPsol` (lp.c): feasibility of linear constraints by the simplex method.
Simplified: rationals are `ℚ` (`Verif/Lp/Rat.lean` has lp.c:1546-1742, and that they are); memory that is freed is not tracked;
the loops of the simplex method may run forever, so they are given a number of rounds.
-/
namespace Voss.Lp

/-- What a call ends with: a result, a failure of fl, the end of the program, undefined behaviour, or no end within the rounds
that are given. -/
inductive Out (α : Type) where
  | ok (a : α)
  | fail
  | die
  | ub
  | loop
deriving DecidableEq

def Out.bind {α β : Type} : Out α → (α → Out β) → Out β
  | .ok a, f => f a
  | .fail, _ => .fail
  | .die, _ => .die
  | .ub, _ => .ub
  | .loop, _ => .loop

instance : Monad Out where
  pure := .ok
  bind := Out.bind

/-- The relations (lp.h:46-54); `cost` stands for every text that is no relation. -/
inductive Rel where
  | eq | ne | lt | gt | le | ge | cost
deriving DecidableEq

/-- lp.c:453-476 `Add_LP_row`. -/
def relOf (s : List Char) : Rel :=
  if s.head? = some '<' then
    if s = "<=".toList then .le else if s = "<>".toList then .ne else .lt
  else if s.head? = some '>' then
    if s = ">=".toList then .ge else .gt
  else if s = "=".toList then .eq else .cost

/-- `Row` (lp.h:32-35): the constant is in column 0. -/
structure Row where
  cols : List ℚ
  rel : Rel
deriving DecidableEq

/-- `Tableau` (lp.h:37-44).  `ptr` are the pointers of the rows to their columns in `mem`: two rows may share columns.  Rows
above `nrow` are kept, as the program may still read them.  No `eps` is -1. -/
structure Tab where
  nrow : Nat
  ncol : Nat
  eps : Option Nat
  mem : List (List ℚ)
  ptr : List Nat
  ur : List (List ℚ)
  var : List Int

namespace Tab

def row (t : Tab) (i : Nat) : List ℚ := t.mem.getD (t.ptr.getD i 0) []

def at' (t : Tab) (i j : Nat) : ℚ := (t.row i).getD j 0

/-- Write the columns of a row. -/
def write (t : Tab) (i : Nat) (r : List ℚ) : Tab := { t with mem := t.mem.set (t.ptr.getD i 0) r }

/-- The body of the second loop of lp.c:733-747. -/
def clear (i j : Nat) (t : Tab) (ii : Nat) : Tab :=
  if ii = i then t
  else
    let x := t.at' ii j
    t.write ii (List.zipWith (fun a b => a - x * b) (t.row ii) (t.row i))

/-- lp.c:715-748 `pivot`. -/
def pivot (t : Tab) (i j : Nat) : Tab :=
  let x := t.at' i j
  (List.range (t.nrow + 1)).foldl (clear i j) (t.write i ((t.row i).map (· / x)))

/-- lp.c:760-775: the profitable column, 0 if there is none.  `bland` is never set. -/
def enter (t : Tab) (noeps : Bool) : Nat :=
  ((List.range' 1 t.ncol).foldl (fun (s : Nat × ℚ) j =>
    if noeps = true ∧ t.eps = some j then s
    else if t.at' 0 j < 0 ∧ t.at' 0 j < s.2 then (j, t.at' 0 j) else s) (0, 0)).1

/-- lp.c:778-795: the row for the pivot, 0 if there is none. -/
def leave (t : Tab) (jj : Nat) : Nat :=
  ((List.range' 1 t.nrow).foldl (fun (s : Nat × ℚ) i =>
    if 0 < t.at' i jj then
      let q := t.at' i 0 / t.at' i jj
      if s.1 = 0 ∨ q < s.2 then (i, q) else s
    else s) (0, 0)).1

/-- lp.c:751-809 `simplex`: the tableau and whether it is unbounded. -/
def simplex (noeps : Bool) : Nat → Tab → Out (Tab × Bool)
  | 0, _ => .loop
  | k + 1, t =>
    let jj := t.enter noeps
    if jj = 0 then .ok (t, false)
    else
      let ii := t.leave jj
      if ii = 0 then .ok (t, true) else simplex noeps k (t.pivot ii jj)

/-- lp.c:633-650 `in_basis`; -1 is `none`. -/
def inBasisGo (t : Tab) (j : Nat) : Option Nat → List Nat → Option Nat
  | e, [] => e
  | e, ii :: l =>
    if t.at' ii j = 1 ∧ e = none then inBasisGo t j (some ii) l
    else if t.at' ii j ≠ 0 then none else inBasisGo t j e l

def inBasis (t : Tab) (j : Nat) : Option Nat := inBasisGo t j none (List.range (t.nrow + 1))

def basisGo (t : Tab) : List Nat → List Nat → List Nat
  | _, [] => []
  | marked, j :: js =>
    match t.inBasis j with
    | none => 0 :: basisGo t marked js
    | some i => if 0 < i ∧ i ∉ marked ∧ t.eps ≠ some j then i :: basisGo t (i :: marked) js else 0 :: basisGo t marked js

/-- lp.c:652-677 `find_basis`. -/
def basis (t : Tab) : List Nat := 0 :: basisGo t [] (List.range' 1 t.ncol)

/-- lp.c:679-713 `diagonalize`. -/
def diagonalize (t : Tab) (r : List ℚ) : List ℚ :=
  let b := t.basis
  (List.range' 1 t.ncol).foldl (fun r j =>
    let i := b.getD j 0
    if 0 < i then
      let m := r.getD j 0
      List.zipWith (fun a c => c - a * m) (t.row i) r
    else r) r

/-- lp.c:812-824 `find_non_zero`. -/
def findNonZero (t : Tab) (ii : Nat) : Option Nat :=
  (List.range' 1 (t.ncol - t.nrow)).find? fun j => decide (t.eps ≠ some j ∧ t.at' ii j ≠ 0)

/-- lp.c:616-630 `removeRowFromBasic`, where there is such a row. -/
def removeRow (t : Tab) (i : Nat) : Tab := { t with ptr := t.ptr.set i (t.ptr.getD t.nrow 0), nrow := t.nrow - 1 }

/-- The loop of lp.c:837-852. -/
def driveGo (b : List Nat) : Tab → List Nat → Out Tab
  | t, [] => .ok t
  | t, i :: is =>
    let ii := b.getD i 0
    if 0 < ii then
      match t.findNonZero ii with
      | none =>
        if t.at' ii 0 = 0 then
          if t.nrow < ii then .die else driveGo b (t.removeRow ii) is
        else .ub
      | some jj => driveGo b (t.pivot ii jj) is
    else driveGo b t is

/-- lp.c:826-855 `drive_out`; if it returns a null pointer, this is followed (lp.c:927). -/
def driveOut (t : Tab) : Out Tab := driveGo t.basis t (List.range' (t.ncol - t.nrow + 1) t.nrow)

end Tab

/-- A tableau without cost row: the rows, `eps`, unresolved rows and labels of columns that `lp_StandardTableau` returns.  The
rows `x[j] >= 0` at its end, which only count for `nrow`, are left out. -/
structure Std where
  ncol : Nat
  eps : Option Nat
  rows : List (List ℚ)
  ur : List (List ℚ)
  var : List Int

/-- lp.c:1460-1507 `eliminate_zeros`; infeasible is `none`. -/
def eliminateZeros : List Row → Option (List Row)
  | [] => some []
  | r :: rs =>
    if r.cols.all (· == 0) then
      if r.rel = .eq ∨ r.rel = .le ∨ r.rel = .ge then eliminateZeros rs else none
    else (eliminateZeros rs).map (r :: ·)

/-- lp.c:1157-1188 `standard1`: rows with a negative constant are negated. -/
def standard1 (r : Row) : Out Row :=
  if r.cols.getD 0 0 < 0 then
    let c := r.cols.map (- ·)
    match r.rel with
    | .eq => .ok ⟨c, .eq⟩
    | .ne => .ok ⟨c, .ne⟩
    | .gt => .ok ⟨c, .lt⟩
    | .lt => .ok ⟨c, .gt⟩
    | .ge => .ok ⟨c, .le⟩
    | .le => .ok ⟨c, .ge⟩
    | .cost => .die
  else .ok r

def mapOut {α β : Type} (f : α → Out β) : List α → Out (List β)
  | [] => .ok []
  | a :: as =>
    match f a with
    | .ok b =>
      match mapOut f as with
      | .ok bs => .ok (b :: bs)
      | .fail => .fail
      | .die => .die
      | .ub => .ub
      | .loop => .loop
    | .fail => .fail
    | .die => .die
    | .ub => .ub
    | .loop => .loop

/-- lp.c:1232-1249, 1367-1382: the variable that the row says is not negative, 0 if it says something else. -/
def signOf (r : Row) : Nat :=
  if r.rel = .ge ∧ r.cols.getD 0 0 = 0 then
    match (List.range' 1 (r.cols.length - 1)).filter fun j => decide (r.cols.getD j 0 ≠ 0) with
    | [j] => if 0 < r.cols.getD j 0 then j else 0
    | _ => 0
  else 0

/-- lp.c:1416-1421: columns of variables that may be negative are split. -/
def split (signed : List Nat) : Nat → List ℚ → List ℚ
  | _, [] => []
  | j, c :: cs => if j ∈ signed then c :: split signed (j + 1) cs else c :: -c :: split signed (j + 1) cs

/-- lp.c:1313-1321: the labels of the columns. -/
def labels (signed : List Nat) : Nat → Nat → List Int
  | _, 0 => []
  | j, n + 1 => if j ∈ signed then (j : Int) :: labels signed (j + 1) n else (j : Int) :: -(j : Int) :: labels signed (j + 1) n

/-- Whether a row has a slack variable (lp.c:1214-1263). -/
def slacked (r : Row) : Bool := r.rel != .eq && signOf r == 0

/-- Whether a row needs `eps`. -/
def strictRel : Rel → Bool
  | .ne | .lt | .gt => true
  | _ => false

/-- The coefficient of `eps` (lp.c:1344-1396). -/
def epsCoef : Rel → ℚ
  | .ne | .lt => 1
  | .gt => -1
  | _ => 0

/-- The coefficient of the slack variable (lp.c:1425-1433). -/
def slackCoef : Rel → ℚ
  | .ne | .lt | .le => 1
  | .gt | .ge => -1
  | _ => 0

/-- lp.c:1412-1440: a row of the standard form; `k` is the number of slack variables of the rows before, the slack variables
are taken from the last column to the first one. -/
def stdRow (signed : List Nat) (strict : Bool) (ns k : Nat) (r : Row) : List ℚ :=
  r.cols.getD 0 0 :: (split signed 1 r.cols.tail ++ (if strict then [epsCoef r.rel] else []) ++
    (if slacked r then (List.replicate ns 0).set (ns - 1 - k) (slackCoef r.rel) else List.replicate ns 0))

/-- lp.c:1325-1445 `standard4`: rows `x[j] >= 0` are dropped, rows with `<>` are unresolved. -/
def standard4 (signed : List Nat) (strict : Bool) (ns : Nat) : Nat → List Row → List (List ℚ) × List (List ℚ)
  | _, [] => ([], [])
  | k, r :: rs =>
    if signOf r ≠ 0 then standard4 signed strict ns k rs
    else
      let (a, b) := standard4 signed strict ns (if slacked r then k + 1 else k) rs
      if r.rel = .ne then (a, stdRow signed strict ns k r :: b) else (stdRow signed strict ns k r :: a, b)

/-- lp.c:1190-1323 `standard2`, `standard3`, and `standard4`. -/
def standardize (n : Nat) (rs : List Row) : Out Std :=
  if rs.any (fun r => r.rel == .cost) then .die
  else
    let signed := (rs.map signOf).filter (· ≠ 0)
    let strict := rs.any fun r => strictRel r.rel
    let ns := (rs.filter slacked).length
    let lab := labels signed 1 n
    let (a, b) := standard4 signed strict ns 0 rs
    .ok ⟨lab.length + (if strict then 1 else 0) + ns, if strict then some (lab.length + 1) else none, a, b,
      0 :: (lab ++ List.replicate ((if strict then 1 else 0) + ns) 0)⟩

/-- lp.c:1510-1541 `lp_StandardTableau`: infeasible, without rows, or a tableau. -/
def standardTableau (n : Nat) (rs : List Row) : Out (Option (Option Std)) :=
  match eliminateZeros rs with
  | none => .ok none
  | some [] => .ok (some none)
  | some rs => do
    let rs ← mapOut standard1 rs
    let s ← standardize n rs
    .ok (some (some s))

/-- lp.c:888-909: the row with its artificial variable. -/
def artRow (m i : Nat) (r : List ℚ) : List ℚ := r ++ (List.range m).map fun k => if k = i then 1 else 0

/-- lp.c:873-912: the tableau with artificial variables. -/
def artTab (s : Std) : Tab :=
  let m := s.rows.length
  let cost := s.rows.foldl (fun c r => List.zipWith (fun a b => a - b) c r) (List.replicate (s.ncol + 1) 0) ++ List.replicate m 0
  { nrow := m, ncol := s.ncol + m, eps := s.eps, mem := cost :: s.rows.mapIdx (fun i r => artRow m i r),
    ptr := List.range (m + 1), ur := s.ur, var := s.var }

/-- lp.c:925-931: forget the artificial variables. -/
def forget (m : Nat) (t : Tab) : Tab := { t with mem := t.mem.map (·.take (t.ncol - m + 1)), ncol := t.ncol - m }

/-- lp.c:856-935 `FindBfs`; infeasible is `none`. -/
def findBfs (fuel : Nat) (s : Std) : Out (Option Tab) := do
  let (t, ub) ← (artTab s).simplex true fuel
  if ub then .die
  else if t.at' 0 0 ≠ 0 then .ok none
  else do
    let t' ← t.driveOut
    .ok (some (forget t.nrow t'))

/-- lp.c:564-589 `add_row`: columns are not shared after this. -/
def addRow (t : Tab) (d : List ℚ) : Tab :=
  { t with nrow := t.nrow + 1, mem := (List.range (t.nrow + 1)).map t.row ++ [d], ptr := List.range (t.nrow + 2) }

/-- lp.c:966-980 `find_slack`. -/
def findSlack (t : Tab) (r : List ℚ) : Option Nat :=
  match t.eps with
  | none => none
  | some e => (List.range' (e + 1) (t.ncol - e)).find? fun j => decide (r.getD j 0 ≠ 0)

/-- Set the slack variable and `eps` to -1 and negate the row (lp.c:1050-1058, 388-399); without slack variable the program
writes before the columns. -/
def greater (t : Tab) (d : List ℚ) : Out (List ℚ) :=
  match findSlack t d, t.eps with
  | some s, some e => .ok (((d.set s (-1)).set e (-1)).map (- ·))
  | _, _ => .ub

/-- The loop of lp.c:1038-1069 `addNE`: `n` rounds are left, `ii` is the number of unresolved rows that stay. -/
def addNE : Nat → Nat → Tab → Out Tab
  | 0, _, t => .ok t
  | n + 1, ii, t =>
    let d := t.diagonalize (t.ur.getD ii [])
    if d.getD 0 0 = 0 then addNE n (ii + 1) t
    else do
      let d ← if d.getD 0 0 < 0 then greater t d else .ok d
      addNE n ii (addRow { t with ur := (t.ur.set ii (t.ur.getD (t.ur.length - 1) [])).take (t.ur.length - 1) } d)

/-- lp.c:982-996 `strict_ineq`. -/
def strictIneq (t : Tab) : Bool :=
  match t.eps with
  | none => false
  | some e => (List.range' 1 t.nrow).any fun i => decide (t.at' i e ≠ 0)

/-- lp.c:1073-1093 `is_feasible`. -/
def isFeasible (t : Tab) (ub : Bool) : Bool :=
  if 0 < t.at' 0 0 ∨ ub = true then true
  else if t.at' 0 0 = 0 then false
  else (List.range' 1 t.nrow).any fun i => decide (0 < t.at' i 0)

/-- Set the cost of `eps` to -1 (lp.c:1102-1103). -/
def costEps (t : Tab) : Tab :=
  match t.eps with
  | none => t
  | some e => t.write 0 ((t.row 0).set e (-1))

/-- lp.c:1095-1113 `solveStrictIneq`; infeasible is `none`. -/
def solveStrict (fuel : Nat) (t : Tab) : Out (Option Tab) := do
  let (t, ub) ← (costEps t).simplex false fuel
  .ok (if isFeasible t ub then some t else none)

/-- The loop of lp.c:365-411 over the unresolved rows, from the last one. -/
def unresolved (fuel : Nat) : Nat → Tab → Out (Option Tab)
  | 0, t => .ok (some t)
  | n + 1, t => do
    let d := t.diagonalize (t.ur.getD n [])
    let sa := costEps { addRow t d with ur := t.ur.take n }
    let (t1, ub) ← sa.simplex false fuel
    if isFeasible t1 ub then unresolved fuel n t1
    else do
      let r ← greater sa (sa.row sa.nrow)
      let (t2, ub) ← (costEps (sa.write sa.nrow r)).simplex false fuel
      if isFeasible t2 ub then unresolved fuel n t2 else .ok none

/-- lp.c:937-963 `bfs`: the values of the variables. -/
def bfs (t : Tab) (n : Nat) : List ℚ :=
  (List.range' 1 t.ncol).foldl (fun s j =>
    let i := t.basis.getD j 0
    let l := t.var.getD j 0
    if l ≠ 0 ∧ 0 < i then s.set (l.natAbs - 1) (s.getD (l.natAbs - 1) 0 + t.at' i 0) else s) (List.replicate n 0)

/-- lp.c:313-424 `lp_solution`, for at least one column. -/
def solution (fuel n : Nat) (rs : List Row) : Out (Option (List ℚ)) := do
  match ← standardTableau n rs with
  | none => .ok none
  | some none => .ok (some (List.replicate n 0))
  | some (some s) =>
    match ← findBfs fuel s with
    | none => .ok none
    | some t => do
      let t ← addNE t.ur.length 0 t
      match ← (if strictIneq t then solveStrict fuel t else .ok (some t)) with
      | none => .ok none
      | some t =>
        match ← unresolved fuel t.ur.length t with
        | none => .ok none
        | some t => .ok (some (bfs t n))

/-- A constraint: coefficients, relation and constant. -/
structure Con where
  coefs : List Int
  rel : List Char
  const : Int

def Con.row (c : Con) : Row := ⟨((c.const : ℚ) :: c.coefs.map fun z : Int => (z : ℚ)), relOf c.rel⟩

/-- lp.c:148-179, 236-267: the number of columns, which must be the same in all rows. -/
def columns : List Con → Option Nat
  | [] => none
  | c :: cs => if cs.all (fun d => d.coefs.length == c.coefs.length) then some c.coefs.length else none

/-- lp.c:998-1025 `zero_column`. -/
def zeroColumn (rs : List Row) : Bool :=
  rs.all fun r =>
    let b := r.cols.getD 0 0
    match r.rel with
    | .eq => decide (0 = b)
    | .ne => decide (0 ≠ b)
    | .lt => decide (0 < b)
    | .gt => decide (b < 0)
    | .le => decide (0 ≤ b)
    | .ge => decide (b ≤ 0)
    | .cost => false

/-- lp.c:145-231 `LP`. -/
def lp (fuel : Nat) (cs : List Con) : Out Bool :=
  match columns cs with
  | none => .fail
  | some 0 => .ok (zeroColumn (cs.map Con.row))
  | some n => do
    let s ← solution fuel n (cs.map Con.row)
    .ok s.isSome

/-- lp.c:233-311 `LPsol`. -/
def lpSol (fuel : Nat) (cs : List Con) : Out (List ℚ) :=
  match columns cs with
  | none => .fail
  | some 0 => .ok []
  | some n => do
    let s ← solution fuel n (cs.map Con.row)
    .ok (s.getD [])

end Voss.Lp
