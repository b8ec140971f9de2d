import Verif.Hier.Model

/-
Model of the adjacencies and of the folding of instances (pexlif.c, voss_strings.c).
Simplified: the sets of names are lists in the order of insertion, where the program goes through hash tables in an order
that depends on the hash function.  The vectors that are compared are never the same object, because one is an input and
the other one an output.
-/
namespace Voss.Hier
open Vec

/-- voss_strings.c:424-437 `Check_range_overlap`. -/
def overlapRngs : List Rng → List Rng → Bool
  | r :: rs, s :: ss => if ¬ (r.lo ≤ s.up ∧ s.lo ≤ r.up) then false else overlapRngs rs ss
  | _, _ => true

/-- voss_strings.c:439-462 `Check_vector_overlap`. -/
def overlap : Vec → Vec → Bool
  | .txt s :: v, .txt t :: w => if s ≠ t then false else overlap v w
  | .idx r :: v, .idx s :: w => if overlapRngs r s then overlap v w else false
  | _ :: _, _ :: _ => false
  | _, _ => true

/-- `adj_key_rec`: a name with its vector, and if it is read. -/
structure Key where
  name : Name
  vec : Vec
  input : Bool

def mkKeys (input : Bool) : List Name → Option (List Key)
  | [] => some []
  | s :: ss => do let v ← split s; let r ← mkKeys input ss; some (⟨s, v, input⟩ :: r)

/-- The names at one instance (pexlif.c:2520-2527). -/
def kidKeys (k : Pex) : Option (List Key) := do
  let i ← mkKeys true (k.inps.flatMap Pin.acts)
  let o ← mkKeys false (k.outs.flatMap Pin.acts)
  some (i ++ o)

def kidsKeys : List Pex → Option (List (List Key))
  | [] => some []
  | k :: ks => do let a ← kidKeys k; let r ← kidsKeys ks; some (a :: r)

/-- pexlif.c:2482-2538 `mk_adj_tables`: number 0 stands for the surroundings, which drive the inputs and read the outputs. -/
def adjKeys (p : Pex) : Option (List (List Key)) :=
  match p.kids with
  | none => none
  | some ks => do
    let i ← mkKeys false (p.inps.map Pin.formal)
    let o ← mkKeys true (p.outs.map Pin.formal)
    let r ← kidsKeys ks
    some ((i ++ o) :: r)

/-- The entries of a table (pexlif.c:2456-2479) under the signature of `x` that overlap with `x`, with their numbers. -/
def hits (keys : List (List Key)) (x : Key) : List Nat :=
  (keys.zipIdx).flatMap fun e => (e.1.filter fun y => y.input == !x.input && sig y.vec == sig x.vec && overlap x.vec y.vec).map
    fun _ => e.2

/-- pexlif.c:1202-1255 `get_top_adjacencies`. -/
def adjacencies (p : Pex) : Option (List (Nat × Nat)) := do
  let keys ← adjKeys p
  some (keys.zipIdx.flatMap fun e => e.1.flatMap fun x =>
    (hits keys x).map fun j => if x.input then (j, e.2) else (e.2, j))

/-- `insert_check_hash`. -/
def insertNew (l : List Name) (s : Name) : List Name := if s ∈ l then l else l ++ [s]

/-- The sets of inputs, outputs and internals. -/
structure Sets where
  inps : List Name
  outs : List Name
  ints : List Name
deriving DecidableEq

/-- pexlif.c:1303-1318: what one adjacency adds. -/
def Sets.add (s : Sets) (x : Key) (inside : Bool) : Sets :=
  if inside then { s with ints := insertNew s.ints x.name }
  else if x.input then { s with inps := insertNew s.inps x.name }
  else { s with outs := insertNew s.outs x.name }

/-- pexlif.c:1285-1319: all adjacencies of the folded instances. -/
def foldSets (keys : List (List Key)) (ids : List Nat) : Sets :=
  (keys.zipIdx.tail.filter fun e => e.2 ∈ ids).foldl (fun s e =>
    e.1.foldl (fun s x => (hits keys x).foldl (fun s j => s.add x (decide (j ∈ ids))) s) s) ⟨[], [], []⟩

/-- pexlif.c:1264-1393 `fold_pexlif`; `none` if the circuit has no instances or a name cannot be read. -/
def fold (p : Pex) (ids : List Nat) (name : Name) : Option Pex :=
  match p.kids with
  | none => none
  | some kids => do
    let keys ← adjKeys p
    let s := foldSets keys ids
    let inner := (kids.zipIdx 1).filter fun e => e.2 ∈ ids
    let outer := (kids.zipIdx 1).filter fun e => e.2 ∉ ids
    let new := Pex.mk name [] p.leaf (s.inps.map fun n => ⟨n, [n]⟩) (s.outs.map fun n => ⟨n, [n]⟩)
      (s.ints.filter fun n => n ∉ s.inps ∧ n ∉ s.outs) (some (inner.map Prod.fst)) 0
    some (.mk p.name [] p.leaf p.inps p.outs (p.inter.filter fun n => n ∉ s.ints)
      (some (new :: outer.map Prod.fst)) p.fns)

end Voss.Hier
