import Verif.Cache.Val
import Verif.Lib.Hash
/-
Model of fl tables (`src/bin/fl/table.c`): mutable hash tables behind an interface that looks like finite
maps.  The hash table itself is `Verif.Lib.Hash`.

Conventions.
* A node of the graph that holds a table is a number of the list `nodes`; `none` is a node that has been
  turned into a failure.  Several nodes may hold the same table: a node is copied when it overwrites a
  redex.
* `none` as the result of an operation is undefined behaviour (`Verif.Lib.Hash`).
* Data is a pointer to a node, which is never `NULL`.  Garbage collection, reference counts and the reuse
  of table records are left out.
-/
namespace Voss.Tab

open Voss.Lib (Tbl)
open Voss.Cache (V Leaf HashEnv w32 leafHash)

/-- The tables, and the nodes that hold them. -/
structure Heap (K D : Type) where
  tabs : List (Tbl K D)
  nodes : List (Option Nat)

/-- Operations; the first number is the node of the table. -/
inductive Op (K D : Type) where
  | create (size : Nat)
  | fromList (kds : List (K × D))
  | insert (i : Nat) (k : K) (d : D)
  | insertn (i : Nat) (kds : List (K × D))
  | delete (i : Nat) (k : K)
  | clear (i : Nat)
  | member (i : Nat) (k : K)
  | get (i : Nat) (k : K)
  | size (i : Nat)
  | toList (i : Nat)
  | copy (i : Nat)

/-- Results: a new node that holds a table, a failure, or a value. -/
inductive Out (K D : Type) where
  | node (i : Nat)
  | fail
  | data (d : D)
  | bool (b : Bool)
  | num (n : Nat)
  | list (kds : List (K × D))
deriving DecidableEq

section
variable {K D : Type} (h : K → Nat → Nat) (eq : K → K → Bool)

/-- A node for a new table. -/
def newTab (H : Heap K D) (t : Tbl K D) : Heap K D × Out K D :=
  (⟨H.tabs ++ [t], H.nodes ++ [some H.tabs.length]⟩, .node H.nodes.length)

/-- The redex becomes a node for the changed table, and the node that held it becomes a failure
(table.c:95-96). -/
def newNode (H : Heap K D) (i a : Nat) (t : Tbl K D) : Heap K D × Out K D :=
  (⟨H.tabs.set a t, (H.nodes.set i none) ++ [some a]⟩, .node H.nodes.length)

/-- The loop of `tbl_insertn` and `list2tbl` (table.c:106-119, 254-264): the table so far, and whether all
keys were new. -/
def insertAll : Tbl K D → List (K × D) → Option (Tbl K D × Bool)
  | t, [] => some (t, true)
  | t, (k, d) :: kds => do
    match ← Lib.find h eq t k with
    | some _ => some (t, false)
    | none => insertAll (← Lib.insert h t k (some d)) kds

/-- The table of a node; `some none` is a failure.  Numbers that are not nodes do not occur. -/
def table (H : Heap K D) (i : Nat) : Option (Option (Nat × Tbl K D)) := do
  match ← H.nodes[i]? with
  | none => some none
  | some a => some (some (a, ← H.tabs[a]?))

/-- An operation on a table: a node that is a failure makes it fail (the arguments are forced). -/
def on (H : Heap K D) (i : Nat) (f : Nat → Tbl K D → Option (Heap K D × Out K D)) : Option (Heap K D × Out K D) := do
  match ← table H i with
  | none => some (H, .fail)
  | some (a, t) => f a t

/-- table.c:39-265. -/
def step (H : Heap K D) : Op K D → Option (Heap K D × Out K D)
  | .create n => do some (newTab H (← Lib.create n))
  | .fromList kds => do
    let (t, ok) ← insertAll h eq (← Lib.create kds.length) kds
    if ok then some (newTab H t) else some (H, .fail)
  | .insert i k d => on H i fun a t => do
    match ← Lib.find h eq t k with
    | some _ => some (H, .fail)
    | none => some (newNode H i a (← Lib.insert h t k (some d)))
  | .insertn i kds => on H i fun a t => do
    let (t, ok) ← insertAll h eq t kds
    if ok then some (newNode H i a t) else some ({ H with tabs := H.tabs.set a t }, .fail)
  | .delete i k => on H i fun a t => do
    match ← Lib.find h eq t k with
    | none => some (H, .fail)
    | some _ => some (newNode H i a (← Lib.delete h eq t k))
  | .clear i => on H i fun a t => do some (newNode H i a (← Lib.create t.elements))
  | .member i k => on H i fun _ t => do some (H, .bool (← Lib.find h eq t k).isSome)
  | .get i k => on H i fun _ t => do
    match ← Lib.find h eq t k with
    | none => some (H, .fail)
    | some d => some (H, .data d)
  | .size i => on H i fun _ t => some (H, .num t.elements)
  | .toList i => on H i fun _ t => some (H, .list ((Lib.scan t).filterMap fun e => e.2.map fun d => (e.1, d)))
  | .copy i => do
    let n ← H.nodes[i]?
    some ({ H with nodes := H.nodes ++ [n] }, .node H.nodes.length)

def run (H : Heap K D) : List (Op K D) → Option (List (Out K D))
  | [] => some []
  | op :: ops => do
    let (H, o) ← step h eq H op
    some (o :: (← run H ops))

end

/-! ### The keys -/

variable (E : HashEnv)

/-- Hashing to the depth `sz`, when a reference cell is hashed by `deref`. -/
def gHashWith (deref : Nat → Nat → Option Nat) (n : Nat) : Nat → V → Option Nat
  | 0, _ => some 13
  | _ + 1, .null => some 1
  | sz + 1, .cons _ x y => do
    let a ← gHashWith deref n sz x
    let b ← gHashWith deref n sz y
    some (w32 (931 * a + 137 * b) % n)
  | _ + 1, .app _ l r => some (w32 (931 * l + r) % n)
  | sz + 1, .leaf _ l => match l with
    | .str s => some (E.strPtr s % n)
    | .ref c => deref (sz + 1) c
    | l => some (leafHash E n l)

/-- `g_rec_hash_rec` cache.c:266-308 (strings are hashed by their address, reference cells by what they
hold, lists to the given depth); `fuel` bounds how many cells are followed. -/
def gHashRec (store : Nat → V) (n : Nat) : Nat → Nat → V → Option Nat
  | 0 => gHashWith E (fun _ _ => none) n
  | fuel + 1 => gHashWith E (fun sz c => gHashRec store n fuel sz (store c)) n

/-- `G_rec_hash` cache.c:310-316. -/
def gHash (store : Nat → V) (fuel : Nat) (v : V) (n : Nat) : Option Nat := gHashRec E store n fuel 10 v

end Voss.Tab
