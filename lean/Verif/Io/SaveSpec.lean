import Verif.Io.Save
/-
What saving and loading should do: the loaded graph is a copy of the saved one.
-/
namespace Voss.Io.Save
open Voss.Arbi

/-- The nodes that can be reached from `p` through applications, pairs and the contents of references. -/
inductive Reach (M : Mem) (p : Nat) : Nat → Prop where
  | refl : Reach M p p
  | step {x k : Nat} {nd : Node} : Reach M p x → M.heap x = some nd → k ∈ kids M nd → Reach M p k

/-- A node and its copy.  `m` gives the copy of each node, `M` is the program that saves, `M0` and `M1` are the
program that loads, before and after.  `RB` and `RE` say which BDDs and which bexprs stand for the same function.
The copy of a reference is a new variable that holds the copy of its contents, the copy of a cache is a new cache,
and the copy of a stream is an open stream of that name. -/
inductive Same (RB RE : Nat → Nat → Prop) (M M0 M1 : Mem) (m : Nat → Nat) : Node → Node → Prop where
  | app (l r) : Same RB RE M M0 M1 m (.app l r) (.app (m l) (m r))
  | nil : Same RB RE M M0 M1 m .nil .nil
  | cons (h t) : Same RB RE M M0 M1 m (.cons h t) (.cons (m h) (m t))
  | int (z) : Same RB RE M M0 M1 m (.int z) (.int z)
  | str (s) : Same RB RE M M0 M1 m (.str s) (.str s)
  | bool (f f') : RB f f' → Same RB RE M M0 M1 m (.bool f) (.bool f')
  | bexpr (f f') : RE f f' → Same RB RE M M0 M1 m (.bexpr f) (.bexpr f')
  | text (k s) : Same RB RE M M0 M1 m (.text k s) (.text k s)
  | file (id id' n) : nameOf M id = some n → (id', n) ∈ M0.streams → Same RB RE M M0 M1 m (.file id) (.file id')
  | ref (v v') : M0.nref ≤ v' → v' < M1.nref → M1.refs v' = m (M.refs v) → Same RB RE M M0 M1 m (.ref v) (.ref v')
  | cache (c c') : M0.ncache ≤ c' → c' < M1.ncache → Same RB RE M M0 M1 m (.cache c) (.cache c')
  | extapi (n) : Same RB RE M M0 M1 m (.extapi n) (.extapi n)
  | prim (n) : Same RB RE M M0 M1 m (.prim n) (.prim n)

/-- `redex` has become a copy of `p`: there is a map from the nodes that can be reached from `p` to new nodes that
is one to one (so sharing and cycles are kept, and nothing else is shared), each node is the copy of its origin,
and the rest of the loading program is as before. -/
structure Copy (RB RE : Nat → Nat → Prop) (M : Mem) (p : Nat) (M0 M1 : Mem) (redex : Nat) (m : Nat → Nat) : Prop where
  inj : ∀ x y, Reach M p x → Reach M p y → m x = m y → x = y
  new : ∀ x, Reach M p x → M0.heap (m x) = none
  same : ∀ x nd, Reach M p x → M.heap x = some nd → ∃ nd', M1.heap (m x) = some nd' ∧ Same RB RE M M0 M1 m nd nd'
  root : M1.heap redex = M1.heap (m p)
  heap : ∀ y, M0.heap y ≠ none → y ≠ redex → M1.heap y = M0.heap y
  refs : ∀ v < M0.nref, M1.refs v = M0.refs v
  streams : M1.streams = M0.streams

/-- References stay different: two copies use the same variable only if they are copies of one node. -/
def RefsApart (M : Mem) (p : Nat) (M1 : Mem) (m : Nat → Nat) : Prop :=
  ∀ x y v, Reach M p x → Reach M p y → M1.heap (m x) = some (.ref v) → M1.heap (m y) = some (.ref v) → x = y

/-- The whole property for references: two copies are the same variable exactly if the originals are. -/
def RefsKept (M : Mem) (p : Nat) (M1 : Mem) (m : Nat → Nat) : Prop :=
  ∀ x y v w v' w', Reach M p x → Reach M p y → M.heap x = some (.ref v) → M.heap y = some (.ref w) →
    M1.heap (m x) = some (.ref v') → M1.heap (m y) = some (.ref w') → (v' = w' ↔ v = w)

/-- The texts that a node puts into the file `strings`. -/
def texts (M : Mem) : Node → List (List Char)
  | .int z => [renderInt 10 z]
  | .str s => [s]
  | .text _ s => [s]
  | .var s => [s]
  | .file id => (nameOf M id).toList
  | _ => []

/-- The graph at `p` is within the finite set `D`, and has no dangling pointers. -/
def Graph (M : Mem) (p : Nat) (D : List Nat) : Prop :=
  ∀ x, Reach M p x → x ∈ D ∧ x ≠ 0 ∧ ∃ nd, M.heap x = some nd

/-- The program that loads: new nodes have addresses not in use, and the standard streams are open. -/
structure Ready (M0 : Mem) (alloc : Nat → Nat) (redex : Nat) : Prop where
  inj : ∀ i j, alloc i = alloc j → i = j
  pos : ∀ i, alloc i ≠ 0
  free : ∀ i, M0.heap (alloc i) = none
  used : M0.heap redex ≠ none
  std : ∀ n ∈ stdNames, ∃ id, (id, n) ∈ M0.streams

/-- The BDDs and bexprs that the archive gives back stand for the same functions, index by index. -/
def Back (R : Nat → Nat → Prop) (l l' : List Nat) : Prop :=
  ∀ (i f : Nat), l[i]? = some f → ∃ f', l'[i]? = some f' ∧ R f f'

end Voss.Io.Save
