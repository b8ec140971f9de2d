import Verif.Ste.Spec
/-
Model of the ranking of components (fsm.c:6876-6925).
-/
namespace Voss.Comp
open Voss.Ste

/-- The components reading an output of component `i`, in the order in which they are visited
(fsm.c:6894-6898). -/
def readers (net : Net) (i : Nat) : List Nat :=
  match net[i]? with
  | some k => k.outs.flatMap net.fanouts
  | none => []

/-- The ranks given so far (0: none) and `max_rank`. -/
structure Ranks where
  rank : Nat → Nat
  mx : Nat

/-- The loop of `assign_rank` over the readers (fsm.c:6894-6901); `go` is the recursive call. -/
def visit (go : Nat → Ranks → Nat × Ranks) : List Nat → Nat → Ranks → Nat × Ranks
  | [], my, s => (my, s)
  | j :: js, my, s => visit go js (max (go j s).1 my) (go j s).2

/-- fsm.c:6887-6907 `assign_rank`.  The first argument is what is left of the depth limit: 1001 minus
`depth`. -/
def assign (net : Net) : Nat → Nat → Ranks → Nat × Ranks
  | 0, _, s => (1, s)
  | d+1, i, s =>
    if s.rank i ≠ 0 then (s.rank i, s)
    else
      let r := visit (assign net d) (readers net i) 1 s
      (r.1 + 1, ⟨fun j => if j = i then r.1 + 1 else r.2.rank j, max r.2.mx (r.1 + 1)⟩)

/-- fsm.c:6876-6884 `no_fanout` and the first loop of `rank_order` (6912-6919). -/
def initRanks (net : Net) : Ranks where
  rank := fun i => match net[i]? with
    | some k => if k.delay ∨ readers net i = [] then 1 else 0
    | none => 0
  mx := 1

/-- The second loop of `rank_order` (fsm.c:6920-6923). -/
def assignAll (net : Net) (lim : Nat) : List Nat → Ranks → Ranks
  | [], s => s
  | i :: is, s => assignAll net lim is (assign net lim i s).2

/-- The depth limit. -/
def rankLimit : Nat := 1000

/-- The components with their ranks. -/
def setRanks (net : Net) (s : Ranks) : Net := net.mapIdx fun i k => { k with rank := s.rank i }

/-- fsm.c:6909-6925 `rank_order`: the ranked components and the highest rank. -/
def rankOrder (net : Net) : Net × Nat :=
  let s := assignAll net rankLimit (List.range net.length) (initRanks net)
  (setRanks net s, s.mx)

/-- Components have heights below `lim` such that a component without delay is higher than those reading its
outputs: there is no zero-delay loop, and no path of more than `lim` components. -/
def Shallow (net : Net) (lim : Nat) (h : Nat → Nat) : Prop :=
  ∀ i k, net[i]? = some k → h i < lim ∧ (k.delay = false → ∀ n ∈ k.outs, ∀ j k', net[j]? = some k' → n ∈ k'.inps → h j < h i)

end Voss.Comp
