import Verif.Gc.Model
import Mathlib.Data.List.Basic
/-
Specification for the reclaiming of nodes: the graph as it would be if nothing were ever reclaimed, what can be
reached in it, and the effect of the operations of the reducer on it.
-/
namespace Voss.Gc

/-- A graph: the node at each address, and the contents of reference variables and caches. -/
structure Graph where
  obj : Nat → Obj
  tab : Bool → Nat → List Nat

/-- What can be reached from the roots: through sons, reference variables and caches. -/
inductive Live (g : Graph) (roots : List Nat) : Nat → Prop where
  | root {n : Nat} : n ∈ roots → n ≠ 0 → Live g roots n
  | kid {a n : Nat} : Live g roots a → n ∈ (g.obj a).kids → n ≠ 0 → Live g roots n
  | tab {a n : Nat} {b : Bool} {t : Nat} : Live g roots a → g.obj a = .tab b t → n ∈ g.tab b t → n ≠ 0 →
      Live g roots n

namespace Graph

def put (g : Graph) (n : Nat) (o : Obj) : Graph := { g with obj := upd g.obj n o }

def puts (g : Graph) : List (Nat × Obj) → Graph
  | [] => g
  | (n, o) :: l => puts (g.put n o) l

def setTab (g : Graph) (b : Bool) (t : Nat) (l : List Nat) : Graph :=
  { g with tab := fun b' t' => if b' = b ∧ t' = t then l else g.tab b' t' }

/-- The last arguments of `n`, the last one first. -/
def Spine (g : Graph) : Nat → List Nat → Prop
  | _, [] => True
  | n, a :: as => ∃ l, l ≠ 0 ∧ a ≠ 0 ∧ g.obj n = .app l a ∧ g.Spine l as

end Graph

/-- The contractum of a redex: the new nodes, at the given addresses, and the new contents of the redex. -/
def contractum (redex : Nat) : Comb → List Nat → List Nat → Option (List (Nat × Obj) × Obj)
  | .S, [f, g, x], [m, n] => some ([(m, .app f x), (n, .app g x)], .app m n)
  | .S', [c, f, g, x], [m, n, p] => some ([(m, .app f x), (n, .app c m), (p, .app g x)], .app n p)
  | .C, [f, x, y], [m] => some ([(m, .app f y)], .app m x)
  | .C', [c, f, g, x], [m, n] => some ([(m, .app f x), (n, .app c m)], .app n g)
  | .B, [f, g, x], [m] => some ([(m, .app g x)], .app f m)
  | .Bstar, [c, f, g, x], [m, n] => some ([(m, .app g x), (n, .app f m)], .app c n)
  | .B', [c, f, g, x], [m, n] => some ([(m, .app c f), (n, .app g x)], .app m n)
  | .Y, [f], [] => some ([], .app f redex)
  | .cons, [x, y], [] => some ([], .cons x y)
  | _, _, _ => none

/-- Number of new nodes of a contractum. -/
def Comb.news : Comb → Nat
  | .S => 2 | .S' => 3 | .C => 1 | .C' => 2 | .B => 1 | .Bstar => 2 | .B' => 2 | .Y => 0 | .cons => 0

/-- A node that can be built: a lambda is only built by the parser, and an empty head is the head of the
empty list. -/
def Obj.Ok : Obj → Prop
  | .free => False
  | .lam _ _ => False
  | .cons a b => a = 0 → b = 0
  | _ => True

/-- What happens to the graph. `roots`: references from outside of the graph; those with `true` stay forever. -/
inductive Op where
  /-- a new node, made of references held outside -/
  | link (o : Obj)
  /-- one more reference to `n` is held outside -/
  | dup (n : Nat)
  /-- `n` is protected; with `pin` forever -/
  | protect (n : Nat) (pin : Bool)
  /-- references held outside are forgotten -/
  | forget (rs : List (Nat × Bool))
  /-- a reference held outside is given back -/
  | giveUp (n : Nat)
  | collect
  /-- a redex is replaced by its contractum -/
  | fire (redex oldLeft : Nat) (c : Comb) (as : List Nat)
  /-- a redex is overwritten with the value `np` -/
  | project (redex np oldLeft lastArg : Nat)
  | cutRight (redex void oldLeft lastArg : Nat)
  | cutLeft (redex void oldLeft lastArg : Nat)
  /-- a redex is overwritten with a leaf -/
  | leaf (redex v : Nat)
  /-- a new reference variable with the value `v` -/
  | mkRef (redex v oldLeft lastArg : Nat)
  /-- the value of a reference variable -/
  | deref (redex t v lastArg : Nat)
  /-- an assignment to a reference variable -/
  | setRef (redex t v void oldLeft : Nat)
  /-- the value of a call is put into a cache -/
  | cacheInsert (redex t key np oldLeft lastArg : Nat) (kept : List Nat)
  /-- a function with a new cache -/
  | mkCache
  /-- all caches are emptied -/
  | cleanCaches (redex v oldLeft lastArg : Nat)

/-- When an operation makes sense, in terms of the plain graph. -/
def Pre (g : Graph) (roots : List (Nat × Bool)) : Op → Prop
  | .link o => o.Ok ∧ (∀ b t, o ≠ .tab b t) ∧ ((o.kids.filter (· ≠ 0)).map fun n => (n, false)).Subperm roots
  | .dup n => Live g (roots.map Prod.fst) n
  | .protect n _ => Live g (roots.map Prod.fst) n
  | .forget rs => rs.Subperm roots
  | .giveUp n => (n, false) ∈ roots
  | .collect | .mkCache => True
  | .fire redex oldLeft c as => Live g (roots.map Prod.fst) redex ∧ as.length = c.arity ∧
      g.Spine redex as.reverse ∧ g.obj redex = .app oldLeft (as.getLastD 0)
  | .project redex np oldLeft lastArg => Live g (roots.map Prod.fst) redex ∧ g.obj redex = .app oldLeft lastArg ∧
      Live g (roots.map Prod.fst) np
  | .cutRight redex void oldLeft lastArg => Live g (roots.map Prod.fst) redex ∧ g.obj redex = .app oldLeft lastArg ∧
      (void, true) ∈ roots
  | .cutLeft redex void oldLeft lastArg => Live g (roots.map Prod.fst) redex ∧ g.obj redex = .app oldLeft lastArg ∧
      (void, true) ∈ roots
  | .leaf redex _ => Live g (roots.map Prod.fst) redex
  | .mkRef redex v oldLeft lastArg => Live g (roots.map Prod.fst) redex ∧ g.obj redex = .app oldLeft lastArg ∧
      Live g (roots.map Prod.fst) v
  | .deref redex t v lastArg => Live g (roots.map Prod.fst) redex ∧ (∃ l, g.obj redex = .app l lastArg) ∧
      lastArg ≠ 0 ∧ g.obj lastArg = .tab true t ∧ v ∈ g.tab true t ∧ v ≠ 0
  | .setRef redex t v void oldLeft => Live g (roots.map Prod.fst) redex ∧ g.obj redex = .app oldLeft v ∧ v ≠ 0 ∧
      (∃ a, Live g (roots.map Prod.fst) a ∧ g.obj a = .tab true t) ∧ (void, true) ∈ roots ∧ ∃ x, g.obj void = .leaf x
  | .cacheInsert redex t key np oldLeft lastArg kept => Live g (roots.map Prod.fst) redex ∧
      g.obj redex = .app oldLeft lastArg ∧ Live g (roots.map Prod.fst) key ∧ Live g (roots.map Prod.fst) np ∧
      (∃ a, Live g (roots.map Prod.fst) a ∧ g.obj a = .tab false t) ∧ kept.Subperm (g.tab false t)
  | .cleanCaches redex _ oldLeft lastArg => Live g (roots.map Prod.fst) redex ∧ g.obj redex = .app oldLeft lastArg

/-- The effect on the plain graph, where nothing is ever reclaimed.  New nodes get the addresses `fresh 0`,
`fresh 1`, ... and a new reference variable or cache the number `newTab true` or `newTab false`. -/
def effect (fresh : Nat → Nat) (newTab : Bool → Nat) (g : Graph) : Op → Graph
  | .link o => g.put (fresh 0) o
  | .fire redex _ c as =>
    match contractum redex c as ((List.range c.news).map fresh) with
    | none => g
    | some (news, o) => (g.puts news).put redex o
  | .project redex np _ _ => g.put redex (g.obj np)
  | .cutRight redex void oldLeft _ => g.put redex (.app oldLeft void)
  | .cutLeft redex void _ lastArg => g.put redex (.app void lastArg)
  | .leaf redex v => g.put redex (.leaf v)
  | .mkRef redex v _ _ => (g.setTab true (newTab true) [v]).put redex (.tab true (newTab true))
  | .deref redex _ v _ => g.put redex (g.obj v)
  | .setRef redex t v void _ => (g.setTab true t [v]).put redex (g.obj void)
  | .cacheInsert redex t key np _ _ kept => (g.put redex (g.obj np)).setTab false t (key :: redex :: kept)
  | .mkCache => (g.setTab false (newTab false) []).put (fresh 0) (.tab false (newTab false))
  | .cleanCaches redex v _ _ => { g with tab := fun b t => if b = true then g.tab b t else [] }.put redex (.leaf v)
  | .dup _ | .protect _ _ | .forget _ | .giveUp _ | .collect => g

/-- The references held outside after an operation. -/
def rootsAfter (fresh : Nat → Nat) (roots : List (Nat × Bool)) : Op → List (Nat × Bool)
  | .link o => (fresh 0, false) :: roots.diff ((o.kids.filter (· ≠ 0)).map fun n => (n, false))
  | .mkCache => (fresh 0, false) :: roots
  | .dup n => (n, false) :: roots
  | .protect n pin => (n, pin) :: roots
  | .forget rs => rs
  | .giveUp n => roots.erase (n, false)
  | _ => roots

end Voss.Gc
