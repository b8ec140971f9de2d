import Verif.Vec.MergeSpec
import Verif.Hier.Adj

/- Specification of the adjacencies. -/
namespace Voss.Hier
open Vec

/-- One range from the highest index down in every group. -/
def Singles : Vec → Prop
  | [] => True
  | .txt _ :: v => Singles v
  | .idx rs :: v => (∃ r : Rng, rs = [r] ∧ r.lo ≤ r.up) ∧ Singles v

/-- Names of vectors with one range from the highest index down in every group. -/
def Single (s : Name) : Prop :=
  ∃ v, WF v ∧ Inners v ∧ Singles v ∧ vecText v = s ∧ '*' ∉ s ∧ ∀ cs, s ≠ '0' :: 'b' :: cs

/-- The instance with a number, from 1 on. -/
def kid (p : Pex) (i : Nat) : Option Pex := p.kids.bind fun ks => ks[i - 1]?

/-- The names that instance `i` drives; number 0 stands for the surroundings. -/
def drives (p : Pex) (i : Nat) : List Name :=
  if i = 0 then p.inps.map Pin.formal else match kid p i with
    | some k => k.outs.flatMap Pin.acts
    | none => []

/-- The names that instance `i` reads. -/
def reads (p : Pex) (i : Nat) : List Name :=
  if i = 0 then p.outs.map Pin.formal else match kid p i with
    | some k => k.inps.flatMap Pin.acts
    | none => []

/-- The names have a bit in common. -/
def Share (n m : Name) : Prop := ∃ l l' b, mdExpand n = some l ∧ mdExpand m = some l' ∧ b ∈ l ∧ b ∈ l'

/-- All names are of the kind for which overlaps are found. -/
structure Tame (p : Pex) : Prop where
  drives : ∀ i, ∀ n ∈ drives p i, Single n
  reads : ∀ i, ∀ n ∈ reads p i, Single n ∨ IsConstant n

end Voss.Hier
