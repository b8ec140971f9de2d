import Verif.Vec.MergeSpec
import Verif.Hier.Model

/- Specification of the connections in a circuit hierarchy. -/
namespace Voss.Hier
open Vec

/-- The bits of a formal, each with the bit it is connected to. -/
def connPin (p : Pin) : Option (List (Name × Name)) := do
  let fs ← mdExpand p.formal
  let as ← mdExpandAll p.acts
  if fs.length = as.length then some (fs.zip as) else none

/-- The connections of a list of formals. -/
def conn : List Pin → Option (List (Name × Name))
  | [] => some []
  | p :: ps => do let a ← connPin p; let b ← conn ps; some (a ++ b)

/-- One bit of a constant. -/
def ConstBit (b : Name) : Prop := ∃ c, (c = '0' ∨ c = '1' ∨ c = 'x') ∧ b = ['0', 'b', c]

/-- Names that begin with ordinary text and have at most one index group, with a single range or ranges from the highest
index down. -/
def Ordinary (s : Name) : Prop :=
  ∃ t w, WF (.txt t :: w) ∧ Inners w ∧ (OneDim (.txt t :: w) ∧ Tidies w) ∧ vecText (.txt t :: w) = s ∧ '*' ∉ s ∧
    (∀ cs, s ≠ '0' :: 'b' :: cs) ∧ t.head? ≠ some '\\'

/-- Where a bit inside the instance ends up: at the bit outside that it is connected to, or under its new name. -/
def via (kc : List (Name × Name)) (ρ : Name → Name) (n : Name) : Name := (kc.lookup n).getD (ρ n)

/-- The instance `g` with its connections led outside. -/
structure Rewired (kc : List (Name × Name)) (ρ : Name → Name) (attrs : List (Name × Name)) (g g' : Pex) : Prop where
  name : g'.name = g.name
  attrs : g'.attrs = g.attrs ++ attrs
  leaf : g'.leaf = g.leaf
  inter : g'.inter = g.inter
  kids : g'.kids = g.kids
  fns : g'.fns = g.fns
  inFormals : g'.inps.map Pin.formal = g.inps.map Pin.formal
  outFormals : g'.outs.map Pin.formal = g.outs.map Pin.formal
  inps : conn g'.inps = (conn g.inps).map fun c => c.map fun x => (x.1, via kc ρ x.2)
  outs : conn g'.outs = (conn g.outs).map fun c => c.map fun x => (x.1, via kc ρ x.2)

/-- All names written in the connections. -/
def pinActs (g : Pex) : List Name := (g.inps ++ g.outs).flatMap Pin.acts

/-- The names an instance declares. -/
def declared (p : Pex) : List Name := p.inps.map Pin.formal ++ p.outs.map Pin.formal ++ p.inter

end Voss.Hier
