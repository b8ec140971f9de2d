import Verif.Node.Model
import Verif.Vec.Spec

/-
Specification of the nodes of a circuit: a declared vector names the bits that one gets by choosing an index in each
group, in the order in which they are written, and has one node for each of them.
-/
namespace Voss.Node
open Voss.Vec

/-- The nodes of runs in order. -/
def nodesOf (m : List Run) : List Int := m.flatMap fun r => Rng.bits ⟨r.frm, r.to⟩

/-- Runs of nodes with their sizes. -/
def Runs (m : List Run) : Prop := ∀ r ∈ m, r.size = (r.to - r.frm).natAbs + 1 ∧ 0 ≤ r.frm ∧ 0 ≤ r.to

/-- A signal of the circuit: the instance it is in, the text before the first index, the rest of the name; and for a
formal of an instance the nodes of its actuals. -/
structure Sg where
  hier : List Char
  base : List Char
  rest : Vec
  act : Option (List Run)

/-- The name in the module, and the full name. -/
def Sg.name (x : Sg) : Vec := .txt x.base :: x.rest
def Sg.full (x : Sg) : Vec := .txt (x.hier ++ x.base) :: x.rest

/-- The bits of a signal in order, with full names. -/
def Sg.bits (x : Sg) : List Vec := expand x.full

/-- The declaration. -/
def Sg.decl (x : Sg) : Decl := ⟨x.hier, vecText x.name, x.act⟩

/-- All ranges from the higher to the lower index. -/
def Down : Vec → Prop
  | [] => True
  | .txt _ :: v => Down v
  | .idx rs :: v => (∀ r ∈ rs, r.lo ≤ r.up) ∧ Down v

/-- All ranges after the first group. -/
def TailDown : Vec → Prop
  | [] => True
  | .txt _ :: v => TailDown v
  | .idx _ :: v => Down v

/-- The signals for which names work: well-formed without an asterisk, ranges after the first group from the higher to
the lower index (adjacent ranges joined). -/
structure Sg.Ok (x : Sg) : Prop where
  wfName : WF x.name
  wf : WF x.full
  inner : Inners x.full
  star : '*' ∉ vecText x.full
  down : TailDown (norm x.rest)
  act : ∀ m, x.act = some m → Runs m

/-- The signals of a circuit: no bit is declared twice. -/
structure Circuit (xs : List Sg) : Prop where
  ok : ∀ x ∈ xs, x.Ok
  once : (xs.flatMap Sg.bits).Nodup

/-- `n` is the node of the bit `b` of the vector `v`, which has the nodes `m`: both are at the same place. -/
def NodeOf (v : Vec) (m : List Run) (b : Vec) (n : Int) : Prop :=
  ∃ k : Nat, (expand v)[k]? = some b ∧ (nodesOf m)[k]? = some n

/-- The vectors declared in a module. -/
structure Table (es : List Info) : Prop where
  wf : ∀ e ∈ es, WF e.decl
  star : ∀ e ∈ es, '*' ∉ vecText e.decl
  down : ∀ e ∈ es, TailDown e.decl
  runs : ∀ e ∈ es, Runs e.map
  len : ∀ e ∈ es, (nodesOf e.map).length = (expand e.decl).length
  once : (es.flatMap fun e => expand e.decl).Nodup

end Voss.Node
