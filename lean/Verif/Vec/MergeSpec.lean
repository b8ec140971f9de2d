import Verif.Vec.Spec

/- Specification of merging. -/
namespace Voss.Vec

/-- A constant: `0b` and at least one digit. -/
def IsConstant (s : List Char) : Prop := ∃ cs, s = '0' :: 'b' :: cs ∧ cs ≠ [] ∧ ∀ c ∈ cs, c = '0' ∨ c = '1' ∨ c = 'x'

/-- The names that are merged: constants, and names of vectors without an asterisk that do not begin with `0b`. -/
inductive Proper (s : List Char) : Prop
  | const : IsConstant s → Proper s
  | vec (v : Vec) : WF v → Inners v → vecText v = s → '*' ∉ s → (∀ cs, s ≠ '0' :: 'b' :: cs) → Proper s

def Seg.isIdx : Seg → Bool
  | .idx _ => true
  | .txt _ => false

/-- At most one index group. -/
def OneDim (v : Vec) : Prop := (v.filter Seg.isIdx).length ≤ 1

/-- The names that are merged in order: constants, and names with at most one index group. -/
inductive Proper1 (s : List Char) : Prop
  | const : IsConstant s → Proper1 s
  | vec (v : Vec) : WF v → Inners v → OneDim v → vecText v = s → '*' ∉ s → (∀ cs, s ≠ '0' :: 'b' :: cs) → Proper1 s

/-- Ranges that are written from the highest index down, one after the other with highest indices that do not increase;
they may share indices. -/
def Descending : List Rng → Prop
  | [] => True
  | [r] => r.lo ≤ r.up
  | r :: r' :: rs => r.lo ≤ r.up ∧ r'.up ≤ r.up ∧ Descending (r' :: rs)

/-- A single range, or ranges from the highest index down. -/
def Tidy (rs : List Rng) : Prop := (∃ r, rs = [r] ∧ r ≠ ⟨-1, 0⟩) ∨ Descending rs

def Tidies : Vec → Prop
  | [] => True
  | .txt _ :: v => Tidies v
  | .idx rs :: v => Tidy rs ∧ Tidies v

/-- The names from which vectors are extracted. -/
inductive ProperE (s : List Char) : Prop
  | const : IsConstant s → ProperE s
  | vec (v : Vec) : WF v → Inners v → Tidies v → vecText v = s → '*' ∉ s → (∀ cs, s ≠ '0' :: 'b' :: cs) → ProperE s

end Voss.Vec
