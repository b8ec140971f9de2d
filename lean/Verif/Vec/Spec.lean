import Verif.Vec.Model

/-
Specification of vector names: a name is written from segments, and names the bits that one gets by choosing one index
in each index group.
-/
namespace Voss.Vec

/-- A range as text. -/
def Rng.text (r : Rng) : List Char := if r.up = r.lo then decimal r.up else decimal r.up ++ ':' :: decimal r.lo

def rngsText : List Rng → List Char
  | [] => []
  | [r] => r.text
  | r :: rs => r.text ++ ',' :: rngsText rs

/-- A vector as text. -/
def Seg.text : Seg → List Char
  | .txt s => s
  | .idx rs => rngsText rs

def vecText (v : Vec) : List Char := v.flatMap Seg.text

/-- An escaped identifier. -/
def Esc (s : List Char) : Prop := ∃ b, s = '\\' :: b ++ [' '] ∧ ' ' ∉ b

/-- Ordinary text: it does not look like an escaped identifier, and there is no index in it. -/
structure Txt (s : List Char) : Prop where
  ne : s ≠ []
  noIdx : valid .item s = false
  noEsc : s.head? ≠ some '\\'
  whole : text s = (s, [])

/-- Segments in the form in which names are read: indices stand between `[` and `]`, or before `]` at the beginning or
after an escaped identifier. -/
def WF : Vec → Prop
  | [] => True
  | .idx rs :: v => rs ≠ [] ∧ (∀ r ∈ rs, isInt r.up = true ∧ isInt r.lo = true) ∧
      (∃ t v', v = .txt (']' :: t) :: v') ∧ WF v
  | .txt s :: v =>
    (Esc s ∨ (Txt s ∧ (v = [] ∨ ((∃ t, s = t ++ ['[']) ∧ ∃ rs v', v = .idx rs :: v')))) ∧ WF v

/-- Adjacent ranges joined. -/
def norm (v : Vec) : Vec := v.map fun
  | .txt s => .txt s
  | .idx rs => .idx (mergeIndices rs)

/-- `Selects v b`: the bit `b` is got from `v` by choosing an index between the bounds of a range in each group. -/
inductive Selects : Vec → Vec → Prop
  | nil : Selects [] []
  | txt (s v b) : Selects v b → Selects (.txt s :: v) (.txt s :: b)
  | idx (rs v b) (r : Rng) (i : Int) : r ∈ rs → (r.lo ≤ i ∧ i ≤ r.up ∨ r.up ≤ i ∧ i ≤ r.lo) → Selects v b →
      Selects (.idx rs :: v) (.idx [⟨i, i⟩] :: b)

/-- No index occurs twice in a group. -/
def Simple : Vec → Prop
  | [] => True
  | .txt _ :: v => Simple v
  | .idx rs :: v => (rs.flatMap Rng.bits).Nodup ∧ Simple v

/-- Indices strictly inside the range of `int`. -/
def Inner (r : Rng) : Prop :=
  (-2147483648 < r.up ∧ r.up < 2147483647) ∧ (-2147483648 < r.lo ∧ r.lo < 2147483647)

def Inners : Vec → Prop
  | [] => True
  | .txt _ :: v => Inners v
  | .idx rs :: v => (∀ r ∈ rs, Inner r) ∧ Inners v

/-- An ordinary base name. -/
def Plain (base : List Char) : Prop := base ≠ [] ∧ base.head? ≠ some '\\' ∧ '[' ∉ base ∧ ']' ∉ base

/-- All indices of a group, in order. -/
def written (rs : List Rng) : List Int :=
  rs.flatMap fun r => (List.range ((r.up - r.lo).natAbs + 1)).map fun (k : Nat) =>
    if r.lo ≤ r.up then r.up - (k : Int) else r.up + (k : Int)

end Voss.Vec
