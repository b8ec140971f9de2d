import Verif.Slist.Model
/-
What a symbolic list stands for: one list for every assignment of the variables.
-/
namespace Voss.Slist
open Voss.Pre

variable {o : Order} {V A : Type}

/-- The list for an assignment; `den` gives the value of an element for an assignment. -/
def den (d : V → Env → A) : SList o V → Env → List A
  | .none, _ => []
  | .node leaf hd tl, η =>
    if leaf.ev η then []
    else match hd with
      | some h => d h η :: den d tl η
      | none => []

/-- Lists as the functions of the library make them: where the list may go on, there is an element and the rest of the
list; the elements are good. -/
def Sound (G : V → Prop) : SList o V → Prop
  | .none => True
  | .node leaf hd tl => (leaf ≠ Fn.tt o → hd ≠ none ∧ tl ≠ .none) ∧ (∀ h, hd = some h → G h) ∧ Sound G tl

/-- Symbolic lists. -/
def IsList (G : V → Prop) (x : SList o V) : Prop := x ≠ .none ∧ Sound G x

/-- What is assumed of the elements: what a symbolic conditional makes of two good values is good, and has the value of
the one or the other. -/
structure Means (m : Fn o → V → V → Out V) (G : V → Prop) (d : V → Env → A) : Prop where
  right : ∀ c x y z, G x → G y → m c x y = .ok z → G z ∧ ∀ η, d z η = if c.ev η then d x η else d y η
  stops : ∀ c x y, m c x y ≠ .more

/-- All good values can be merged. -/
def Total (m : Fn o → V → V → Out V) (G : V → Prop) : Prop := ∀ c x y, G x → G y → ∃ z, m c x y = .ok z

/-- What an evaluation is to do: its value has the property; it comes to an end; it does not fail if `T`. -/
def Computes {α : Type} (x : Out α) (T : Prop) (P : α → Prop) : Prop :=
  (∀ a, x = .ok a → P a) ∧ x ≠ .more ∧ (T → x ≠ .fail)

/-- The length does not depend on variables. -/
def Scalar : SList o V → Prop
  | .none => True
  | .node leaf _ tl => (leaf = Fn.tt o ∨ leaf = Fn.ff o) ∧ Scalar tl

/-- The integers from `a` to `b`. -/
def ints (a b : Int) : List Int := (List.range (b - a + 1).toNat).map fun (i : Nat) => a + (i : Int)

end Voss.Slist
