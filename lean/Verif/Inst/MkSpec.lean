import Verif.Inst.FpSpec
import Verif.Inst.ShaSpec
import Verif.Inst.Mk

/-
Specification: the instances that state assertions.
-/
namespace Voss.Inst
open Hier

/-- The instance has one output pin, whose first actual is `n`, one bit, and has `assert__` in its name. -/
def Asserts (k : Kid) (n : Name) : Prop :=
  ∃ f acts, k.outs = [⟨f, n :: acts⟩] ∧ Vec.mdSize n = some 1 ∧ "assert__".toList <:+: n

/-- If there is one output pin, it has a first actual, with a size. -/
def Connected (k : Kid) : Prop := ∀ q, k.outs = [q] → ∃ n acts s, q.acts = n :: acts ∧ Vec.mdSize n = some s

/-- No two instances state the same assertion. -/
def Distinct (ks : List Kid) : Prop := ks.Pairwise fun a b => ∀ n, Asserts a n → ¬ Asserts b n

/-- Assertions of instances that are neither internal signals nor outputs. -/
def Undeclared (outs : List Pin) (ints : List Name) (ks : List Kid) (n : Name) : Prop :=
  (∃ k ∈ ks, Asserts k n) ∧ n ∉ ints ∧ ∀ q ∈ outs, q.formal ≠ n

/-- The attribute is none that the making of an instance sets. -/
def Other (a : Name × Name) : Prop := a.1 ≠ "FP".toList ∧ a.1 ≠ "SHA".toList

instance (a : Name × Name) : Decidable (Other a) := inferInstanceAs (Decidable (_ ∧ _))

end Voss.Inst
