import Verif.Lp.Model

/-! What systems of linear constraints mean, without any method to solve them. -/
namespace Voss.Lp

/-- The six relations. -/
def Holds (rel : List Char) (a b : ℚ) : Prop :=
  (rel = "=".toList ∧ a = b) ∨ (rel = "<>".toList ∧ a ≠ b) ∨ (rel = "<".toList ∧ a < b) ∨ (rel = ">".toList ∧ b < a) ∨
    (rel = "<=".toList ∧ a ≤ b) ∨ (rel = ">=".toList ∧ b ≤ a)

/-- The left side of a constraint. -/
def Con.value (c : Con) (x : List ℚ) : ℚ := (List.zipWith (fun (k : Int) y => (k : ℚ) * y) c.coefs x).sum

def Solves (cs : List Con) (x : List ℚ) : Prop := ∀ c ∈ cs, c.coefs.length = x.length ∧ Holds c.rel (c.value x) c.const

/-- Some rational values of the variables meet all constraints. -/
def Feasible (cs : List Con) : Prop := ∃ x : List ℚ, Solves cs x

/-- The relation is one of the given texts. -/
def Uses (cs : List Con) (rels : List String) : Prop := ∀ c ∈ cs, ∃ r ∈ rels, c.rel = r.toList

/-- No equation follows from others up to its constant: if equations with weights add up to the coefficients 0, all weights
are 0. -/
def Independent (cs : List Con) : Prop :=
  ∀ w : List (ℚ × Con), w.map Prod.snd = cs.filter (fun c => c.rel == "=".toList) →
    (∀ x : List ℚ, (w.map fun p => p.1 * p.2.value x).sum = 0) → ∀ p ∈ w, p.1 = 0

/-- For each variable there is a constraint that says that it is not negative. -/
def Signed (cs : List Con) (n : Nat) : Prop :=
  ∀ j, j < n → ∃ c ∈ cs, c.rel = ">=".toList ∧ c.const = 0 ∧ ∀ k, c.coefs.getD k 0 = if k = j then 1 else 0

end Voss.Lp
