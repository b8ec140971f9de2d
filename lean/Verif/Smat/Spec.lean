import Verif.Smat.Model
/- What symbolic matrices stand for. -/
namespace Voss.Smat
open Voss.Pre

variable {o : Order}

/-- The assignment with the number `k` in the variables `ns`, the first of which has the highest weight. -/
def load : List String → Nat → Env → Env
  | [], _, η => η
  | n :: ns, k, η => (load ns k η).set n (decide (k / 2 ^ ns.length % 2 = 1))

/-- The indices of the matrix are vectors of different variables, with the names `rn` and `cn`, that suffice for its size. -/
structure Indexed (sm : SMat o) (rn cn : List String) : Prop where
  ridx : sm.ridx = Fn.ff o :: rn.map (Fn.var o)
  cidx : sm.cidx = Fn.ff o :: cn.map (Fn.var o)
  nodup : (rn ++ cn).Nodup
  rowVar : rn ≠ []
  colVar : cn ≠ []
  rows : sm.rows ≤ 2 ^ rn.length
  cols : sm.cols ≤ 2 ^ cn.length
  some : sm.v ≠ []

/-- The value of the vector does not depend on the variable. -/
def Independent (l : List (Fn o)) (n : String) : Prop := ∀ (η : Env) b, Bv.sv l (η.set n b) = Bv.sv l η

/-- The element in row `i` and column `j`; it may depend on other variables. -/
def entry (sm : SMat o) (rn cn : List String) (η : Env) (i j : Nat) : Int := Bv.sv sm.v (load rn i (load cn j η))

/-- The elements with an index that the variables can take but that is not in the matrix are zero. -/
def ZeroOutside (sm : SMat o) (rn cn : List String) : Prop :=
  ∀ η i j, i < 2 ^ rn.length → j < 2 ^ cn.length → sm.rows ≤ i ∨ sm.cols ≤ j → entry sm rn cn η i j = 0

/-- The sum of the first `n` values. -/
def sumTo : Nat → (Nat → Int) → Int
  | 0, _ => 0
  | n + 1, f => sumTo n f + f n

/-- The number of variables that index `n` rows or columns: the smallest that suffices, at least one. -/
def Width (n w : Nat) : Prop := 0 < w ∧ n ≤ 2 ^ w ∧ ∀ w', 0 < w' → n ≤ 2 ^ w' → w ≤ w'

end Voss.Smat
