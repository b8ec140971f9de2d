import Verif.Fl.Heap
import Verif.Fl.PatSpec
/-
What a heap means, independently of the reducer: every node has, for every assignment of the Boolean
variables, a value in a model of the language.
-/
namespace Voss.Fl
variable {B E D : Type}

/-- The value of a scalar for an assignment. -/
def Scalar.val (A : Alg D) (bs : Bools B E) (e : E) : Scalar B → D
  | .int n => A.con (.int n)
  | .str s => A.con (.str s)
  | .bool f => A.bool (bs.sat f e)

/-- What the model of the language has to say beyond `Data`: `=` on Booleans; a function with too few
arguments is no pattern match failure; the external functions compute, for every assignment, what the
language says they do. -/
structure Ops (A : Alg D) (dt : Data A) (bs : Bools B E) (ext : Ext B) : Prop where
  equal_bool : ∀ a b, A.app (A.app (A.con .equal) (A.bool a)) (A.bool b) = A.bool (a == b)
  proper_part : ∀ c ds, c ≠ .pfail → ds.length < arity ext.arity c → dt.proper (A.apps (A.con c) ds)
  run : ∀ p ss s e, ss.length = ext.arity p → ext.run p ss = some s →
    A.apps (A.con (.prim p)) (ss.map (Scalar.val A bs e)) = s.val A bs e

/-- What a node says about the values `v`.  A failure says nothing. -/
def Holds (A : Alg D) (bs : Bools B E) (size : Nat) (v : Nat → E → D) (n : Nat) : Node B → Prop
  | .app l r => l < size ∧ r < size ∧ ∀ e, v n e = A.app (v l e) (v r e)
  | .cons h t => h < size ∧ t < size ∧ ∀ e, v n e = A.pair (v h e) (v t e)
  | .con c => ∀ e, v n e = A.con c
  | .bool f => ∀ e, v n e = A.bool (bs.sat f e)
  | .fail => True
  | .hole => True

/-- `v` gives the values of the nodes of the heap. -/
def Describes (A : Alg D) (bs : Bools B E) (v : Nat → E → D) (st : St B) : Prop :=
  ∀ n nd, st.node n = some nd → Holds A bs st.size v n nd

/-- Printable values. -/
inductive Dat where
  | int (n : Int)
  | str (s : Name)
  | bool (b : Bool)
  | nil
  | cons (h t : Dat)

/-- A printable value as a value of the language. -/
def Dat.val (A : Alg D) : Dat → D
  | .int n => A.con (.int n)
  | .str s => A.con (.str s)
  | .bool b => A.bool b
  | .nil => A.con .nil
  | .cons h t => A.pair (h.val A) (t.val A)

/-- The node of the heap is the printable value, for the assignment `e`. -/
def Reads (bs : Bools B E) (st : St B) (e : E) : Nat → Dat → Prop
  | n, .int i => st.node n = some (.con (.int i))
  | n, .str s => st.node n = some (.con (.str s))
  | n, .bool b => ∃ f, st.node n = some (.bool f) ∧ bs.sat f e = b
  | n, .nil => st.node n = some (.con .nil)
  | n, .cons a b => ∃ h t, st.node n = some (.cons h t) ∧ Reads bs st e h a ∧ Reads bs st e t b

/-- `n` is the primitive `c` applied to the nodes `as`. -/
inductive Part (st : St B) : Nat → Con → List Nat → Prop where
  | con {n c} : st.node n = some (.con c) → Part st n c []
  | app {n l r c as} : st.node n = some (.app l r) → Part st l c as → Part st n c (as ++ [r])

/-- Evaluated nodes: weak head normal form. -/
inductive Whnf (ar : Nat → Nat) (st : St B) : Nat → Prop where
  | cons {n h t} : st.node n = some (.cons h t) → Whnf ar st n
  | bool {n f} : st.node n = some (.bool f) → Whnf ar st n
  | fail {n} : st.node n = some .fail → Whnf ar st n
  | leaf {n c} : st.node n = some (.con c) → c.isLeaf = true → Whnf ar st n
  | part {n c as} : Part st n c as → as.length < arity ar c → Whnf ar st n

/-- Marked nodes are evaluated. -/
def Inv (ar : Nat → Nat) (st : St B) : Prop := ∀ n, st.forced n = true → Whnf ar st n

/-- `m` is `n` or a part of the list or pair `n`. -/
inductive Within (st : St B) : Nat → Nat → Prop where
  | self (n) : Within st n n
  | head {n h t m} : st.node n = some (.cons h t) → Within st h m → Within st n m
  | tail {n h t m} : st.node n = some (.cons h t) → Within st t m → Within st n m

/-- Every part is evaluated, and none is a failure. -/
def Full (ar : Nat → Nat) (st : St B) (n : Nat) : Prop :=
  ∀ m, Within st n m → Whnf ar st m ∧ st.node m ≠ some .fail

end Voss.Fl
