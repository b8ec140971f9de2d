import Verif.Sha.Graph
import Mathlib.Data.List.Forall2

/- Specification: when two values are the same, up to the addresses of their nodes. -/
namespace Voss.Sha

/-- Two nodes are alike when they have the same label and `R` relates what they point to; `S` relates the contents of
references. -/
inductive NodeRel (R S : Addr → Addr → Prop) : Node → Node → Prop where
  | nil : NodeRel R S .nil .nil
  | lam (v) {b b'} : R b b' → NodeRel R S (.lam v b) (.lam v b')
  | app {l l' r r'} : R l l' → R r r' → NodeRel R S (.app l r) (.app l' r')
  | cons {l l' r r'} : R l l' → R r r' → NodeRel R S (.cons l r) (.cons l' r')
  | int (z) : NodeRel R S (.int z) (.int z)
  | str (s) : NodeRel R S (.str s) (.str s)
  | ext (s) : NodeRel R S (.ext s) (.ext s)
  | fmt (f s) : NodeRel R S (.fmt f s) (.fmt f s)
  | ref (r) {c c'} : S c c' → NodeRel R S (.ref r c) (.ref r c')
  | prim (s) : NodeRel R S (.prim s) (.prim s)
  | var (s) : NodeRel R S (.var s) (.var s)
  | userdef (s) : NodeRel R S (.userdef s) (.userdef s)

/-- The graphs below two roots are the same, sharing included, except that `S` is all that is asked of the contents of
references. -/
structure SameGraph (S : (Addr → Addr → Prop) → Addr → Addr → Prop) (h h' : Heap) (a a' : Addr) (R : Addr → Addr → Prop) :
    Prop where
  root : R a a'
  node : ∀ x y, R x y → NodeRel R (S R) (h x) (h' y)
  right : ∀ x y z, R x y → R x z → y = z
  left : ∀ x y z, R x z → R y z → x = y

/-- The nodes below a root. -/
inductive Reach (h : Heap) (root : Addr) : Addr → Prop where
  | root : Reach h root root
  | step {a b} : Reach h root a → b ∈ (h a).kids → Reach h root b

/-- The text in a node. -/
def Node.text : Node → Text
  | .lam v _ => v
  | .str s => s
  | .ext s => s
  | .fmt _ s => s
  | .prim s => s
  | .var s => s
  | .userdef s => s
  | _ => []

/-- No null pointer below the root, and every text is without newlines and of characters of one byte. -/
def Clean (h : Heap) (root : Addr) : Prop :=
  ∀ a, Reach h root a → a ≠ 0 ∧ ∀ c ∈ (h a).text, c ≠ '\n' ∧ c.toNat < 256

end Voss.Sha
