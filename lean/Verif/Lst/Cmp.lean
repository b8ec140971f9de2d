import Verif.Lst.Model
/-
Model and specification of `gcmp`, the comparison of arbitrary values (`Graph_cmp` list_ops.c:108-199).
-/
namespace Voss.Lst

/-- Values, fully evaluated (graph.h:186-189, 290-298).  Formulas, expressions and external objects are given by their
handle or address; `prim` is a primitive function with its number and what its node carries besides; `ext` a
builtin, `fmt` a `printf`-like function with its format, `cell` a reference variable. -/
inductive V where
  | nil
  | cons (h t : V)
  | app (l r : V)
  | int (z : Int)
  | str (s : List Nat)
  | bool (f : Nat)
  | bexpr (addr : Nat)
  | obj (cls addr : Nat)
  | prim (k payload : Nat)
  | ext (k : Nat)
  | fmt (p : Nat) (s : List Nat)
  | cell (i : Nat)
deriving DecidableEq

/-- `GET_TYPE`, `GET_LEAF_TYPE` (graph.h:186-189, 290-298), combined. -/
def V.kind : V → Nat × Nat
  | .app _ _ => (1, 0)
  | .nil | .cons _ _ => (2, 0)
  | .int _ => (3, 0)
  | .str _ => (3, 1)
  | .bool _ => (3, 2)
  | .bexpr _ => (3, 3)
  | .obj _ _ => (3, 4)
  | .prim _ _ | .ext _ | .fmt _ _ | .cell _ => (3, 5)

/-- `GET_PRIM_FN`; P_EXTAPI_FN is 119, P_REF_VAR is 98 (graph.h:513-536). -/
def V.code : V → Nat
  | .prim k _ => k
  | .ext _ => 119
  | .fmt p _ => p
  | .cell _ => 98
  | _ => 0

/-- `strcmp`; only its sign is specified. -/
def strcmp : List Nat → List Nat → Int
  | [], [] => 0
  | [], _ :: _ => -1
  | _ :: _, [] => 1
  | a :: s, b :: t => if a < b then -1 else if b < a then 1 else strcmp s t

/-- Conversion of a 64 bit word to `int`. -/
def toInt (w : Nat) : Int := (w : Int).bmod (2 ^ 32)

/-- Subtraction of `int`s; an overflow is undefined. -/
def sub32 (a b : Int) : Res Int := if -2147483648 ≤ a - b ∧ a - b < 2147483648 then .ok (a - b) else .ub

/-- `Arbi_cmp` (proved in Verif/Arbi to compare the values). -/
def icmp (a b : Int) : Int := if a < b then -1 else if b < a then 1 else 0

/-- The part of `Graph_cmp` for nodes of one kind, list_ops.c:119-193; `go` is the recursive call.  Comparing a builtin,
a format function or a reference variable with another primitive reads a field of the node that has another
meaning, for a format function as a pointer; this is `ub`. -/
def cmpSame (contents : Nat → V) (go : V → V → Res Int) : V → V → Res Int
  | .nil, .nil => .ok 0
  | .nil, _ => .ok (-1)
  | .cons _ _, .nil => .ok 1
  | .cons h t, .cons h' t' => match go h h' with
    | .ok z => if z ≠ 0 then .ok z else go t t'
    | r => r
  | .app l r, .app l' r' => match go l l' with
    | .ok z => if z ≠ 0 then .ok z else go r r'
    | r => r
  | .int x, .int y => .ok (icmp x y)
  | .str s, .str t => .ok (strcmp s t)
  | .bool f, .bool g => sub32 (toInt f) (toInt g)
  | .bexpr p, .bexpr q => sub32 (toInt p) (toInt q)
  | .obj c p, .obj d q => if c ≠ d then .ok ((c : Int) - d) else sub32 (toInt p) (toInt q)
  | .ext i, .ext j => sub32 (toInt i) (toInt j)
  | .fmt _ s, .fmt _ t => .ok (strcmp s t)
  | .cell i, .cell j => go (contents i) (contents j)
  | .prim k _, b => .ok ((k : Int) - b.code)
  | _, _ => .ub

/-- `Graph_cmp` list_ops.c:108-199, with a bound on the depth of the calls and `goto`s.  `contents` are the values of
the reference variables.  The shortcut for identical nodes is left out: it gives what the comparison
gives (`c67_order_partial` with `a = b`). -/
def cmp (contents : Nat → V) : Nat → V → V → Res Int
  | 0, _, _ => .more
  | n + 1, a, b =>
    if a.kind.1 ≠ b.kind.1 then .ok ((a.kind.1 : Int) - b.kind.1)
    else if a.kind.2 ≠ b.kind.2 then .ok ((a.kind.2 : Int) - b.kind.2)
    else cmpSame contents (cmp contents n) a b

/-! ### Specification -/

/-- Integers, strings, lists and tuples of these, `()` and other constants, and what is built from such by user
constructors. -/
inductive Plain : V → Prop where
  | nil : Plain .nil
  | cons {h t : V} : Plain h → Plain t → Plain (.cons h t)
  | app {l r : V} : Plain l → Plain r → Plain (.app l r)
  | int (z : Int) : Plain (.int z)
  | str (s : List Nat) : Plain (.str s)
  | prim (k : Nat) : Plain (.prim k 0)

/-- The order: integers by value, strings and lists lexicographically, a prefix first; different kinds by
kind. -/
inductive Less : V → V → Prop where
  | kind1 {a b : V} : a.kind.1 < b.kind.1 → Less a b
  | kind2 {a b : V} : a.kind.1 = b.kind.1 → a.kind.2 < b.kind.2 → Less a b
  | int {x y : Int} : x < y → Less (.int x) (.int y)
  | str {s t : List Nat} : s < t → Less (.str s) (.str t)
  | prim {k j : Nat} : k < j → Less (.prim k 0) (.prim j 0)
  | nilCons {h t : V} : Less .nil (.cons h t)
  | head {h h' t t' : V} : Less h h' → Less (.cons h t) (.cons h' t')
  | tail {h t t' : V} : Less t t' → Less (.cons h t) (.cons h t')
  | left {l l' r r' : V} : Less l l' → Less (.app l r) (.app l' r')
  | right {l r r' : V} : Less r r' → Less (.app l r) (.app l r')

/-- The number of nodes on the longest path. -/
def V.depth : V → Nat
  | .cons h t => max h.depth t.depth + 1
  | .app l r => max l.depth r.depth + 1
  | _ => 1

end Voss.Lst
