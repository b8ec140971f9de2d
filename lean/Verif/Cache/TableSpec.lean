import Verif.Cache.Table
import Verif.Cache.MemoSpec
import Verif.Lib.HashSpec
/-
Specification of fl tables: finite maps, each held by at most one node.
-/
namespace Voss.Tab
variable {K D : Type} (eq : K → K → Bool)

/-- A finite map: its entries, no two with equal keys. -/
abbrev Map (K D : Type) := List (K × D)

def Map.get (m : Map K D) (k : K) : Option D := (m.find? fun e => eq k e.1).map (·.2)
def Map.del (m : Map K D) (k : K) : Map K D := m.eraseP fun e => eq k e.1

/-- Put all entries in, unless a key is there already. -/
def Map.putAll : Map K D → List (K × D) → Option (Map K D)
  | m, [] => some m
  | m, (k, d) :: kds => if (m.get eq k).isSome then none else Map.putAll ((k, d) :: m) kds

/-- What the nodes hold; `none` is a failure. -/
abbrev Maps (K D : Type) := List (Option (Map K D))

/-- A changed map belongs to a new node; the old node is a failure from now on. -/
def Maps.change (M : Maps K D) (i : Nat) (m : Map K D) : Maps K D × Out K D :=
  ((M.set i none) ++ [some m], .node M.length)

def Maps.on (M : Maps K D) (i : Nat) (f : Map K D → Maps K D × Out K D) : Maps K D × Out K D :=
  match M[i]? with
  | some (some m) => f m
  | _ => (M, .fail)

/-- The meaning of the operations. -/
def Maps.step (M : Maps K D) : Op K D → Maps K D × Out K D
  | .create _ => (M ++ [some []], .node M.length)
  | .fromList kds => match Map.putAll eq [] kds with
    | none => (M, .fail)
    | some m => (M ++ [some m], .node M.length)
  | .insert i k d => M.on i fun m => if (m.get eq k).isSome then (M, .fail) else M.change i ((k, d) :: m)
  | .insertn i kds => M.on i fun m => match Map.putAll eq m kds with
    | none => (M, .fail)
    | some m => M.change i m
  | .delete i k => M.on i fun m => if (m.get eq k).isSome then M.change i (m.del eq k) else (M, .fail)
  | .clear i => M.on i fun _ => M.change i []
  | .member i k => M.on i fun m => (M, .bool (m.get eq k).isSome)
  | .get i k => M.on i fun m => match m.get eq k with
    | none => (M, .fail)
    | some d => (M, .data d)
  | .size i => M.on i fun m => (M, .num m.length)
  | .toList i => M.on i fun m => (M, .list m)
  | .copy i => (M ++ [M[i]?.getD none], .node M.length)

def Maps.run (M : Maps K D) : List (Op K D) → List (Out K D)
  | [] => []
  | op :: ops => (M.step eq op).2 :: Maps.run (M.step eq op).1 ops

/-- The same result; the order of a list of entries is free. -/
def Out.Agree : Out K D → Out K D → Prop
  | .list a, .list b => a.Perm b
  | a, b => a = b

/-- The node an operation is given. -/
def Op.on : Op K D → Option Nat
  | .create _ | .fromList _ => none
  | .insert i _ _ | .insertn i _ | .delete i _ | .clear i | .member i _ | .get i _ | .size i | .toList i | .copy i => some i

/-- The operations for which tables are maps: nodes that exist, no copies of nodes, and no `tbl_insertn`
that fails half way. -/
def Maps.Legal (M : Maps K D) : List (Op K D) → Prop
  | [] => True
  | op :: ops =>
    (∀ i, op.on = some i → i < M.length) ∧
    (match op with
     | .create n => n ≤ 2147483629
     | .copy _ => False
     | .insertn i kds => ∀ m, M[i]? = some (some m) → (Map.putAll eq m kds).isSome
     | _ => True) ∧ Maps.Legal (M.step eq op).1 ops

/-- How many entries an operation can add. -/
def Op.weight : Op K D → Nat
  | .insert _ _ _ => 1
  | .insertn _ kds => kds.length
  | .fromList kds => kds.length
  | _ => 0

def weight (ops : List (Op K D)) : Nat := (ops.map Op.weight).sum

/-! ### Keys -/

open Voss.Cache (V HashEnv cacheEq Alike)

/-- Keys: values compared by all of their contents, of one type `T`. -/
abbrev Key (T : V → Prop) := { v : V // v.Plain ∧ v ≠ .null ∧ T v }

/-- The two functions that `table_create` gives to `create_hash` (table.c:45), on keys.  On keys of one type
they are defined: `c56_keys`. -/
def keyHash (E : HashEnv) (store : Nat → V) (fuel : Nat) {T : V → Prop} (k : Key T) (n : Nat) : Nat :=
  (gHash E store fuel k.1 n).getD 0
def keyEq (store : Nat → V) (fuel : Nat) {T : V → Prop} (a b : Key T) : Bool := (cacheEq store fuel a.1 b.1).getD false

/-- Keys are the same value, wherever it is stored. -/
def sameKey {T : V → Prop} (a b : Key T) : Bool := Cache.erase a.1 = Cache.erase b.1

/-- The hash functions of other modules stay below their bound. -/
structure EnvOk (E : HashEnv) : Prop where
  int : ∀ z n, 0 < n → E.int z n < n
  str : ∀ s n, 0 < n → E.str s n < n
  ext : ∀ c o n, 0 < n → E.ext c o n < n

end Voss.Tab
