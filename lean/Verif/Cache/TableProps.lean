import Verif.Cache.TableLemmas
/-
Property theorems for fl tables (C56).
-/
namespace Voss.Tab

open Voss.Cache (V Leaf HashEnv cacheEq Same erase Alike)

/-! ### C56: tables are finite maps -/

/-- Hashing and comparing keys of one type is defined, and keys are equal if they are the same value, wherever
it is stored. -/
theorem c56_keys (E : HashEnv) (store : Nat → V) (fuel : Nat) {T : V → Prop} (hT : ∀ a b, T a → T b → Alike a b)
    (a b : Key T) :
    (∀ n, (gHash E store fuel a.1 n).isSome) ∧ (cacheEq store fuel a.1 b.1).isSome
      ∧ (keyEq store fuel a b = true ↔ Same a.1 b.1) :=
  ⟨fun n => (gHashRec_same n fuel 10 a.1 a.1 a.2.1 rfl).1, Cache.cacheEq_total a.2.1 b.2.1 (hT _ _ a.2.2.2 b.2.2.2),
    keyEq_iff a b⟩

/-- Over every sequence of operations on any number of tables, whatever the hash functions, nothing undefined
happens and every operation has the result it has for finite maps; a node whose table has been changed
through it fails from then on.  Missing (and false, see below): tables whose node has been copied, a
`tbl_insertn` that fails half way, and keys that hold reference cells, minus zero or vectors with redundant
sign bits; more than 2147483629 entries. -/
theorem c56_map_partial {D : Type} (E : HashEnv) (ok : EnvOk E) (store : Nat → V) (fuel : Nat) {T : V → Prop}
    (ops : List (Op (Key T) D)) (legal : Maps.Legal sameKey [] ops) (hw : weight ops ≤ 2147483629) :
    ∃ os, run (keyHash E store fuel) (keyEq store fuel) ⟨[], []⟩ ops = some os
      ∧ List.Forall₂ Out.Agree os (Maps.run sameKey [] ops) := by
  have e : (keyEq store fuel : Key T → Key T → Bool) = sameKey := by
    funext a b
    have := keyEq_iff (store := store) (fuel := fuel) a b
    rw [Bool.eq_iff_iff, this, sameKey, decide_eq_true_iff]
    rfl
  have HO := keys_ok (store := store) ok fuel T
  rw [e] at HO ⊢
  exact run_ok HO ops (w := 0) ⟨rfl, by simp, by simp, by simp⟩ legal (by omega)

/-- The maps after the operations `ops`. -/
def Maps.after {K D : Type} (eq : K → K → Bool) (M : Maps K D) (ops : List (Op K D)) : Maps K D :=
  ops.foldl (fun M op => (M.step eq op).1) M

/-! #### A case that meets the hypotheses -/

def env : HashEnv := ⟨fun z n => z.toNat % n, fun s n => s.length % n, fun s => s.length, fun _ => 0, fun _ o n => o % n, id⟩

theorem env_ok : EnvOk env := ⟨fun _ _ h => Nat.mod_lt _ h, fun _ _ h => Nat.mod_lt _ h, fun _ _ _ h => Nat.mod_lt _ h⟩

/-- Keys of type `int`. -/
def isInt (v : V) : Prop := ∃ a z, v = .leaf a (.int z)

example : ∀ a b, isInt a → isInt b → Alike a b := by
  rintro _ _ ⟨a, z, rfl⟩ ⟨a', z', rfl⟩ h
  cases h

def key (a : Nat) (z : Int) : Key isInt := ⟨.leaf a (.int z), trivial, nofun, a, z, rfl⟩

/-- Two tables, among the operations failures: a key that is there, a node that has been used. -/
def ops : List (Op (Key isInt) Nat) :=
  [.create 5, .insert 0 (key 1 7) 70, .insert 1 (key 2 7) 71, .get 0 (key 3 7), .get 1 (key 4 7),
   .fromList [(key 5 1, 10), (key 6 100003, 11)], .insertn 2 [(key 7 9, 90), (key 8 7, 70)],
   .delete 3 (key 9 100003), .member 4 (key 10 100003), .size 4, .toList 4, .size 1, .clear 4, .size 5]

example : Maps.run sameKey [] ops
    = [.node 0, .node 1, .fail, .fail, .data 70, .node 2, .node 3, .node 4, .bool false, .num 3,
       .list [(key 8 7, 70), (key 7 9, 90), (key 5 1, 10)], .num 1, .node 5, .num 0] := by decide +kernel

example : Maps.Legal sameKey [] ops := by
  simp only [ops, Maps.Legal, Op.on, Option.some.injEq, reduceCtorEq, false_imp_iff, implies_true, true_and, and_true]
  refine ⟨by decide, ?_⟩
  simp only [forall_eq']
  refine ⟨by decide, by decide, by decide, by decide, by decide, ?_, by decide, by decide, by decide, by decide, by decide, by decide, by decide⟩
  rintro m hm
  have : (Maps.after sameKey [] (ops.take 6))[2]? = some (some m) := hm
  have e : (Maps.after sameKey [] (ops.take 6))[2]? = some (some [(key 6 100003, 11), (key 5 1, 10)]) := by decide +kernel
  rw [e] at this
  cases this
  decide +kernel

example : weight ops ≤ 2147483629 := by decide

/-! #### Where the full property fails -/

/-- A table whose node is copied (a table that is the result of a function, say) is not a value: `t2`, a copy
of `t`, sees what is inserted into `t`.  As a map it would still be empty. -/
theorem c56_copy :
    run (keyHash env (fun _ => .null) 0) (keyEq (fun _ => .null) 0) ⟨[], []⟩
      [.create 5, .copy 0, .insert 0 (key 1 7) 70, .size 1] = some [.node 0, .node 1, .node 2, .num (1 : Nat) (K := Key isInt) (D := Nat)]
    ∧ Maps.run sameKey [] [.create 5, .copy 0, .insert 0 (key 1 7) 70, .size 1]
        = [.node 0, .node 1, .node 2, .num (0 : Nat) (K := Key isInt) (D := Nat)] := by decide +kernel

/-- `tbl_insertn` with a key that is there already fails, but the entries before it are in the table, which
its node still holds: the failed operation has changed a table that can be used. -/
theorem c56_insertn :
    run (keyHash env (fun _ => .null) 0) (keyEq (fun _ => .null) 0) ⟨[], []⟩
      [.fromList [(key 1 7, 70)], .insertn 0 [(key 2 8, 80), (key 3 7, 71)], .size 0]
        = some [.node 0, .fail, .num (2 : Nat) (K := Key isInt) (D := Nat)]
    ∧ Maps.run sameKey [] [.fromList [(key 1 7, 70)], .insertn 0 [(key 2 8, 80), (key 3 7, 71)], .size 0]
        = [.node 0, .fail, .num (1 : Nat) (K := Key isInt) (D := Nat)] := by decide +kernel

/-- Look a key up, when the reference cells hold `store'`, in a table of one entry that was made when they
held `store`. -/
def lookup (store store' : Nat → V) (k k' : V) : Option (Option Nat) := do
  let t ← Lib.create 5
  let t ← Lib.insert (fun k n => (gHash env store 5 k n).getD 0) t k (some 1)
  Lib.find (fun k n => (gHash env store' 5 k n).getD 0) (fun a b => (cacheEq store' 5 a b).getD false) t k'

/-- A key that holds a reference cell is lost when the cell is assigned to, although it is equal to itself. -/
theorem c56_cell_key :
    let r : V := .leaf 1 (.ref 0)
    let s (z : Int) (_ : Nat) : V := .leaf 2 (.int z)
    lookup (s 1) (s 1) r r = some (some 1) ∧ lookup (s 1) (s 2) r r = some none ∧ cacheEq (s 2) 5 r r = some true := by
  decide +kernel

/-- Vectors with redundant sign bits are equal keys with different hash values: the entry for `<T>` is not
found under `<T,T>`. -/
theorem c56_vector_key :
    let s (_ : Nat) : V := .null
    let a : V := .leaf 1 (.bv [Cache.one])
    let b : V := .leaf 2 (.bv [Cache.one, Cache.one])
    cacheEq s 5 a b = some true ∧ lookup s s a a = some (some 1) ∧ lookup s s a b = some none := by decide +kernel

/-- Comparing two references to one table, or one STE result, gives the C number 1, which as a formula is
neither true nor false but the first node of the BDD store; so such an object is not even equal to itself
as a key (unless the nodes are shared). -/
theorem c56_table_equality (o : Nat) :
    Cache.extEq Cache.clsTable o o = 1 ∧ Cache.extEq Cache.clsSte o o = 1 ∧ (1 ≠ Cache.one ∧ 1 ≠ Cache.zero)
    ∧ cacheEq (fun _ => .null) 5 (.leaf 1 (.ext Cache.clsTable o)) (.leaf 2 (.ext Cache.clsTable o)) = some false := by
  refine ⟨by simp [Cache.extEq], by simp [Cache.extEq], by decide, ?_⟩
  simp [cacheEq, Cache.eqWith, Cache.leafEq, Cache.extEq, Cache.one]

end Voss.Tab
