import Verif.Lib.Hash
/-
Specification of hash tables: finite maps.
-/
namespace Voss.Lib

/-- What `create_hash` expects of its two arguments: `eq` is an equivalence relation, `h` gives a
bucket number below the size and the same one for equal keys. -/
structure HashOK {K : Type} (h : K → Nat → Nat) (eq : K → K → Bool) : Prop where
  refl : ∀ a, eq a a = true
  symm : ∀ a b, eq a b = true → eq b a = true
  trans : ∀ a b c, eq a b = true → eq b c = true → eq a c = true
  lt : ∀ a n, 0 < n → h a n < n
  congr : ∀ a b n, eq a b = true → h a n = h b n

/-- A finite map: what is stored for a key, if anything, and the number of keys. -/
structure Spec (K V : Type) where
  map : K → Option (Option V)
  count : Nat

section
variable {K V : Type} (eq : K → K → Bool)

def Spec.empty : Spec K V := ⟨fun _ => none, 0⟩
def Spec.put (m : Spec K V) (k : K) (d : Option V) : Spec K V :=
  ⟨fun k' => if eq k k' then some d else m.map k', m.count + 1⟩
def Spec.del (m : Spec K V) (k : K) : Spec K V :=
  ⟨fun k' => if eq k k' then none else m.map k', m.count - 1⟩

/-- Meaning of the operations on the map. -/
def Spec.step (m : Spec K V) : Op K V → Spec K V × Out V
  | .insert k d => (m.put eq k d, .unit)
  | .delete k => (m.del eq k, .unit)
  | .find k => (m, .data ((m.map k).bind id))
  | .insertCheck k d => if (m.map k).isSome then (m, .bool false) else (m.put eq k d, .bool true)
  | .size => (m, .num m.count)
  | .autosize _ => (m, .unit)

def Spec.run (m : Spec K V) : List (Op K V) → Spec K V × List (Out V)
  | [] => (m, [])
  | op :: ops => ((Spec.run (m.step eq op).1 ops).1, (m.step eq op).2 :: (Spec.run (m.step eq op).1 ops).2)

/-- The interface contract: insert absent keys, delete present keys, use `insert_check_hash` only on
tables whose data for the key is not `NULL`. -/
def Spec.Legal (m : Spec K V) : List (Op K V) → Prop
  | [] => True
  | op :: ops =>
    (match op with
     | .insert k _ => m.map k = none
     | .delete k => (m.map k).isSome
     | .insertCheck k _ => m.map k ≠ some none
     | _ => True) ∧ Spec.Legal (m.step eq op).1 ops

/-- Without the contract: the entries, the newest first; a key finds its newest entry and deletion
removes it. -/
def Shadow.step (l : List (K × Option V)) : Op K V → List (K × Option V) × Out V
  | .insert k d => ((k, d) :: l, .unit)
  | .delete k => (l.eraseP (fun e => eq k e.1), .unit)
  | .find k => (l, .data ((l.find? (fun e => eq k e.1)).bind (·.2)))
  | _ => (l, .unit)

def Shadow.run (l : List (K × Option V)) : List (Op K V) → List (K × Option V) × List (Out V)
  | [] => (l, [])
  | op :: ops =>
    ((Shadow.run (Shadow.step eq l op).1 ops).1, (Shadow.step eq l op).2 :: (Shadow.run (Shadow.step eq l op).1 ops).2)

/-- Insertions, deletions of present keys and look-ups. -/
def Shadow.Legal (l : List (K × Option V)) : List (Op K V) → Prop
  | [] => True
  | op :: ops =>
    (match op with
     | .insert _ _ => True
     | .delete k => ∃ e ∈ l, eq k e.1 = true
     | .find _ => True
     | _ => False) ∧ Shadow.Legal (Shadow.step eq l op).1 ops

end
end Voss.Lib
