import Verif.Lib.HashSpec
import Verif.Lib.Buf
import Verif.Lib.Rec
/-
Models of `src/lib/uniq_buf.c` (buffers without duplicates) and of deleting entries of a hash table
while it is scanned.
-/
namespace Voss.Lib.Uniq

/-- `uniq_buffer` (uniq_buf.h:22-29).  Items are compared byte by byte; the model takes them as values
of a type with decidable equality.  The copies in `recs` serve only as keys of the table. -/
structure UBuf (α : Type) where
  buf : Buf.Buffer α
  items : Nat
  tbl : Tbl α Nat

section
variable {α : Type} [DecidableEq α] (zero : α) (h : α → Nat → Nat)

/-- `item_equ` uniq_buf.c:121-132. -/
def itemEqu (a b : α) : Bool := decide (a = b)

/-- `new_uniq_buf` uniq_buf.c:17-26. -/
def newU (n size : Nat) : Option (UBuf α) := do
  let t ← create n
  some ⟨Buf.newBuf zero n size, 0, t⟩

/-- Add an item (uniq_buf.c:52-57, 76-81); the number stored with it is its index plus one. -/
def add (u : UBuf α) (x : α) : Option (UBuf α) := do
  let b ← Buf.push zero u.buf x
  let t ← insert h u.tbl x (some (u.items + 1))
  some ⟨b, u.items + 1, t⟩

/-- `push_uniq_buf` uniq_buf.c:47-59. -/
def push (u : UBuf α) (x : α) : Option (Bool × UBuf α) := do
  match ← find h itemEqu u.tbl x with
  | some _ => some (false, u)
  | none => do
    let u ← add zero h u x
    some (true, u)

/-- `get_uniq_buf_index` uniq_buf.c:61-66: `NULL` is 0. -/
def index (u : UBuf α) (x : α) : Option Int := do
  let d ← find h itemEqu u.tbl x
  some ((d.getD 0 : Nat) - 1)

/-- `find_insert_uniq_buf` uniq_buf.c:68-84. -/
def findInsert (u : UBuf α) (x : α) : Option (Int × UBuf α) := do
  match ← find h itemEqu u.tbl x with
  | some i => some ((i : Int) - 1, u)
  | none => do
    let u ← add zero h u x
    some ((u.items : Int) - 1, u)

inductive Op (α : Type) where
  | push (x : α)
  | index (x : α)
  | findInsert (x : α)
  | fetch (i : Nat)
  | count

inductive Out (α : Type) where
  | bool (b : Bool)
  | num (n : Int)
  | item (x : Option α)

def step (u : UBuf α) : Op α → Option (UBuf α × Out α)
  | .push x => do
    let (b, u) ← push zero h u x
    some (u, .bool b)
  | .index x => do
    let i ← index h u x
    some (u, .num i)
  | .findInsert x => do
    let (i, u) ← findInsert zero h u x
    some (u, .num i)
  | .fetch i => do
    let x ← Buf.fetch u.buf i
    some (u, .item x)
  | .count => some (u, .num u.items)

def run : UBuf α → List (Op α) → Option (UBuf α × List (Out α))
  | u, [] => some (u, [])
  | u, op :: ops => do
    let (u, o) ← step zero h u op
    let (u, os) ← run u ops
    some (u, o :: os)

/-! ### Specification: a sequence without duplicates -/

/-- Place of an item, -1 if there is none. -/
def place (l : List α) (x : α) : Int := if x ∈ l then (l.idxOf x : Int) else -1

def Spec.step (l : List α) : Op α → List α × Out α
  | .push x => (if x ∈ l then l else l ++ [x], .bool (decide (x ∉ l)))
  | .index x => (l, .num (place l x))
  | .findInsert x => (if x ∈ l then l else l ++ [x], .num (if x ∈ l then place l x else l.length))
  | .fetch i => (l, .item l[i]?)
  | .count => (l, .num l.length)

def Spec.run (l : List α) : List (Op α) → List α × List (Out α)
  | [] => (l, [])
  | op :: ops =>
    ((Spec.run (Spec.step l op).1 ops).1, (Spec.step l op).2 :: (Spec.run (Spec.step l op).1 ops).2)

/-- No request for the item just past the end. -/
def Spec.NoEdge (l : List α) : List (Op α) → Prop
  | [] => True
  | op :: ops =>
    (match op with
     | .fetch i => i ≠ l.length
     | _ => True) ∧ Spec.NoEdge (Spec.step l op).1 ops

end
end Voss.Lib.Uniq

namespace Voss.Lib.Rec

/-- Whether the manager still holds the memory of a record. -/
def Mgr.holds (m : Mgr) (r : Nat) : Bool := m.blocks.any (fun b => decide (b ≤ r ∧ r + m.recSize ≤ b + m.blkSize))

/-- `scan_hash` (hash.c:265-279) with a function that deletes some of the entries it is shown
(`clean_cache_rec_fn`, new_bdd.c:2867-2887, with `delete_hash` hash.c:246-263).  `as` are the buckets in
the order of the scan, `dead` says which are deleted.  After the call the scan reads `chp->next` from the
bucket it has just shown; if the bucket was freed and its block went back to the allocator that is
undefined behaviour, otherwise the link is still there, since `free_rec` writes only to the first word of
the record.  Result: the buckets that stay. -/
def scanDelete (dead : Nat → Bool) : Mgr → List Nat → Option (Mgr × List Nat)
  | m, [] => some (m, [])
  | m, a :: as =>
    if dead a then do
      let m ← freeRec m a
      if m.holds a then scanDelete dead m as else none
    else do
      let (m, rest) ← scanDelete dead m as
      some (m, a :: rest)

end Voss.Lib.Rec
