/-
Model of the record manager `src/lib/rec.c` (`src/include/rec.h`).

Addresses are natural numbers.  The address of each new block is what `Malloc` / `Alignment_Malloc`
returns and is a parameter of the operations; the theorems assume of it only that the new block does not
overlap the blocks the manager holds.  The links of the free list are stored in the free records and the
block list in the first 16 bytes of the blocks; the model keeps both as lists.  `none` is undefined
behaviour (`ASSERT` is off in the shipped build).
-/
namespace Voss.Lib.Rec

/-- `POINTER_SIZE`. -/
def ptrSize : Nat := 8
/-- `NAT_BLOCK_SIZE` rec.h:19. -/
def natBlock : Nat := 4050

/-- `rec_mgr` (rec.h:21-35).  `blocks` runs from `last_blk` back to `first_blk`. -/
structure Mgr where
  recSize : Nat
  blkSize : Nat
  capacity : Nat
  blocks : List Nat
  free : List Nat
  allocated : Nat
  live : Nat
  pure : Bool

/-- `REC_ADDR` rec.h:39. -/
def Mgr.addr (m : Mgr) (blk i : Nat) : Nat := blk + (2 * ptrSize + i * m.recSize)

/-- `new_mgr` / `aligned_new_mgr` rec.c:12-46; `b` is the address of the first block. -/
def newMgr (size b : Nat) : Mgr :=
  let size := if size > ptrSize then size else ptrSize
  if size > natBlock - 2 * ptrSize then
    ⟨size, size + 2 * ptrSize, 1, [b], [], 0, 0, true⟩
  else
    let cap := (natBlock - 2 * ptrSize) / size
    ⟨size, cap * size + 2 * ptrSize, cap, [b], [], 0, 0, true⟩

/-- `new_rec` rec.c:60-90; `b` is the address of a new block, if one is needed. -/
def newRec (m : Mgr) (b : Nat) : Option (Nat × Mgr) :=
  match m.free with
  | r :: rest => some (r, { m with live := m.live + 1, free := rest })
  | [] =>
    match m.blocks with
    | [] => none
    | last :: _ =>
      if m.allocated < m.capacity then
        some (m.addr last m.allocated, { m with live := m.live + 1, allocated := m.allocated + 1 })
      else
        some (m.addr b 0, { m with live := m.live + 1, blocks := b :: m.blocks, allocated := 1 })

/-- `free_rec` rec.c:106-132. -/
def freeRec (m : Mgr) (r : Nat) : Option Mgr :=
  match m.blocks with
  | [] => none
  | last :: back =>
    if m.allocated = 0 ∨ m.live = 0 then none
    else if r = m.addr last (m.allocated - 1) then
      if m.allocated - 1 = 0 then
        match back with
        | [] => some { m with live := m.live - 1, allocated := 0 }
        | _ :: _ => some { m with live := m.live - 1, blocks := back, allocated := m.capacity }
      else some { m with live := m.live - 1, allocated := m.allocated - 1 }
    else some { m with live := m.live - 1, free := r :: m.free, pure := false }

/-- The addresses handed out so far in one block. -/
def Mgr.inBlock (m : Mgr) (blk n : Nat) : List Nat := (List.range n).map (m.addr blk)

/-- The records `FOR_REC` (rec.h:52-63) visits, in order; it aborts (`none`) on a manager that is not
pure. -/
def forRec (m : Mgr) : Option (List Nat) :=
  if m.pure then
    match m.blocks with
    | [] => some []
    | last :: back => some (back.reverse.flatMap (fun b => m.inBlock b m.capacity) ++ m.inBlock last m.allocated)
  else none

/-- `rec_element` rec.c:142-158; the inner `none` is `NULL`. -/
def recElement (m : Mgr) (idx : Nat) : Option (Option Nat) :=
  if m.pure = false ∨ m.capacity = 0 then none
  else
    match m.blocks.reverse[idx / m.capacity]? with
    | none => some none
    | some blk =>
      if idx / m.capacity + 1 = m.blocks.length ∧ m.allocated ≤ idx % m.capacity then some none
      else some (some (m.addr blk (idx % m.capacity)))

/-- `mgr_size` rec.c:134-139. -/
def mgrSize (m : Mgr) : Option Nat := if m.pure then some m.live else none

/-- Operations: get a record (with the address of a new block should one be needed), return one. -/
inductive Op where
  | new (b : Nat)
  | free (r : Nat)

end Voss.Lib.Rec
