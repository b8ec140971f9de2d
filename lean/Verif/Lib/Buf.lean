/-
Model of growable buffers `src/lib/buf.c`, `src/include/buf.h`.

`none` is undefined behaviour: memory outside the block is touched, or a condition the code only states
with `ASSERT` (off in the shipped build) fails.  Sizes in bytes are computed with `unsigned int`, so
modulo 2^32, as in C.
-/
namespace Voss.Lib.Buf

/-- Wrap-around of `unint`. -/
def u32 (n : Nat) : Nat := n % 2 ^ 32

/-- `buffer` (buf.h:21-27).  `data` are the items the memory block has room for; items are not looked
into, and `zero` stands for the item whose bytes are all 0. -/
structure Buffer (α : Type) where
  count : Nat
  itemSize : Nat
  allocated : Nat
  data : List α

section
variable {α : Type} (zero : α)

/-- `Calloc(bytes)` as room for items. -/
def calloc (itemSize bytes : Nat) : List α := List.replicate (bytes / itemSize) zero

/-- `new_buf` buf.c:12-21. -/
def newBuf (n size : Nat) : Buffer α :=
  let n := if n < 1 then 1 else n
  ⟨0, size, u32 (n * size), calloc zero size (u32 (n * size))⟩

/-- `bcopy(bp->data, new, bp->buf_size*bp->item_size)`: copy the items into a new block. -/
def copyInto (b : Buffer α) (new : List α) : Option (List α) :=
  let k := u32 (b.count * b.itemSize) / b.itemSize
  if k ≤ b.data.length ∧ k ≤ new.length then some (b.data.take k ++ new.drop k) else none

/-- Write one item. -/
def putAt (data : List α) (i : Nat) (x : α) : Option (List α) := if i < data.length then some (data.set i x) else none

/-- "Must grow buffer": a new block when `need` bytes do not fit (buf.c:43-50, 96-103). -/
def growIf (b : Buffer α) (need bytes : Nat) : Option (Buffer α) :=
  if u32 need ≥ b.allocated then
    (copyInto b (calloc zero b.itemSize (u32 bytes))).map (fun d => { b with data := d, allocated := u32 bytes })
  else some b

/-- `push_buf` buf.c:38-54. -/
def push (b : Buffer α) (x : α) : Option (Buffer α) := do
  let b ← growIf zero b (b.itemSize * b.count) (2 * b.count * b.itemSize)
  let d ← putAt b.data b.count x
  some { b with data := d, count := b.count + 1 }

/-- `pop_buf` buf.c:56-64. -/
def pop (b : Buffer α) : Option (α × Buffer α) :=
  if b.count = 0 then none
  else do
    let x ← b.data[b.count - 1]?
    some (x, { b with count := b.count - 1 })

/-- `store_buf` buf.c:66-72. -/
def store (b : Buffer α) (i : Nat) (x : α) : Option (Buffer α) :=
  if i < b.count then do
    let d ← putAt b.data i x
    some { b with data := d }
  else none

/-- `fetch_buf` buf.c:74-84 with `M_LOCATE_BUF` buf.h:31-32: the inner `none` is the answer `FALSE`. -/
def fetch (b : Buffer α) (i : Nat) : Option (Option α) :=
  if b.count ≥ i then do
    let x ← b.data[i]?
    some (some x)
  else some none

/-- Items `i`, `i+1`, ..., below `j` set to zero (`bzero`). -/
def zeroFrom (data : List α) (i j : Nat) : Option (List α) :=
  if j ≤ data.length then some (data.take i ++ List.replicate (j - i) zero ++ data.drop j) else none

/-- `resize_buf` buf.c:86-108. -/
def resize (b : Buffer α) (size : Nat) : Option (Buffer α) :=
  if size < b.count then some { b with count := size }
  else do
    let b ← growIf zero b (b.itemSize * size) (size * b.itemSize)
    let d ← zeroFrom zero b.data b.count size
    some { b with data := d, count := size }

/-- `locate_buf` buf.c:110-117: the item at the place the pointer shows. -/
def locate (b : Buffer α) (i : Nat) : Option (α × Buffer α) := do
  let b ← (if b.count ≤ i then resize zero b (i + 1) else some b)
  let x ← b.data[i]?
  some (x, b)

/-- `top_of_buf` buf.c:119-124. -/
def top (b : Buffer α) : Option α := if b.count = 0 then none else b.data[b.count - 1]?

inductive Op (α : Type) where
  | push (x : α)
  | pop
  | store (i : Nat) (x : α)
  | fetch (i : Nat)
  | resize (n : Nat)
  | locate (i : Nat)
  | top
  | count

inductive Out (α : Type) where
  | unit
  | item (x : Option α)
  | num (n : Nat)
deriving DecidableEq

def step (b : Buffer α) : Op α → Option (Buffer α × Out α)
  | .push x => (push zero b x).map (·, .unit)
  | .pop => (pop b).map (fun r => (r.2, .item (some r.1)))
  | .store i x => (store b i x).map (·, .unit)
  | .fetch i => (fetch b i).map (fun r => (b, .item r))
  | .resize n => (resize zero b n).map (·, .unit)
  | .locate i => (locate zero b i).map (fun r => (r.2, .item (some r.1)))
  | .top => (top b).map (fun x => (b, .item (some x)))
  | .count => some (b, .num b.count)

def run : Buffer α → List (Op α) → Option (Buffer α × List (Out α))
  | b, [] => some (b, [])
  | b, op :: ops => do
    let (b, o) ← step zero b op
    let (b, os) ← run b ops
    some (b, o :: os)

/-! ### Specification: a sequence -/

/-- The operations on a sequence. -/
def Spec.step (l : List α) : Op α → List α × Out α
  | .push x => (l ++ [x], .unit)
  | .pop => (l.dropLast, .item l.getLast?)
  | .store i x => (l.set i x, .unit)
  | .fetch i => (l, .item l[i]?)
  | .resize n => (l.take n ++ List.replicate (n - l.length) zero, .unit)
  | .locate i => (l ++ List.replicate (i + 1 - l.length) zero, .item (some (l.getD i zero)))
  | .top => (l, .item l.getLast?)
  | .count => (l, .num l.length)

def Spec.run (l : List α) : List (Op α) → List α × List (Out α)
  | [] => (l, [])
  | op :: ops =>
    ((Spec.run (Spec.step zero l op).1 ops).1, (Spec.step zero l op).2 :: (Spec.run (Spec.step zero l op).1 ops).2)

/-- What callers promise: pop and top of a non-empty buffer, store inside. -/
def Spec.Legal (l : List α) : List (Op α) → Prop
  | [] => True
  | op :: ops =>
    (match op with
     | .pop => l ≠ []
     | .top => l ≠ []
     | .store i _ => i < l.length
     | _ => True) ∧ Spec.Legal (Spec.step zero l op).1 ops

/-- No request for the item just past the end. -/
def Spec.NoEdge (l : List α) : List (Op α) → Prop
  | [] => True
  | op :: ops =>
    (match op with
     | .fetch i => i ≠ l.length
     | _ => True) ∧ Spec.NoEdge (Spec.step zero l op).1 ops

/-- The sequence never gets longer than `n`. -/
def Spec.Below (n : Nat) (l : List α) : List (Op α) → Prop
  | [] => l.length ≤ n
  | op :: ops => l.length ≤ n ∧ Spec.Below n (Spec.step zero l op).1 ops

end
end Voss.Lib.Buf
