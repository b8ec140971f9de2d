import Verif.Lib.HashSpec
/-
Model of `src/lib/strmgr.c` (string storage, string interning, string building) and `src/lib/morestr.c`.

Strings are lists of bytes without the final 0.  Memory blocks are lists of bytes.  `none` is undefined
behaviour: a byte outside the block is written.
-/
namespace Voss.Lib.Str

/-- `STR_BLOCK_SIZE` strmgr.h:22. -/
def blockSize : Nat := 130000

/-- A C string has no 0 byte inside. -/
def NoNul (s : List Nat) : Prop := 0 ∉ s

/-- Write bytes from place `i` on. -/
def write (blk : List Nat) (i : Nat) (bs : List Nat) : Option (List Nat) :=
  if i + bs.length ≤ blk.length then some (blk.take i ++ bs ++ blk.drop (i + bs.length)) else none

/-- The string a pointer into a block shows. -/
def cstr (blk : List Nat) (i : Nat) : List Nat := (blk.drop i).takeWhile (fun b => b != 0)

/-- A pointer into the string area: number of the block and place in it. -/
abbrev Ptr := Nat × Nat

/-- `str_mgr` (strmgr.h:24-29); the current block is the last one of `mem`. -/
structure SMgr where
  mem : List (List Nat)
  used : Nat

/-- What a pointer shows. -/
def SMgr.read (m : SMgr) (p : Ptr) : Option (List Nat) := (m.mem[p.1]?).map (fun blk => cstr blk p.2)

/-- `new_strmgr` strmgr.c:38-45.  `g` is what the new block holds when it comes from the allocator;
it has `STR_BLOCK_SIZE+1` bytes. -/
def newMgr (g : List Nat) : SMgr := ⟨[g], 0⟩

/-- "Need a new block" strmgr.c:68-72. -/
def room (m : SMgr) (g : List Nat) (len : Nat) : SMgr :=
  if m.used + len ≥ blockSize then ⟨m.mem ++ [g], 0⟩ else m

/-- `Strsave` strmgr.c:56-79; `g` is the content of a new block, should one be needed. -/
def save (m : SMgr) (g s : List Nat) : Option (Ptr × SMgr) := do
  let s := s.take blockSize
  let m := room m g s.length
  let blk ← m.mem[m.mem.length - 1]?
  let blk ← write blk m.used (s ++ [0])
  some ((m.mem.length - 1, m.used), ⟨m.mem.set (m.mem.length - 1) blk, m.used + s.length + 1⟩)

/-- `WAstrsave` strmgr.c:81-90: the next string starts at a multiple of 4. -/
def waSave (m : SMgr) (g s : List Nat) : Option (Ptr × SMgr) := do
  let (p, m) ← save m g s
  some (p, { m with used := m.used + (if m.used % 4 > 0 then 4 - m.used % 4 else 0) })

/-- `ustr_mgr` (strmgr.h:31-34).  The keys of `utbl` are pointers compared by what they show; the
model has the strings themselves as keys. -/
structure UMgr where
  smgr : SMgr
  utbl : Tbl (List Nat) Ptr

section
variable (h : List Nat → Nat → Nat)

/-- `str_equ` hash.c:147-151. -/
def strEqu (a b : List Nat) : Bool := a == b

/-- `new_ustrmgr` strmgr.c:92-97. -/
def newU (g : List Nat) : Option UMgr := do
  let t ← create 100
  some ⟨newMgr g, t⟩

/-- `uStrsave` strmgr.c:106-115. -/
def usave (u : UMgr) (g s : List Nat) : Option (Ptr × UMgr) := do
  match ← find h strEqu u.utbl s with
  | some p => some (p, u)
  | none => do
    let (p, m) ← save u.smgr g s
    let t ← insert h u.utbl (s.take blockSize) (some p)
    some (p, ⟨m, t⟩)

/-- A sequence of calls; the results in order. -/
def usaveAll : UMgr → List (List Nat × List Nat) → Option (List Ptr × UMgr)
  | u, [] => some ([], u)
  | u, (g, s) :: rest => do
    let (p, u) ← usave h u g s
    let (ps, u) ← usaveAll u rest
    some (p :: ps, u)

end

/-! ### String building -/

/-- The buffer of `strtemp` (strmgr.c:11-13) or of a `tstr_rec` (strmgr.h:36-42): its bytes and the
number of characters in it. -/
structure Tmp where
  buf : List Nat
  cnt : Nat

/-- The string the caller gets: the buffer itself. -/
def Tmp.str (t : Tmp) : List Nat := cstr t.buf 0

/-- `strtemp` strmgr.c:219-235. -/
def strtemp (t : Tmp) (s : List Nat) : Option Tmp := do
  let s := s.take blockSize
  let b ← write t.buf 0 (s ++ [0])
  some ⟨b, s.length⟩

/-- `strappend` strmgr.c:237-253. -/
def strappend (t : Tmp) (s : List Nat) : Option Tmp := do
  let s := if s.length + t.cnt > blockSize then s.take (blockSize - t.cnt) else s
  let b ← write t.buf t.cnt (s ++ [0])
  some ⟨b, t.cnt + s.length⟩

/-- `charappend` strmgr.c:255-268. -/
def charappend (t : Tmp) (c : Nat) : Option Tmp :=
  if 1 + t.cnt > blockSize then some t
  else do
    let b ← write t.buf t.cnt [c, 0]
    some ⟨b, t.cnt + 1⟩

/-- `gen_strtemp` strmgr.c:141-155. -/
def genStrtemp (t : Tmp) (s : List Nat) : Option Tmp := do
  let s := if s.length > blockSize then s.take (blockSize - 1) else s
  let b ← write t.buf 0 (s ++ [0])
  some ⟨b, s.length⟩

/-- `gen_strtruncate` strmgr.c:158-167. -/
def genTruncate (t : Tmp) (len : Int) : Option Tmp := do
  let b ← write t.buf len.toNat [0]
  some ⟨b, len.toNat⟩

/-- `gen_strappend` strmgr.c:169-184. -/
def genAppend (t : Tmp) (s : List Nat) : Option Tmp := strappend t s

/-- `gen_strprepend` strmgr.c:186-202. -/
def genPrepend (t : Tmp) (s : List Nat) : Option Tmp :=
  if s.length + t.cnt > blockSize then some t
  else do
    let b ← write t.buf s.length (t.buf.take (t.cnt + 1))
    let b ← write b 0 s
    some ⟨b, t.cnt + s.length⟩

inductive TOp where
  | temp (s : List Nat)
  | append (s : List Nat)
  | char (c : Nat)

inductive GOp where
  | temp (s : List Nat)
  | truncate (len : Int)
  | append (s : List Nat)
  | prepend (s : List Nat)

/-- Operations on the shared buffer. -/
def tstep (t : Tmp) : TOp → Option Tmp
  | .temp s => strtemp t s
  | .append s => strappend t s
  | .char c => charappend t c

/-- Operations on one's own buffer. -/
def gstep (t : Tmp) : GOp → Option Tmp
  | .temp s => genStrtemp t s
  | .truncate n => genTruncate t n
  | .append s => genAppend t s
  | .prepend s => genPrepend t s

def trun : Tmp → List TOp → Option Tmp
  | t, [] => some t
  | t, op :: ops => do
    let t ← tstep t op
    trun t ops

def grun : Tmp → List GOp → Option Tmp
  | t, [] => some t
  | t, op :: ops => do
    let t ← gstep t op
    grun t ops

/-- Specification: the string, cut off at the limit. -/
def TOp.spec (c : List Nat) : TOp → List Nat
  | .temp s => s.take blockSize
  | .append s => (c ++ s).take blockSize
  | .char x => (c ++ [x]).take blockSize

def GOp.spec (c : List Nat) : GOp → List Nat
  | .temp s => s
  | .truncate n => c.take n.toNat
  | .append s => c ++ s
  | .prepend s => s ++ c

/-! ### `str2int` -/

/-- `int` arithmetic: a value that does not fit is undefined behaviour. -/
def int32 (x : Int) : Option Int := if -2 ^ 31 ≤ x ∧ x < 2 ^ 31 then some x else none

/-- Value of one hexadecimal digit as in morestr.c:43-51. -/
def hexDigit (c : Nat) : Option Int :=
  if 48 ≤ c ∧ c ≤ 57 then some (c - 48)
  else if 97 ≤ c ∧ c ≤ 104 then some (c - 97)
  else if 65 ≤ c ∧ c ≤ 72 then some (c - 65)
  else none

def decDigit (c : Nat) : Option Int := if 48 ≤ c ∧ c ≤ 57 then some (c - 48) else none

/-- The loops morestr.c:35-54: digits as long as there are any.  Result: whether there was one, the
value, the rest. -/
def digits (digit : Nat → Option Int) (radix : Int) : Bool → Int → List Nat → Option (Bool × Int × List Nat)
  | ok, cur, [] => some (ok, cur, [])
  | ok, cur, c :: s =>
    match digit c with
    | none => some (ok, cur, c :: s)
    | some d => do
      let x ← int32 (cur * radix)
      let x ← int32 (x + d)
      digits digit radix true x s

/-- Sign (morestr.c:19-23). -/
def sign : List Nat → Bool × List Nat
  | 45 :: s => (true, s)
  | s => (false, s)

/-- Radix (morestr.c:24-33). -/
def radix : List Nat → Int × List Nat
  | 48 :: 120 :: s => (16, s)
  | 48 :: 88 :: s => (16, s)
  | 48 :: s => (8, s)
  | s => (10, s)

/-- `str2int` morestr.c:12-62; the inner `none` is `FALSE`. -/
def str2int (s : List Nat) : Option (Option Int) := do
  let (neg, s) := sign s
  let (r, s) := radix s
  let (ok, v, rest) ← digits (if r ≤ 10 then decDigit else hexDigit) r false 0 s
  if ok = false ∨ rest ≠ [] then some none
  else some (some (if neg then -v else v))

/-- Specification: value of a string of decimal digits. -/
def decimal : Nat → List Nat → Option Nat
  | v, [] => some v
  | v, c :: s => if 48 ≤ c ∧ c ≤ 57 then decimal (10 * v + (c - 48)) s else none

end Voss.Lib.Str
