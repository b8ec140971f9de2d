/-! Model of the buffered files of file_ops.c: `LL_Write`, `LL_Close`, `LL_Read`.  Bytes are any type.  One file is open
at a time (file_ops.c:47), so the file record is the state. -/

namespace Voss.Fops

variable {α : Type}

/-- file_ops.h:40 `BUF_SIZE`. -/
def bufSize : Nat := 1024

/-- A file open for writing: what has been written to it, and the first `pos` bytes of the buffer. -/
structure W (α : Type) where
  disk : List α
  buf : List α

/-- The inner loop of file_ops.c:159-163: bytes go into the buffer as long as there is room; the buffer and the bytes
left over. -/
def fill (b : List α) : List α → List α × List α
  | [] => (b, [])
  | x :: p => if b.length < bufSize then fill (b ++ [x]) p else (b, x :: p)

/-- Used by the termination of `fileWrite`. -/
theorem fill_length (b p : List α) : (fill b p).1.length + (fill b p).2.length = b.length + p.length := by
  induction p generalizing b with
  | nil => simp [fill]
  | cons x p ih =>
    rw [fill]; split
    · rw [ih]; simp; omega
    · simp

/-- Used by the termination of `fileWrite`. -/
theorem fill_full (b p : List α) (h : (fill b p).2 ≠ []) : bufSize ≤ (fill b p).1.length := by
  induction p generalizing b with
  | nil => simp [fill] at h
  | cons x p ih =>
    rw [fill] at h ⊢; split
    · rename_i hb; rw [if_pos hb] at h; exact ih _ h
    · simp only; omega

/-- file_ops.c:146-174 `file_write` (`LL_Write`, file_ops.c:74-78).  (`write` writes all bytes; if it does not, the
program warns and goes on.) -/
def fileWrite (w : W α) (p : List α) : W α :=
  if (fill w.buf p).2 = [] then { w with buf := (fill w.buf p).1 }
  else fileWrite ⟨w.disk ++ (fill w.buf p).1, []⟩ (fill w.buf p).2
termination_by w.buf.length + p.length
decreasing_by
  rename_i h
  have h1 := fill_length w.buf p
  have h2 := fill_full w.buf p h
  simp only [bufSize] at h2
  simp; omega

/-- file_ops.c:132-144 `file_close` of a file that was written: what is in the file afterwards. -/
def fileClose (w : W α) : List α := w.disk ++ w.buf

/-- A file open for reading: what is still to be read from it, the bytes of the buffer from `pos` on, and the number of
calls of `read` so far. -/
structure R (α : Type) where
  disk : List α
  buf : List α
  calls : Nat

/-- The results of a read. -/
inductive Res (α : Type) where
  /-- The bytes, and the file afterwards. -/
  | bytes (l : List α) (r : R α)
  /-- The end of the file, with no byte read. -/
  | eof (r : R α)
  /-- The end of the file in the middle: the program gives up (`Eprintf`). -/
  | unexpected
  /-- More bytes than `Tmp_buf` has. -/
  | overrun

/-- The loop of file_ops.c:190-211: `n` bytes are wanted, `got` have been read.  `os i` is what the `i`-th call of `read`
does: `none` if it fails, and otherwise one less than the number of bytes it is ready to give (it gives at least one if
there is any, at most as many as there are and at most as many as it is asked for).  A failed `read` returns -1, which
is taken for the size of the buffer, so that the loop reads again.  The first argument bounds the number of calls of
`read`; `none`: still reading after so many.  (The assertion of file_ops.c:207 is left out.) -/
def readLoop (os : Nat → Option Nat) : Nat → R α → Nat → List α → Option (Res α)
  | fuel, r, n, got =>
    if n ≤ r.buf.length then some (.bytes (got ++ r.buf.take n) { r with buf := r.buf.drop n })
    else match fuel with
      | 0 => none
      | f + 1 =>
        match os r.calls with
        | none => readLoop os f ⟨r.disk, [], r.calls + 1⟩ (n - r.buf.length) (got ++ r.buf)
        | some c =>
          if r.disk = [] then
            if got ++ r.buf = [] then some (.eof ⟨[], [], r.calls + 1⟩) else some .unexpected
          else
            readLoop os f ⟨r.disk.drop (min bufSize (c + 1)), r.disk.take (min bufSize (c + 1)), r.calls + 1⟩
              (n - r.buf.length) (got ++ r.buf)

/-- file_ops.c:82-89 `LL_Read` with `file_read` (file_ops.c:178-215). -/
def llRead (os : Nat → Option Nat) (fuel : Nat) (r : R α) (n : Nat) : Option (Res α) :=
  if bufSize < n then some .overrun else readLoop os fuel r n []

/-- file_ops.c:100-129 `file_open` for reading. -/
def openRead (disk : List α) : R α := ⟨disk, [], 0⟩

end Voss.Fops
