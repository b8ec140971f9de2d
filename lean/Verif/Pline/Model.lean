/-! Model of the printing of strings: expand_cursor.c `Print_line`, which printing a string and adding one to a file call (graph.c:3906-3935).
A string may contain cursor movements (`ESC [ A` to `ESC [ D`) and the byte 1, a place where a line may be broken. -/

namespace Voss.Pline

/-- The byte 27. -/
def esc : Char := Char.ofNat 27
/-- The byte 1. -/
def mark : Char := Char.ofNat 1

/-- expand_cursor.h:25 `LINE_SIZE`. -/
def lineSize : Nat := 85

/-- A line (expand_cursor.h `line_rec`) without its links.  `buf i = none`: not written yet. -/
structure Line where
  buf : Nat → Option Char
  allocated : Nat
  used : Nat

/-- expand_cursor.c:128-144 `new_line`.  (Allocation succeeds.) -/
def newLine : Line := ⟨fun _ => none, lineSize, 0⟩

/-- `line[i] = c`: undefined (`none`) outside the allocated bytes. -/
def Line.write (l : Line) (i : Nat) (c : Char) : Option Line :=
  if i < l.allocated then some { l with buf := fun j => if j = i then some c else l.buf j } else none

/-- The `while` of expand_cursor.c:192-193. -/
def grow (n col : Nat) : Nat := if n ≤ col + 1 then grow (n + lineSize) col else n
termination_by col + 2 - n
decreasing_by simp [lineSize]; omega

/-- The `for` of expand_cursor.c:198-199, from `i`, with `n` rounds left. -/
def pad : Nat → Nat → Line → Option Line
  | _, 0, l => some l
  | i, n + 1, l => (l.write i ' ').bind (pad (i + 1) n)

/-- expand_cursor.c:182-205 `print_char` on the current line and column; the new column is `col + 1` unless the byte is
1.  (Columns are unbounded; `realloc` succeeds and keeps the bytes.) -/
def printChar (col : Nat) (c : Char) (l : Line) : Option Line :=
  let l := if col + 1 ≥ l.allocated then { l with allocated := grow (l.allocated + lineSize) col } else l
  (pad l.used (col - l.used) l).bind fun l =>
  (l.write col c).bind fun l =>
  some (if col + 1 > l.used then { l with used := col + 1 } else l)

/-- The two variables of expand_cursor.c:15-16; the lines above (nearest first) and below the current one stand for the
links. -/
structure St where
  col : Nat
  above : List Line
  cur : Line
  below : List Line

/-- expand_cursor.c:146-154 `move_up`. -/
def moveUp (s : St) : St :=
  match s.above with
  | [] => { s with above := [], cur := newLine, below := s.cur :: s.below }
  | l :: a => { s with above := a, cur := l, below := s.cur :: s.below }

/-- expand_cursor.c:156-164 `move_down`. -/
def moveDown (s : St) : St :=
  match s.below with
  | [] => { s with above := s.cur :: s.above, cur := newLine, below := [] }
  | l :: b => { s with above := s.cur :: s.above, cur := l, below := b }

/-- expand_cursor.c:166-174 `move_left`: not further than the first column.  (The message is left out.) -/
def moveLeft (s : St) : St := { s with col := s.col - 1 }

/-- expand_cursor.c:176-180 `move_right`. -/
def moveRight (s : St) : St := { s with col := s.col + 1 }

/-- `print_char` on the state. -/
def put (c : Char) (s : St) : Option St :=
  if c = mark then some s
  else (printChar s.col c s.cur).bind fun l => some { s with cur := l, col := s.col + 1 }

/-- The loop of expand_cursor.c:58-60: what is left of `rem`. -/
def scan : Int → List Char → Int
  | rem, [] => rem
  | rem, c :: t => if 0 < rem ∧ c ≠ mark ∧ c ≠ '\n' then scan (rem - 1) t else rem

/-- The loop of expand_cursor.c:43-108.  `max` is the number of columns. -/
def go (max : Int) : St → List Char → Option St
  | st, [] => some st
  | st, c :: s =>
    if c = '\n' then go max { moveDown st with col := 0 } s
    else if 0 < st.col ∧ c = mark then
      if scan (max - st.col - 1) s ≤ 0 then go max { moveDown st with col := 0 } s else go max st s
    else if c = esc then
      match s with
      | [] => put c st
      | d :: s' =>
        if d = '[' then
          match s' with
          | [] => (put c st).bind (put d)
          | e :: s'' =>
            if e = 'A' then go max (moveUp st) s''
            else if e = 'B' then go max (moveDown st) s''
            else if e = 'C' then go max (moveRight st) s''
            else if e = 'D' then go max (moveLeft st) s''
            else ((put c st).bind (put d)).bind fun st => go max st (e :: s'')
        else (put c st).bind fun st => go max st (d :: s')
    else (put c st).bind fun st => go max st s

/-- The bytes `%s` shows: the bytes below `n`, all of which must have been written.  (No byte is 0, as the text is a C
string.) -/
def bytes (l : Line) : Nat → Option (List Char)
  | 0 => some []
  | n + 1 => (bytes l n).bind fun t => (l.buf n).bind fun c => some (t ++ [c])

/-- expand_cursor.c:113-115: the end is written, so there must be room for it; then the line is printed, with a newline
unless it is the last one. -/
def lines : List Line → Option (List Char)
  | [] => some []
  | l :: r =>
    if l.used < l.allocated then
      (bytes l l.used).bind fun t => (lines r).bind fun u => some (t ++ (if r.isEmpty then [] else ['\n']) ++ u)
    else none

/-- expand_cursor.c:32-122 `Print_line`: the text that is printed, `none` if it does something undefined. -/
def printLine (max : Int) (s : List Char) : Option (List Char) :=
  (go max ⟨0, [], newLine, []⟩ s).bind fun st => lines (st.above.reverse ++ st.cur :: st.below)

end Voss.Pline
