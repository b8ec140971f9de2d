import Verif.Pline.Model

/-! What printing a string should do, on a sheet that extends without bound upwards and downwards. -/

namespace Voss.Pline

/-- What a string asks for, from left to right. -/
inductive Cmd where
  | put (c : Char)
  | newline | up | down | left | right
  /-- The line may be broken here; the number of characters up to the next such place, newline or end. -/
  | brk (ahead : Nat)

/-- Characters up to the next newline, place for a break or end. -/
def ahead : List Char → Nat
  | [] => 0
  | c :: s => if c = mark ∨ c = '\n' then 0 else ahead s + 1

/-- The commands of a string. -/
def cmds : List Char → List Cmd
  | [] => []
  | c :: s =>
    if c = '\n' then .newline :: cmds s
    else if c = mark then .brk (ahead s) :: cmds s
    else if c = esc then
      match s with
      | '[' :: 'A' :: t => .up :: cmds t
      | '[' :: 'B' :: t => .down :: cmds t
      | '[' :: 'C' :: t => .right :: cmds t
      | '[' :: 'D' :: t => .left :: cmds t
      | s => .put c :: cmds s
    else .put c :: cmds s

/-- A sheet with the rows `top` to `bot` in use, and a cursor. -/
structure Sheet where
  rows : Int → List Char
  top : Int
  bot : Int
  row : Int
  col : Nat

/-- The blank sheet with one row. -/
def blank : Sheet := ⟨fun _ => [], 0, 0, 0, 0⟩

/-- A character written over a row; blanks where nothing has been written before. -/
def over (n : Nat) (c : Char) (l : List Char) : List Char :=
  (l ++ List.replicate (n - l.length) ' ').take n ++ c :: l.drop (n + 1)

/-- The cursor goes to another row of the sheet. -/
def Sheet.goto (s : Sheet) (r : Int) : Sheet :=
  { s with row := r, top := if r < s.top then r else s.top, bot := if s.bot < r then r else s.bot }

/-- One command on a sheet.  A line is broken if the characters up to the next place for a break do not all come before
the last column but one. -/
def exec (max : Int) (s : Sheet) : Cmd → Sheet
  | .put c => { s with rows := fun r => if r = s.row then over s.col c (s.rows r) else s.rows r, col := s.col + 1 }
  | .newline => { s.goto (s.row + 1) with col := 0 }
  | .up => s.goto (s.row - 1)
  | .down => s.goto (s.row + 1)
  | .left => { s with col := s.col - 1 }
  | .right => { s with col := s.col + 1 }
  | .brk n => if 0 < s.col ∧ max - 2 < s.col + n then { s.goto (s.row + 1) with col := 0 } else s

/-- Rows with newlines in between. -/
def joinNl : List (List Char) → List Char
  | [] => []
  | [t] => t
  | t :: l => t ++ '\n' :: joinNl l

/-- The rows in use, from top to bottom. -/
def Sheet.used (s : Sheet) : List (List Char) := (List.range (s.bot - s.top + 1).toNat).map fun (i : Nat) => s.rows (s.top + i)

/-- A text with each place for a break taken out or replaced by a newline. -/
inductive Broken : List Char → List Char → Prop
  | nil : Broken [] []
  | keep (c : Char) {s u : List Char} (h : c ≠ mark) (r : Broken s u) : Broken (c :: s) (c :: u)
  | drop {s u : List Char} (r : Broken s u) : Broken (mark :: s) u
  | newline {s u : List Char} (r : Broken s u) : Broken (mark :: s) ('\n' :: u)

/-- Between places for a break, newlines and the ends there are at most `w` characters. -/
def Short (w : Nat) (s : List Char) : Prop :=
  ahead s ≤ w ∧ ∀ a b c, s = a ++ c :: b → c = mark ∨ c = '\n' → ahead b ≤ w

end Voss.Pline
