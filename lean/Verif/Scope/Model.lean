/-!
# The global symbol table and abstract types

The names a user can refer to are kept in a hash table from names to records of definitions; all
records ever made are on one list, `def_list`, with the newest definition first.  `begin_abstype`
remembers the head of the list, `end_abstype` walks the list down to there, hides what is not
exported and makes the hash table anew.

Simplifications: the hash table is an association list with insertion at the front (what is proved
of the hash tables of the library in C29 while no key is in the table twice, or the table does not
grow); a record is identified by its number `id` (`fn_rec_id_cnt`), and pointers to records are these
numbers; bodies, types, comments and positions of definitions are left out, and so are definitions
that are refused by the type checker (they do not reach these functions).
-/

namespace Voss.Scope

/-- Names of functions and constructors (interned strings). -/
abbrev Name := String

/-- A record of a definition: the fields of `fn_rec` that have to do with scoping
(src/bin/fl/symbol.h, `fn_rec`). -/
structure Fn where
  id : Nat
  name : Name
  visible : Bool
  exported : Bool
  forward : Bool
  level : Int
deriving DecidableEq, Repr

/-- The symbol table with the static variables of symbol.c:43-45 (`ADT_buf`, `ADT_level`,
`fn_rec_id_cnt`) and the table of names that may be used as constructors in patterns
(`Constructor_Table`). -/
structure St where
  /-- `stbl->def_list` -/
  defs : List Fn
  /-- `stbl->tbl_ptr` -/
  tbl : List (Name × Nat)
  /-- `ADT_buf`, the last pushed first -/
  adt : List Nat
  /-- `ADT_level` -/
  level : Int
  /-- `fn_rec_id_cnt` -/
  next : Nat
  /-- `Constructor_Table` -/
  ctors : List Name
deriving DecidableEq, Repr

/-- `find_hash`. -/
def lookup : List (Name × Nat) → Name → Option Nat
  | [], _ => none
  | (m, i) :: t, n => if m = n then some i else lookup t n

/-- `delete_hash`: the first entry with the name. -/
def remove : List (Name × Nat) → Name → List (Name × Nat)
  | [], _ => []
  | (m, i) :: t, n => if m = n then t else (m, i) :: remove t n

/-- symbol.c:1135-1140, `Find_Function_Def`. -/
def St.find (s : St) (n : Name) : Option Nat := lookup s.tbl n

/-- The record a pointer points to. -/
def St.get (s : St) (i : Nat) : Option Fn := s.defs.find? (fun r => r.id == i)

/-- Assignment of fields of the record a pointer points to. -/
def modify (i : Nat) (f : Fn → Fn) (l : List Fn) : List Fn :=
  l.map (fun r => if r.id = i then f r else r)

/-- symbol.c `Init_symbol` (438-478): one invisible-in-practice definition, so that the list is never
empty. -/
def start : St :=
  { defs := [⟨0, "//DuMmY", true, false, false, 1⟩]
    tbl := [("//DuMmY", 0)]
    adt := []
    level := 1
    next := 1
    ctors := [] }

/-- symbol.c `update_stbl`: a definition at the same level that it replaces is no longer visible. -/
def updateStbl (s : St) (i : Nat) (n : Name) (lvl : Int) : St :=
  match s.find n with
  | none => { s with tbl := (n, i) :: s.tbl }
  | some last =>
    if last = i then s
    else
      let defs := match s.get last with
        | some r => if r.level = lvl then modify last (fun q => { q with visible := false }) s.defs
                    else s.defs
        | none => s.defs
      { s with defs := defs, tbl := (n, i) :: remove s.tbl n }

/-- A new record at the head of the list: symbol.c:999-1004 (`New_fn_def`), 868-890
(`InsertOverloadDef`), 914-952 (`Make_forward_declare`), 1463-1494 (`Add_ExtAPI_Function`). -/
def pushDef (s : St) (n : Name) (fwd : Bool) : St :=
  let i := s.next
  let s := { s with
    defs := ⟨i, n, true, false, fwd, s.level⟩ :: s.defs
    next := i + 1 }
  updateStbl s i n s.level

/-- symbol.c:955-1048, `New_fn_def`: the definition of a name that is declared forward goes into the
record of the declaration. -/
def define (s : St) (n : Name) : St :=
  match s.find n with
  | some i =>
    match s.get i with
    | some r =>
      if r.forward then
        { s with defs := modify i (fun q => { q with visible := true, exported := false,
                                                     forward := false }) s.defs }
      else pushDef s n false
    | none => pushDef s n false
  | none => pushDef s n false

/-- symbol.c:855-891, `InsertOverloadDef`. -/
def overload (s : St) (n : Name) : St := pushDef s n false

/-- symbol.c:914-952, `Make_forward_declare`. -/
def forward (s : St) (n : Name) : St := pushDef s n true

/-- One function of a type declaration (a constructor, its destructor, `write_t` or `read_t`) is
added at the end of the list: symbol.c:652-671, `Merge_fn_defs`, with `permissive`. -/
def addCtor (s : St) (n : Name) : St :=
  let i := s.next
  let s := { s with
    defs := s.defs ++ [⟨i, n, true, false, false, s.level⟩]
    next := i + 1 }
  updateStbl s i n s.level

/-- A type declaration (language.y:516-521, symbol.c:673-816, `Add_Destructors`, 652-671,
`Merge_fn_defs`): the constructors `cs` and the other functions `fs` of the type.
Simplification: the code appends all of them and then enters them into the table in the same
order. -/
def types (s : St) (cs fs : List Name) : St :=
  { (cs ++ fs).foldl addCtor s with ctors := cs ++ s.ctors }

/-- symbol.c:1057-1064, `Export_Fun`. -/
def exportFun (s : St) (n : Name) : St :=
  match s.find n with
  | none => s
  | some i => { s with defs := modify i (fun q => { q with exported := true }) s.defs }

/-- symbol.c:1050-1055, `Begin_ADT`. -/
def beginADT (s : St) : St :=
  { s with
    adt := (match s.defs with | r :: _ => [r.id] | [] => []) ++ s.adt
    level := s.level + 1 }

/-- symbol.c:1101-1119: the definitions made since `begin_abstype`, newest first.  Gives the list
with the new flags, the table and the constructors that are left. -/
def closeLoop (lvl : Int) : List Fn → List Name → List (Name × Nat) → List Name →
    List Fn × List (Name × Nat) × List Name
  | [], _, tbl, cs => ([], tbl, cs)
  | r :: rs, keep, tbl, cs =>
    if r.exported then
      let (l, t, c) := closeLoop lvl rs keep ((r.name, r.id) :: tbl) (cs.erase r.name)
      ({ r with visible := true, level := lvl } :: l, t, c)
    else if r.name ∈ keep then
      let (l, t, c) := closeLoop lvl rs (keep.filter (fun k => k ≠ r.name))
        ((r.name, r.id) :: tbl) (cs.erase r.name)
      ({ r with visible := true, level := lvl } :: l, t, c)
    else
      let (l, t, c) := closeLoop lvl rs keep tbl (cs.erase r.name)
      ({ r with visible := false } :: l, t, c)

/-- symbol.c:1122-1131: the definitions from before `begin_abstype`. -/
def openLoop : List Fn → List (Name × Nat) → List (Name × Nat)
  | [], tbl => tbl
  | r :: rs, tbl =>
    if r.visible then
      match lookup tbl r.name with
      | none => openLoop rs ((r.name, r.id) :: tbl)
      | some _ => openLoop rs tbl
    else openLoop rs tbl

/-- symbol.c:1066-1133, `End_ADT`. -/
def endADT (s : St) (ks : List Name) : St :=
  match s.adt with
  | [] => { s with level := 1 }
  | last :: rest =>
    if ks.any (fun k => (s.find k).isNone) then { s with adt := rest, level := 1 }
    else
      let lvl := s.level - 1
      let seg := s.defs.takeWhile (fun r => r.id ≠ last)
      let old := s.defs.dropWhile (fun r => r.id ≠ last)
      let (l, t, c) := closeLoop lvl seg ks [] s.ctors
      { s with defs := l ++ old, tbl := openLoop old t, adt := rest, level := lvl, ctors := c }

/-- The statements of the language that change the table. -/
inductive Op where
  /-- `let`, `clet`, `letrec`, `val`, or an expression (which defines `it`) -/
  | define (n : Name)
  /-- `overload`, `open_overload`, and external functions -/
  | overload (n : Name)
  /-- `forward_declare` -/
  | forward (n : Name)
  /-- `lettype` with constructors and the other functions it makes -/
  | types (cs fs : List Name)
  /-- `export` -/
  | exp (n : Name)
  /-- `begin_abstype` -/
  | opens
  /-- `end_abstype` with a list of names -/
  | closes (ks : List Name)
deriving DecidableEq, Repr

def step (s : St) : Op → St
  | .define n => define s n
  | .overload n => overload s n
  | .forward n => forward s n
  | .types cs fs => types s cs fs
  | .exp n => exportFun s n
  | .opens => beginADT s
  | .closes ks => endADT s ks

/-- The state after a session. -/
def run (h : List Op) : St := h.foldl step start

/-- symbol.c:524-540, `Mark_symbols`: whether a collection of garbage keeps the body of a definition
because the definition itself is visible. -/
def St.kept (s : St) (i : Nat) : Bool := s.defs.any (fun r => r.id == i && r.visible)

/-- `find_hash(&Constructor_Table, name)`: whether a name may be used as a constructor in a
pattern. -/
def St.isCtor (s : St) (n : Name) : Bool := n ∈ s.ctors

end Voss.Scope
