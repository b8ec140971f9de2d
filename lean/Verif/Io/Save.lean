import Verif.Io.Fmt
/-
Model of saving and loading of values (`write_T`, `read_T`, `emit_eval_graph`): `Save_graph` and `Load_graph`
(io.c) with the graph part of `serialize.c`.

Conventions.
* Addresses are numbers, 0 is `NULL`.
* A string is the list of its characters.  Strings are kept once per text (`wastrsave`), so the pointer of a
  string is its text; the text that `Arbi_ToString` makes of a number lies at a new address each time.
* BDDs and bexprs are numbers here; their files are those of `Save_BDDs` (C23) and `Save_bexprs` (C28).  What
  they give back is a parameter of `load`.
* The text of a number is its numeral, and reading it gives its value (C06).
* External objects (`EXT_OBJ`) are never savable here: the functions that save and load them are left out.
* The depth of the C stack is not bounded, and addresses and indices fit into the types of C.
* The packing by `tar`, and failing file operations, are left out.
-/
namespace Voss.Io.Save
open Voss.Arbi

/-- The primitives that carry a text: `P_FAIL`, `P_DEBUG` and the functions for formats. -/
inductive Kind where
  | fail | debug | sscanf | printf | fprintf | sprintf | eprintf
deriving DecidableEq

/-- Nodes of the graph (graph.h:185-420). -/
inductive Node where
  | app (l r : Nat)
  | nil
  | cons (h t : Nat)
  | int (z : Int)
  | str (s : List Char)
  | bool (f : Nat)
  | bexpr (f : Nat)
  | ext (cls : Nat)
  | text (k : Kind) (s : List Char)
  | file (id : Nat)
  | ref (v : Nat)
  | cache (c : Nat)
  | extapi (n : Nat)
  | prim (n : Nat)
  | var (s : List Char)
deriving DecidableEq

/-- What a running fl program consists of, as far as it matters here: the nodes, the contents of the reference
variables and their number (cache.c:220-243), the number of caches, and the open streams `open_ios` (io.c:83-97). -/
structure Mem where
  heap : Nat → Option Node
  refs : Nat → Nat
  nref : Nat
  ncache : Nat
  streams : List (Nat × List Char)

/-- `Get_StreamName` io.c:93-97. -/
def nameOf (M : Mem) (id : Nat) : Option (List Char) := M.streams.lookup id

/-- `Get_OpenStream` io.c:82-91. -/
def openStream (M : Mem) (name : List Char) : Option Nat := (M.streams.find? (·.2 = name)).map (·.1)

/-- The nodes that a node points to, in the order in which they are written (serialize.c:542-560, 615-621). -/
def kids (M : Mem) : Node → List Nat
  | .app l r => [l, r]
  | .cons h t => [h, t]
  | .ref v => [M.refs v]
  | _ => []

/-- The streams that can be saved (io.c:1549-1562). -/
def stdNames : List (List Char) := ["stdout".toList, "stderr".toList, "stdinfo".toList]

/-- Can the node itself be saved? (io.c:1500-1570) -/
def leafOK (M : Mem) : Node → Bool
  | .ext _ => false
  | .file id => match nameOf M id with
    | some n => n ∈ stdNames
    | none => false
  | _ => true

/-- The program stops: out of fuel, which no real run is, or by `DIE`, `ASSERT`, `Rprintf` or a `NULL` pointer. -/
inductive Err where
  | fuel
  | die
deriving DecidableEq

/-- Check several nodes one after the other. -/
def canAll (g : List Nat → Nat → Except Err (Bool × List Nat)) : List Nat → List Nat → Except Err (Bool × List Nat)
  | seen, [] => .ok (true, seen)
  | seen, k :: ks => match g seen k with
    | .ok (true, seen) => canAll g seen ks
    | r => r

/-- `can_be_saved` io.c:1479-1573; `seen` is `g_save_tbl`. -/
def canSave (M : Mem) : Nat → List Nat → Nat → Except Err (Bool × List Nat)
  | 0, _, _ => .error .fuel
  | f + 1, seen, p =>
    if p ∈ seen then .ok (true, seen)
    else match M.heap p with
      | none => .error .die
      | some nd => if leafOK M nd then canAll (canSave M f) (p :: seen) (kids M nd) else .ok (false, p :: seen)

/-! ### Writing -/

/-- What the file `graph` consists of. -/
inductive Tok where
  | ptr (p : Nat)
  | tag (c : Char)
  | num (n : Nat)
deriving DecidableEq

/-- The text of an item: `%p\n` (serialize.c:136-149), `EMIT` (serialize.c:533), `%d\n` (serialize.c:162-168). -/
def Tok.text : Tok → List Char
  | .ptr p => '0' :: 'x' :: numeral 16 p ++ ['\n']
  | .tag c => [c, '\n']
  | .num n => numeral 10 n ++ ['\n']

def text (l : List Tok) : List Char := l.flatMap Tok.text

/-- The state of `Save_graph`: the text written so far, `objs_saved`, `string_buf`, `bool_buf`, `bexpr_buf`.
In the buffer of strings, `true` marks the text of a number. -/
structure WS where
  out : List Tok
  seen : List Nat
  strs : List (Bool × List Char)
  bools : List Nat
  bexprs : List Nat

/-- `find_insert_uniq_buf` uniq_buf.c:68-84 (C49). -/
def intern {α : Type} [DecidableEq α] (l : List α) (x : α) : Nat × List α :=
  if x ∈ l then (l.idxOf x, l) else (l.length, l ++ [x])

def WS.emit (w : WS) (l : List Tok) : WS := { w with out := w.out ++ l }

/-- `write_string` serialize.c:162-169. -/
def WS.str (w : WS) (s : List Char) : WS :=
  let r := intern w.strs (false, s)
  { w with strs := r.2, out := w.out ++ [.num r.1] }

/-- `write_arbi_T` serialize.c:265-271: the text of the number is at a new address. -/
def WS.int (w : WS) (z : Int) : WS :=
  { w with strs := w.strs ++ [(true, renderInt 10 z)], out := w.out ++ [.num w.strs.length] }

/-- `write_formula` serialize.c:283-289. -/
def WS.bool (w : WS) (f : Nat) : WS :=
  let r := intern w.bools f
  { w with bools := r.2, out := w.out ++ [.num r.1] }

/-- `write_bexpr`, in the same way. -/
def WS.bexpr (w : WS) (f : Nat) : WS :=
  let r := intern w.bexprs f
  { w with bexprs := r.2, out := w.out ++ [.num r.1] }

/-- The tags serialize.c:511-531. -/
def Kind.tag : Kind → Char
  | .fail => 'F'
  | .debug => 'D'
  | .sscanf => '<'
  | .printf => '!'
  | .fprintf => '#'
  | .sprintf => '$'
  | .eprintf => '@'

/-- `write_g_rec` serialize.c:538-671, without the pointers at the end of a record; `none`: the program stops. -/
def record (M : Mem) (w : WS) : Node → Option WS
  | .app _ _ => some (w.emit [.tag 'A'])
  | .nil => some (w.emit [.tag '0'])
  | .cons _ _ => some (w.emit [.tag 'C'])
  | .int z => some ((w.emit [.tag 'I']).int z)
  | .str s => some ((w.emit [.tag 'S']).str s)
  | .bool f => some ((w.emit [.tag 'B']).bool f)
  | .bexpr f => some ((w.emit [.tag 'E']).bexpr f)
  | .ext _ => none
  | .text k s => some ((w.emit [.tag k.tag]).str s)
  | .file id => match nameOf M id with
    | some n => some ((w.emit [.tag 'f']).str n)
    | none => none
  | .ref _ => some (w.emit [.tag 'R'])
  | .cache _ => some (w.emit [.tag '='])
  | .extapi n => some (w.emit [.tag 'X', .num n])
  | .prim n => some (w.emit [.tag 'P', .num n])
  | .var s => some ((w.emit [.tag 'V']).str s)

/-- Write several pointers one after the other. -/
def writeAll (g : WS → Nat → Except Err WS) : WS → List Nat → Except Err WS
  | w, [] => .ok w
  | w, k :: ks => match g w k with
    | .ok w => writeAll g w ks
    | .error e => .error e

/-- `write_g_ptr` serialize.c:473-481 with `write_pointer` serialize.c:136-149. -/
def writePtr (M : Mem) : Nat → WS → Nat → Except Err WS
  | 0, _, _ => .error .fuel
  | f + 1, w, p =>
    if p = 0 then .ok (w.emit [.ptr 0])
    else
      if p ∈ w.seen then .ok (w.emit [.ptr p])
      else match M.heap p with
        | none => .error .die
        | some nd => match record M { w with out := w.out ++ [.ptr p], seen := p :: w.seen } nd with
          | none => .error .die
          | some w => writeAll (writePtr M f) w (kids M nd)

/-- The file `strings` (io.c:1022-1025). -/
def stringsText (l : List (List Char)) : List Char := l.flatMap fun s => numeral 10 s.length ++ ' ' :: s ++ ['\n']

/-- The file that `Save_graph` makes. -/
structure Archive where
  sig : List Char
  strings : List Char
  graph : List Char
  bools : List Nat
  bexprs : List Nat

/-- `Save_graph` io.c:980-1052; `none`: it refuses.  The number in the signature file is `g_save_cnt`, which is
always 0. -/
def save (M : Mem) (sig : List Char) (p : Nat) (fuel : Nat) : Except Err (Option Archive) :=
  match canSave M fuel [] p with
  | .error e => .error e
  | .ok (false, _) => .ok none
  | .ok (true, _) => match writePtr M fuel ⟨[], [], [], [], []⟩ p with
    | .error e => .error e
    | .ok w => .ok (some ⟨'0' :: '\n' :: sig ++ ['\n'], stringsText (w.strs.map (·.2)), text w.out, w.bools, w.bexprs⟩)

/-! ### Reading -/

/-- White space for `fscanf`. -/
def isSpace (c : Char) : Bool := c = ' ' ∨ (9 ≤ c.toNat ∧ c.toNat ≤ 13)

def skip (s : List Char) : List Char := s.dropWhile isSpace

def isHex (c : Char) : Bool := match digitVal c with
  | some d => d < 16
  | none => false

/-- `fscanf(fp, "%d\n", &i)`; the numbers written here have no sign. -/
def rdNum (inp : List Char) : Option (Nat × List Char) :=
  let s := skip inp
  let d := s.takeWhile Char.isDigit
  if d = [] then none else (readNat 10 d).map fun n => (n, skip (s.dropWhile Char.isDigit))

/-- `fscanf(fp, "%p\n", &p)` serialize.c:151-159. -/
def rdPtr (inp : List Char) : Option (Nat × List Char) :=
  let s := skip inp
  let s := match s with
    | '0' :: 'x' :: r => r
    | _ => s
  let d := s.takeWhile isHex
  if d = [] then none else (readNat 16 d).map fun n => (n, skip (s.dropWhile isHex))

/-- `fgetc` twice (serialize.c:677-678). -/
def rdTag : List Char → Option (Char × List Char)
  | c :: _ :: r => some (c, r)
  | _ => none

/-- `Arbi_FromString` to the base 10 (C06). -/
def readInt : List Char → Option Int
  | '-' :: s => (readNat 10 s).map fun n => -(n : Int)
  | s => (readNat 10 s).map Int.ofNat

/-- `str_results`, `bool_results`, `bexpr_results`. -/
structure Tables where
  strs : List (List Char)
  bools : List Nat
  bexprs : List Nat

/-- A record before its pointers have been read. -/
inductive Shape where
  | app | nil | cons
  | int (z : Int)
  | str (s : List Char)
  | bool (f : Nat)
  | bexpr (f : Nat)
  | text (k : Kind) (s : List Char)
  | file (id : Nat)
  | ref | cache
  | extapi (n : Nat)
  | prim (n : Nat)
deriving DecidableEq

def Shape.arity : Shape → Nat
  | .app => 2
  | .cons => 2
  | .ref => 1
  | _ => 0

/-- `read_string` serialize.c:171-179. -/
def rdStr (T : Tables) (inp : List Char) : Option (List Char × List Char) :=
  match rdNum inp with
  | none => none
  | some (i, inp) => T.strs[i]?.map (·, inp)

/-- The kinds of nodes with a text, by their tags. -/
def kindOf (c : Char) : Option Kind :=
  if c = 'F' then some .fail
  else if c = 'D' then some .debug
  else if c = '<' then some .sscanf
  else if c = '!' then some .printf
  else if c = '#' then some .fprintf
  else if c = '$' then some .sprintf
  else if c = '@' then some .eprintf
  else none

/-- `read_g_rec` serialize.c:673-811 up to the pointers of a record; `none`: the program stops.  There is no case
for `TAG_VAR`. -/
def rdRecord (T : Tables) (M : Mem) (c : Char) (inp : List Char) : Option (Shape × List Char) :=
  if c = 'A' then some (.app, inp)
  else if c = '0' then some (.nil, inp)
  else if c = 'C' then some (.cons, inp)
  else if c = 'I' then do
    let (s, inp) ← rdStr T inp
    let z ← readInt s
    some (.int z, inp)
  else if c = 'S' then do
    let (s, inp) ← rdStr T inp
    some (.str s, inp)
  else if c = 'B' then do
    let (i, inp) ← rdNum inp
    let f ← T.bools[i]?
    some (.bool f, inp)
  else if c = 'E' then do
    let (i, inp) ← rdNum inp
    let f ← T.bexprs[i]?
    some (.bexpr f, inp)
  else if c = 'f' then do
    let (s, inp) ← rdStr T inp
    let id ← openStream M s
    some (.file id, inp)
  else if c = 'R' then some (.ref, inp)
  else if c = '=' then some (.cache, inp)
  else if c = 'X' then do
    let (n, inp) ← rdNum inp
    some (.extapi n, inp)
  else if c = 'P' then do
    let (n, inp) ← rdNum inp
    some (.prim n, inp)
  else do
    let k ← kindOf c
    let (s, inp) ← rdStr T inp
    some (.text k s, inp)

/-- The node that a record gives; a reference variable and a cache are made new (serialize.c:725-734, 772-776).
A `NULL` among the pointers is followed by `INC_REFCNT`. -/
def build (M : Mem) (sh : Shape) (ks : List Nat) : Option (Node × Mem) :=
  if 0 ∈ ks then none
  else match sh, ks with
    | .app, [l, r] => some (.app l r, M)
    | .cons, [h, t] => some (.cons h t, M)
    | .ref, [c] => some (.ref M.nref, { M with refs := fun v => if v = M.nref then c else M.refs v, nref := M.nref + 1 })
    | .nil, [] => some (.nil, M)
    | .int z, [] => some (.int z, M)
    | .str s, [] => some (.str s, M)
    | .bool f, [] => some (.bool f, M)
    | .bexpr f, [] => some (.bexpr f, M)
    | .text k s, [] => some (.text k s, M)
    | .file id, [] => some (.file id, M)
    | .cache, [] => some (.cache M.ncache, { M with ncache := M.ncache + 1 })
    | .extapi n, [] => some (.extapi n, M)
    | .prim n, [] => some (.prim n, M)
    | _, _ => none

def put (M : Mem) (q : Nat) (nd : Node) : Mem := { M with heap := fun y => if y = q then some nd else M.heap y }

/-- The state of `Load_graph`: the rest of the file, `pointer_map`, the memory, and how many nodes have been
allocated. -/
structure RS where
  inp : List Char
  map : List (Nat × Nat)
  mem : Mem
  cnt : Nat

/-- Read several pointers one after the other. -/
def readAll (g : RS → Except Err (Nat × RS)) : Nat → RS → Except Err (List Nat × RS)
  | 0, r => .ok ([], r)
  | n + 1, r => match g r with
    | .error e => .error e
    | .ok (k, r) => match readAll g n r with
      | .error e => .error e
      | .ok (ks, r) => .ok (k :: ks, r)

/-- `read_g_ptr` serialize.c:483-504.  `alloc i` is the address that `Get_node` gives at its call number `i`. -/
def readPtr (T : Tables) (alloc : Nat → Nat) : Nat → RS → Except Err (Nat × RS)
  | 0, _ => .error .fuel
  | f + 1, r => match rdPtr r.inp with
    | none => .error .die
    | some (p, inp) =>
      if p = 0 then .ok (0, { r with inp := inp })
      else match r.map.lookup p with
        | some q => .ok (q, { r with inp := inp })
        | none => match (rdTag inp).bind fun ci => rdRecord T r.mem ci.1 ci.2 with
          | none => .error .die
          | some (sh, inp) =>
            match readAll (readPtr T alloc f) sh.arity
              { r with inp := inp, map := (p, alloc r.cnt) :: r.map, cnt := r.cnt + 1 } with
            | .error e => .error e
            | .ok (ks, r') => match build r'.mem sh ks with
              | none => .error .die
              | some (nd, M) => .ok (alloc r.cnt, { r' with mem := put M (alloc r.cnt) nd })

/-- The loop that reads the file `strings` (io.c:1127-1153); `none`: a syntax error.  The loop ends when a
`fgetc` has met the end of the file. -/
def rdStrings : Nat → List Char → Option (List (List Char))
  | 0, _ => none
  | f + 1, inp =>
    let d := inp.takeWhile Char.isDigit
    let rest := (inp.dropWhile Char.isDigit).drop 1
    let sz := (readNat 10 d).getD 0
    if rest.length < sz then none
    else
      let s := app [] (rest.take sz)
      match rest.drop sz with
      | [] => some [s]
      | _ :: rest => (rdStrings f rest).map (s :: ·)

/-- The check of the signature (io.c:1091-1104). -/
def sigOK (file sig : List Char) : Bool :=
  match rdNum file with
  | none => false
  | some (_, r) =>
    let line := (r.take (strBlock - 2)).takeWhile (· ≠ '\n')
    sig.isPrefixOf (line ++ if line.length < (r.take (strBlock - 2)).length then ['\n'] else [])

/-- `Load_graph` io.c:1054-1182; `none`: it reports a failure.  `bools` and `bexprs` are what the files of the
archive give. -/
def load (M : Mem) (alloc : Nat → Nat) (sig : List Char) (A : Archive) (bools bexprs : List Nat) (redex fuel : Nat) :
    Except Err (Option Mem) :=
  if sigOK A.sig sig then
    match rdStrings (A.strings.length + 1) A.strings with
    | none => .ok none
    | some strs => match readPtr ⟨strs, bools, bexprs⟩ alloc fuel ⟨A.graph, [], M, 0⟩ with
      | .error e => .error e
      | .ok (q, r) => match r.mem.heap q with
        | none => .error .die
        | some nd => .ok (some (put r.mem redex nd))
  else .ok none

/-- The signature of a type: its name, and the name and type of each constructor (symbol.c:680-697, 731).  The
constructors are taken in the order of the list. -/
def signature (name : List Char) (cs : List (List Char × List Char)) : List Char :=
  let body : List Char := match cs with
    | [] => []
    | c :: cs => ("  ".toList ++ c.1 ++ "::".toList ++ c.2 ++ " ".toList) ++
        cs.flatMap fun c => "| ".toList ++ c.1 ++ "::".toList ++ c.2 ++ " ".toList
  name ++ "= ".toList ++ body

end Voss.Io.Save
