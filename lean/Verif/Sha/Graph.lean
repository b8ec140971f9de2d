import Verif.Sha.Model
import Verif.Vec.Model

/-
Model of the text of a value that `sha256_signature` hashes (`src/bin/fl/sha256.c`).

Simplifications.
* A graph is a map from addresses to nodes; address 0 is NULL.
* Leaves that hold a BDD or an external object are left out; leaves that hold a Boolean expression have a model of their own.
* Recursion is bounded by a number; `none` means that the number was too small.  `c80_terminates` gives a number that
  suffices for every finite graph.
-/
namespace Voss.Sha

abbrev Addr := Nat
abbrev Text := List Char

/-- The primitive functions that carry a format string. -/
inductive Fmt where
  | sscanf | printf | sprintf | eprintf | fprintf
deriving DecidableEq

/-- A node of the graph (graph.h; sha256.c:409-517). -/
inductive Node where
  | nil
  | lam (v : Text) (body : Addr)
  | app (l r : Addr)
  | cons (h t : Addr)
  | int (z : Int)
  | str (s : Text)
  | ext (name : Text)
  | fmt (f : Fmt) (s : Text)
  | ref (r : Nat) (contents : Addr)
  | prim (name : Text)
  | var (s : Text)
  | userdef (sig : Text)
deriving DecidableEq

abbrev Heap := Addr → Node

/-- What is printed about a node: its nodes are replaced by their numbers. -/
inductive Shape where
  | nil
  | lam (v : Text) (body : Nat)
  | app (l r : Nat)
  | cons (h t : Nat)
  | int (z : Int)
  | str (s : Text)
  | ext (name : Text)
  | fmt (f : Fmt) (s : Text)
  | ref (r : Nat)
  | prim (name : Text)
  | var (s : Text)
  | userdef (sig : Text)
deriving DecidableEq

def Fmt.name : Fmt → Text
  | .sscanf => ['s', 's', 'c', 'a', 'n', 'f']
  | .printf => ['p', 'r', 'i', 'n', 't', 'f']
  | .sprintf => ['s', 'p', 'r', 'i', 'n', 't', 'f']
  | .eprintf => ['e', 'p', 'r', 'i', 'n', 't', 'f']
  | .fprintf => ['f', 'p', 'r', 'i', 'n', 't', 'f']

/-- `%d` of a number that is not negative. -/
def dec (n : Nat) : Text := Nat.toDigits 10 n

/-- The nodes that are visited below a node, in their order (sha256.c:410-426, 474-477). -/
def Node.kids : Node → List Addr
  | .lam _ b => [b]
  | .app l r => [l, r]
  | .cons h t => [h, t]
  | .ref _ c => [c]
  | _ => []

/-- What is printed about a node whose children have the numbers `ns`.  The number of the contents of a reference is
computed and not printed (sha256.c:474-480). -/
def Node.shape : Node → List Nat → Shape
  | .nil, _ => .nil
  | .lam v _, ns => .lam v (ns.getD 0 0)
  | .app _ _, ns => .app (ns.getD 0 0) (ns.getD 1 0)
  | .cons _ _, ns => .cons (ns.getD 0 0) (ns.getD 1 0)
  | .int z, _ => .int z
  | .str s, _ => .str s
  | .ext n, _ => .ext n
  | .fmt f s, _ => .fmt f s
  | .ref r _, _ => .ref r
  | .prim n, _ => .prim n
  | .var s, _ => .var s
  | .userdef s, _ => .userdef s

/-- The part of a line after the sign `=` (sha256.c:405-517). -/
def Shape.body : Shape → Text
  | .nil => ['[', ']']
  | .lam v b => '\\' :: (v ++ '.' :: dec b)
  | .app l r => dec l ++ '@' :: dec r
  | .cons l r => dec l ++ ':' :: dec r
  | .int z => 'I' :: Voss.Vec.decimal z
  | .str s => '"' :: (s ++ ['"'])
  | .ext n => 'E' :: 'F' :: 'N' :: '(' :: (n ++ [')'])
  | .fmt f s => f.name ++ ' ' :: '\\' :: '"' :: (s ++ ['\\', '"'])
  | .ref r => 'R' :: 'E' :: 'F' :: ' ' :: dec r
  | .prim n => 'P' :: 'F' :: 'N' :: ' ' :: n
  | .var s => 'V' :: 'A' :: 'R' :: ' ' :: s
  | .userdef s => 'U' :: 'D' :: ' ' :: s

/-- What is printed after the end of the line (sha256.c:455-471: the parenthesis is behind the newline). -/
def Shape.tail : Shape → Text
  | .fmt _ _ => [')']
  | _ => []

/-- The text of one call of `SHA256_printf`. -/
def line (k : Nat) (s : Shape) : Text := dec k ++ '=' :: (s.body ++ '\n' :: s.tail)

/-- The counter, the table of the nodes seen and what has been printed. -/
structure St where
  cnt : Nat
  tbl : List (Addr × Nat)
  out : List Text
deriving DecidableEq

/-- The state at the start (sha256.c:266-269). -/
def St.start : St := ⟨1, [], []⟩

/-- Visiting several nodes one after the other. -/
def visitAll (f : St → Addr → Option (Nat × St)) : St → List Addr → Option (List Nat × St)
  | st, [] => some ([], st)
  | st, a :: as =>
    match f st a with
    | none => none
    | some (k, st1) =>
      match visitAll f st1 as with
      | none => none
      | some (ks, st2) => some (k :: ks, st2)

/-- sha256.c:392-518 `SHA256_traverse_graph`. -/
def visit (h : Heap) : Nat → St → Addr → Option (Nat × St)
  | 0, _, _ => none
  | n + 1, st, a =>
    if a = 0 then some (1, st) else
    match st.tbl.lookup a with
    | some k => some (k, st)
    | none =>
      match visitAll (visit h n) { st with cnt := st.cnt + 1, tbl := (a, st.cnt) :: st.tbl } (h a).kids with
      | none => none
      | some (ks, st2) => some (st.cnt, { st2 with out := st2.out ++ [line st.cnt ((h a).shape ks)] })

/-- The pieces that are printed for the value at `root`. -/
def printed (h : Heap) (fuel : Nat) (root : Addr) : Option (List Text) :=
  (visit h fuel St.start root).map fun p => p.2.out

/-- Characters as bytes. -/
def toBytes (t : Text) : List Byte := t.map fun c => BitVec.ofNat 8 c.toNat

/-- sha256.c:261-285, 325-348 `sha256_signature` and `Get_SHA256_signature` when nothing fails. -/
def signature (junk : List Byte) (h : Heap) (fuel : Nat) (root : Addr) : Option Text :=
  (printed h fuel root).map fun ps => hashOf junk (ps.map toBytes)

/-! ### Boolean expressions -/

/-- A Boolean expression (bexpr.c); nodes are unique, so that equality is equality of addresses. -/
inductive BE where
  | tt
  | var (s : Text)
  | and (l r : BE)
  | neg (e : BE)
deriving DecidableEq

/-- The state of the traversal of expressions: counter, table and pieces. -/
structure BSt where
  cnt : Int
  tbl : List (BE × Int)
  out : List Text

/-- bexpr.c:429-452 `SHA256_bexpr`; `none` is undefined behaviour: the format of a conjunction is `"%d=& %s %d %d\n"` and
the arguments are three numbers. -/
def shaBexpr (st : BSt) (f : BE) : Option (Int × BSt) :=
  match f with
  | .neg .tt => some (-1, st)
  | .tt => some (1, st)
  | f =>
    let neg := match f with | .neg _ => true | _ => false
    let p := match f with | .neg e => e | e => e
    match st.tbl.lookup p with
    | some r => some (if neg then -r else r, st)
    | none =>
      let r := if neg then -st.cnt else st.cnt
      let st1 : BSt := { st with cnt := st.cnt + 1, tbl := (p, r) :: st.tbl }
      match p with
      | .var s => some (r, { st1 with out := st1.out ++ [Voss.Vec.decimal r ++ "=V ".toList ++ s ++ ['\n']] })
      | _ => none

end Voss.Sha
