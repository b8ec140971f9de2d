/-
Model of the builtin list functions of fl: `src/bin/fl/list_ops.c`.

Conventions.
* An argument that is fully evaluated, or whose spine is, is a `List`; a pointer into it is `some rest` and
  `NULL` is `none`.  A result that is built by `APPEND1` at `tail` is the list of what has been appended.
* A list that is evaluated on demand is a node; `heap s` is what `traverse_left` makes of node `s`.
* Hash tables are lists of entries: the newest entry for an equal key is found (C45).  `eq` is the comparison
  given to `create_hash`.
* Not modelled: reference counts (C65), non-termination of the evaluation of an element, lists of 2^31
  elements and more.
-/
namespace Voss.Lst

/-- Outcome of a builtin: a value, the failure of an argument or of a function that was applied (with its
message), a failure of its own, undefined behaviour, or no result within the steps given. -/
inductive Res (β : Type) where
  | ok (v : β)
  | fail (m : String)
  | own
  | ub
  | more
deriving DecidableEq

/-- What applying a predicate can give: `T`, `F`, another formula, or a failure. -/
inductive PRes where
  | one
  | zero
  | sym
  | fail (m : String)
deriving DecidableEq

/-- A list node in weak head normal form. -/
inductive Cell (α σ : Type) where
  | nil
  | cons (hd : α) (tl : σ)
  | fail (m : String)

/-- `GET_INT` graph.c:1752-1760: a 64 bit word converted to `int`; `none`: an integer of more than one word,
for which `Arbi_ToInt` gives a null pointer that is followed. -/
def getInt (z : Int) : Option Int :=
  if -2^63 ≤ z ∧ z < 2^63 then some (z.bmod (2^32)) else none

section
variable {α β σ : Type}

/-! ### Lists with evaluated spines -/

/-- `GET_CONS_TL` of a list node; `NIL` has null children (graph.h:262-264). -/
def tlPtr : List α → Option (List α)
  | [] => none
  | _ :: t => some t

/-- `list = GET_CONS_TL(list)`, `n` times; `none`: a null pointer is followed. -/
def skip : Nat → Option (List α) → Option (Option (List α))
  | 0, p => some p
  | n + 1, some l => skip n (tlPtr l)
  | _ + 1, none => none

/-- The loop of `butlastn` list_ops.c:731-738: copy `n` elements; `GET_CONS_HD(NIL)` is a null pointer and
`INC_REFCNT` follows it. -/
def copyN : Nat → List α → List α → Option (List α)
  | 0, _, res => some res
  | _ + 1, [], _ => none
  | n + 1, e :: t, res => copyN n t (res ++ [e])

/-- `rev` list_ops.c:531-557: the elements are pushed on a buffer, which is read from its end. -/
def rev (l : List α) : List α :=
  let buf := l.foldl (fun b e => b ++ [e]) []
  buf.foldr (fun e res => res ++ [e]) []

/-- `length` list_ops.c:559-574. -/
def length : List α → Int → Int
  | [], cnt => cnt
  | _ :: t, cnt => length t (cnt + 1)

/-- `lastn` list_ops.c:668-702.  `len - cnt` overflows for some negative `cnt`; this is undefined as is following
the null pointer at the end of the list. -/
def lastn (z : Int) (l : List α) : Res (List α) :=
  match getInt z with
  | none => .ub
  | some cnt =>
    let len := length l 0
    if cnt > len then .own
    else match skip (len - cnt).toNat (some l) with
      | some (some r) => .ok r
      | _ => .ub

/-- `butlastn` list_ops.c:705-740. -/
def butlastn (z : Int) (l : List α) : Res (List α) :=
  match getInt z with
  | none => .ub
  | some cnt =>
    let len := length l 0
    if cnt > len then .own
    else match copyN (len - cnt).toNat l [] with
      | some r => .ok r
      | none => .ub

/-- `butlast` list_ops.c:603-628. -/
def butlastLoop : List α → List α → List α
  | [], res => res
  | [_], res => res
  | e :: e' :: t, res => butlastLoop (e' :: t) (res ++ [e])

def butlast (l : List α) : Res (List α) := if l.isEmpty then .own else .ok (butlastLoop l [])

/-- `last` list_ops.c:1429-1454; the element is evaluated by the caller of this model. -/
def lastLoop : List α → Option α → Option α
  | [], prev => prev
  | e :: t, _ => lastLoop t (some e)

def last (l : List α) : Res α :=
  match l with
  | [] => .own
  | _ => match lastLoop l none with
    | some e => .ok e
    | none => .ub

/-- `copy_list` list_ops.c:1143-1156. -/
def copyList : List α → List α → List α
  | [], res => res
  | e :: t, res => copyList t (res ++ [e])

/-- `append` list_ops.c:1376-1404: a copy of the first list, its last node changed to continue with the
second one.  (The copy of a list of `n` elements has `n + 1` nodes, the last one `NIL`; `prev` is the node
before.) -/
def append (l1 l2 : List α) : List α :=
  match l1 with
  | [] => l2
  | _ => copyList l1 [] ++ l2

/-- `flat` list_ops.c:1407-1426. -/
def flatLoop : List (List α) → List α → List α
  | [], res => res
  | l :: t, res => flatLoop t (res ++ copyList l [])

def flat (l : List (List α)) : List α := flatLoop l []

/-- `sitlist` list_ops.c:458-483: from the last element to the first one. -/
def sitlist (f : α → β → β) (l : List α) (z : β) : β :=
  let buf := l.foldl (fun b e => b ++ [e]) []
  buf.reverse.foldl (fun cur e => f e cur) z

/-- The conversion of an `int` to `unsigned long` (`ui`). -/
def toUi (z : Int) : Nat := (z % 2^64).toNat

/-- `gather` list_ops.c:1456-1491. -/
def gatherLoop (buf : List α) : List Int → List α → Res (List α)
  | [], res => .ok res
  | z :: t, res =>
    match getInt z with
    | none => .ub
    | some i =>
      let idx := toUi i
      if idx < 1 ∨ idx > buf.length then .own
      else match buf[idx - 1]? with
        | some e => gatherLoop buf t (res ++ [e])
        | none => .ub

def gather (l : List α) (is : List Int) : Res (List α) := gatherLoop l is []

/-- `separate` list_ops.c:1494-1546: what has been selected is replaced by a null pointer in the buffer. -/
def sepLoop : List Int → List (Option α) → List α → Res (List α × List α)
  | [], buf, sel => .ok (sel, buf.filterMap id)
  | z :: t, buf, sel =>
    match getInt z with
    | none => .ub
    | some i =>
      let idx := toUi i
      if idx < 1 ∨ idx > buf.length then .own
      else match buf[idx - 1]? with
        | some (some e) => sepLoop t (buf.set (idx - 1) none) (sel ++ [e])
        | some none => sepLoop t buf sel
        | none => .ub

def separate (l : List α) (is : List Int) : Res (List α × List α) := sepLoop is (l.map some) []

/-! ### Predicates on the elements -/

/-- `filter` list_ops.c:968-1007. -/
def filterLoop (p : α → PRes) : List α → List α → Res (List α)
  | [], res => .ok res
  | e :: t, res =>
    match p e with
    | .fail m => .fail m
    | .one => filterLoop p t (res ++ [e])
    | .zero => filterLoop p t res
    | .sym => .own

def filter (p : α → PRes) (l : List α) : Res (List α) := filterLoop p l []

/-- `find_all` list_ops.c:922-965: the positions, from 1. -/
def findAllLoop (p : α → PRes) : List α → Int → List Int → Res (List Int)
  | [], _, res => .ok res
  | e :: t, idx, res =>
    match p e with
    | .fail m => .fail m
    | .one => findAllLoop p t (idx + 1) (res ++ [idx + 1])
    | .zero => findAllLoop p t (idx + 1) res
    | .sym => .own

def findAll (p : α → PRes) (l : List α) : Res (List Int) := findAllLoop p l 0 []

/-- `split` list_ops.c:1010-1063. -/
def splitLoop (p : α → PRes) : List α → List α → List α → Res (List α × List α)
  | [], ok, notOk => .ok (ok, notOk)
  | e :: t, ok, notOk =>
    match p e with
    | .fail m => .fail m
    | .one => splitLoop p t (ok ++ [e]) notOk
    | .zero => splitLoop p t ok (notOk ++ [e])
    | .sym => .own

def split (p : α → PRes) (l : List α) : Res (List α × List α) := splitLoop p l [] []

/-- `partition` list_ops.c:1066-1129: a table from values of the function to the number (from 1) of their
class, and a buffer of classes. -/
def partLoop (eq : β → β → Bool) (f : α → Except String β) :
    List α → List (β × Nat) → List (List α) → Res (List (List α))
  | [], _, res => .ok res
  | e :: t, tbl, res =>
    match f e with
    | .error m => .fail m
    | .ok v =>
      match tbl.find? (fun x => eq v x.1) with
      | none => partLoop eq f t ((v, res.length + 1) :: tbl) (res ++ [[e]])
      | some x => match res[x.2 - 1]? with
        | some c => partLoop eq f t tbl (res.set (x.2 - 1) (c ++ [e]))
        | none => .ub

def partition (eq : β → β → Bool) (f : α → Except String β) (l : List α) : Res (List (List α)) :=
  partLoop eq f l [] []

/-! ### Sets -/

/-- `find_hash(&set, d) != NULL` where the entries are their own keys. -/
def has (eq : α → α → Bool) (set : List α) (d : α) : Bool := (set.find? (fun x => eq d x)).isSome

/-- The loop of `setify` (list_ops.c:586-596) and the two loops of `union` (1176-1191): append what is not in the
table yet. -/
def addNew (eq : α → α → Bool) : List α → List α → List α → List α × List α
  | [], set, res => (set, res)
  | d :: t, set, res =>
    if has eq set d then addNew eq t set res else addNew eq t (d :: set) (res ++ [d])

/-- `setify` list_ops.c:576-600. -/
def setify (eq : α → α → Bool) (l : List α) : List α := (addNew eq l [] []).2

/-- `my_union` list_ops.c:1158-1193. -/
def union (eq : α → α → Bool) (s1 s2 : List α) : List α :=
  if s1.isEmpty then s2
  else if s2.isEmpty then s1
  else
    let r := addNew eq s1 [] []
    (addNew eq s2 r.1 r.2).2

/-- The loop that fills the table in `intersect`, `overlap` and `subtract` (list_ops.c:1210-1216). -/
def fill (eq : α → α → Bool) : List α → List α → List α
  | [], set => set
  | d :: t, set => if has eq set d then fill eq t set else fill eq t (d :: set)

/-- The second loop of `intersect`, list_ops.c:1220-1231: what has been found is deleted; stop when the table
is empty. -/
def interLoop (eq : α → α → Bool) : List α → List α → List α → List α
  | [], _, res => res
  | d :: t, set, res =>
    if has eq set d then
      let set' := set.eraseP (fun x => eq d x)
      if set'.length = 0 then res ++ [d] else interLoop eq t set' (res ++ [d])
    else interLoop eq t set res

/-- `intersect` list_ops.c:1196-1233. -/
def intersect (eq : α → α → Bool) (s1 s2 : List α) : List α :=
  if s1.isEmpty then s1
  else if s2.isEmpty then s2
  else interLoop eq s1 (fill eq s2 []) []

/-- `overlap` list_ops.c:1236-1273. -/
def overlapLoop (eq : α → α → Bool) (set : List α) : List α → Bool
  | [] => false
  | d :: t => if has eq set d then true else overlapLoop eq set t

def overlap (eq : α → α → Bool) (s1 s2 : List α) : Bool :=
  if s1.isEmpty then false
  else if s2.isEmpty then false
  else overlapLoop eq (fill eq s1 []) s2

/-- `subtract` list_ops.c:1276-1308. -/
def subLoop (eq : α → α → Bool) (set : List α) : List α → List α → List α
  | [], res => res
  | d :: t, res => if has eq set d then subLoop eq set t res else subLoop eq set t (res ++ [d])

def subtract (eq : α → α → Bool) (s1 s2 : List α) : List α :=
  if s1.isEmpty then s1
  else if s2.isEmpty then s1
  else subLoop eq (fill eq s2 []) s1 []

/-- The first loop of `set_eq` list_ops.c:1332-1343; `none`: a duplicate. -/
def setEqFill (eq : α → α → Bool) : List α → List α → Option (List α)
  | [], tbl => some tbl
  | d :: t, tbl => if has eq tbl d then none else setEqFill eq t (d :: tbl)

/-- The second loop of `set_eq` list_ops.c:1347-1364. -/
def setEqLoop (eq : α → α → Bool) (tbl1 : List α) (cnt1 : Nat) : List α → List α → Nat → Res Bool
  | [], _, cnt2 => .ok (cnt1 == cnt2)
  | d :: t, tbl2, cnt2 =>
    if !has eq tbl1 d then .ok false
    else if has eq tbl2 d then .own
    else setEqLoop eq tbl1 cnt1 t (d :: tbl2) (cnt2 + 1)

/-- `set_eq` list_ops.c:1311-1373. -/
def setEq (eq : α → α → Bool) (s1 s2 : List α) : Res Bool :=
  if s1.isEmpty then (if s2.isEmpty then .ok true else .ok false)
  else if s2.isEmpty then .ok false
  else match setEqFill eq s1 [] with
    | none => .own
    | some tbl1 => setEqLoop eq tbl1 s1.length s2 [] 0

/-! ### Lists evaluated on demand -/

/-- `butfirstn` list_ops.c:630-665; the result is a node. -/
def butfirstnLoop (heap : σ → Cell α σ) : Nat → σ → Res σ
  | 0, s => .ok s
  | n + 1, s =>
    match heap s with
    | .nil => .own
    | .fail _ => .ub
    | .cons _ t => match heap t with
      | .fail m => .fail m
      | _ => butfirstnLoop heap n t

def butfirstn (heap : σ → Cell α σ) (z : Int) (s : σ) : Res σ :=
  match getInt z with
  | none => .ub
  | some cnt => butfirstnLoop heap cnt.toNat s

/-- `firstn` list_ops.c:743-786. -/
def firstnLoop (heap : σ → Cell α σ) : Nat → σ → List α → Res (List α)
  | 0, _, res => .ok res
  | n + 1, s, res =>
    match heap s with
    | .nil => .own
    | .fail _ => .ub
    | .cons e t => match heap t with
      | .fail m => .fail m
      | _ => firstnLoop heap n t (res ++ [e])

def firstn (heap : σ → Cell α σ) (z : Int) (s : σ) : Res (List α) :=
  match getInt z with
  | none => .ub
  | some cnt => firstnLoop heap cnt.toNat s []

/-- `find_first0` list_ops.c:788-836; the first argument bounds the number of steps. -/
def findFirst (heap : σ → Cell α σ) (p : α → PRes) : Nat → σ → Int → Res Int
  | 0, _, _ => .more
  | n + 1, s, idx =>
    match heap s with
    | .nil => .ok 0
    | .fail _ => .ub
    | .cons e t => match p e with
      | .fail m => .fail m
      | .one => .ok (idx + 1)
      | .sym => .own
      | .zero => match heap t with
        | .fail m => .fail m
        | _ => findFirst heap p n t (idx + 1)

/-- `find` list_ops.c:839-886. -/
def find (heap : σ → Cell α σ) (p : α → PRes) : Nat → σ → Res α
  | 0, _ => .more
  | n + 1, s =>
    match heap s with
    | .nil => .own
    | .fail _ => .ub
    | .cons e t => match p e with
      | .fail m => .fail m
      | .one => .ok e
      | .sym => .own
      | .zero => match heap t with
        | .fail m => .fail m
        | _ => find heap p n t

/-- `loop` list_ops.c:410-455; the first argument bounds the number of rounds. -/
def loop (upd : α → Except String α) (stop : α → PRes) : Nat → α → Res α
  | 0, _ => .more
  | n + 1, cur =>
    match stop cur with
    | .fail m => .fail m
    | .one => .ok cur
    | .sym => .own
    | .zero => match upd cur with
      | .error m => .fail m
      | .ok c => loop upd stop n c

end
end Voss.Lst
