import Verif.Bexpr.Spec
/-
Model of saving and loading expressions (bexpr.c:297-425, 1765-1797) at the level of bytes, and of the lazy
conditional `bITE` (bexpr.c:1048-1072).

A file is a list of bytes.  `fprintf` and `fscanf` are modelled for the formats used.  Numbers that do not fit
an `int`, names that do not fit the buffer of 1024 bytes and positions outside the work buffer are undefined.
Opening files and write errors are not modelled; the
nodes made before a failure are not kept.
-/
namespace Voss.Bexpr

abbrev Bytes := List (BitVec 8)

/-- Decimal digits. -/
def decF : Nat → Nat → Bytes
  | 0, _ => []
  | fuel + 1, n => (if n < 10 then [] else decF fuel (n / 10)) ++ [BitVec.ofNat 8 (48 + n % 10)]

def dec (n : Nat) : Bytes := decF (n + 1) n

/-- `%+d`. -/
def fmtInt (i : Int) : Bytes := (if i < 0 then 45 else 43) :: dec i.natAbs

/-- The lines written by `be_save` and `Save_bexprs`. -/
inductive Line where
  | v (n : Name)
  | a (l r : Int)
  | r (i : Int)
  deriving DecidableEq, Repr

/-- The formats `"v %s\n"`, `"a %+d %+d\n"` and `"r %+d\n"` (bexpr.c:1778, 1788, 320). -/
def Line.bytes : Line → Bytes
  | .v n => [118, 32] ++ n ++ [10]
  | .a il ir => [97, 32] ++ fmtInt il ++ [32] ++ fmtInt ir ++ [10]
  | .r i => [114, 32] ++ fmtInt i ++ [10]

/-- `bexpr_save_tbl`: nodes and their numbers; keys are compared with `be_eq`. -/
abbrev SaveTbl := List (Nat × Nat)

def SaveTbl.find (s : St) (t : SaveTbl) (i : Nat) : Option Nat :=
  (t.find? fun p => (s.nd p.1).node == (s.nd i).node).map (·.2)

def signed (neg : Bool) (k : Nat) : Int := if neg then -(k : Int) else k

/-- `be_save` (bexpr.c:1765-1797): the new lines, the table, `bexpr_save_cnt` and the result. -/
def beSave (s : St) : Nat → SaveTbl → Nat → Edge → Option (List Line × SaveTbl × Nat × Int)
  | 0, _, _, _ => none
  | fuel + 1, t, cnt, e =>
    if e = bF then some ([], t, cnt, 0)
    else if e = bT then some ([], t, cnt, 1)
    else match t.find s e.idx with
      | some k => some ([], t, cnt, signed e.neg k)
      | none => match (s.nd e.idx).node with
        | .var n => some ([.v n], (e.idx, cnt) :: t, cnt + 1, signed e.neg cnt)
        | .and l r => do
          let (ls, t, cnt, il) ← beSave s fuel t cnt l
          let (rs, t, cnt, ir) ← beSave s fuel t cnt r
          some (ls ++ rs ++ [.a il ir], (e.idx, cnt) :: t, cnt + 1, signed e.neg cnt)
        | _ => none

/-- The loop over the roots (bexpr.c:314-317). -/
def beSaveList (s : St) : SaveTbl → Nat → List Edge → Option (List Line × List Int)
  | _, _, [] => some ([], [])
  | t, cnt, e :: es => do
    let (ls, t, cnt, i) ← beSave s ((s.nd e.idx).sat + 1) t cnt e
    let (rs, is) ← beSaveList s t cnt es
    some (ls ++ rs, i :: is)

/-- `"SAVED_BEXPRS "`. -/
def header : Bytes := [83, 65, 86, 69, 68, 95, 66, 69, 88, 80, 82, 83, 32]

/-- The lines of the file after the header. -/
def saveLines (s : St) (roots : List Edge) : Option (List Line) := do
  let (ls, is) ← beSaveList s [] 2 roots
  some (ls ++ is.map .r)

/-- `Save_bexprs` (bexpr.c:297-327). -/
def saveBexprs (s : St) (roots : List Edge) : Option Bytes := do
  let ls ← saveLines s roots
  some (header ++ dec roots.length ++ [10] ++ ls.flatMap Line.bytes)

/-! ### Reading -/

/-- `isspace` in the C locale. -/
def isWs (b : BitVec 8) : Bool := b == 32 || (9 ≤ b.toNat && b.toNat ≤ 13)

def isDigit (b : BitVec 8) : Bool := 48 ≤ b.toNat && b.toNat ≤ 57

def skipWs (bs : Bytes) : Bytes := bs.dropWhile isWs

/-- Outcomes of reading an item: a value and the rest of the file; no match; undefined. -/
inductive Scan (α : Type) where
  | ok (a : α) (rest : Bytes)
  | fail
  | undef

def Scan.bind {α β : Type} (x : Scan α) (f : α → Bytes → Scan β) : Scan β :=
  match x with
  | .ok a rest => f a rest
  | .fail => .fail
  | .undef => .undef

def digitsVal (ds : Bytes) : Nat := ds.foldl (fun n d => 10 * n + (d.toNat - 48)) 0

/-- The sign of a number. -/
def takeSign : Bytes → Bool × Bytes
  | b :: r => if b = 45 then (true, r) else if b = 43 then (false, r) else (false, b :: r)
  | [] => (false, [])

/-- `%d`. -/
def scanInt (bs : Bytes) : Scan Int :=
  let (neg, bs) := takeSign (skipWs bs)
  let ds := bs.takeWhile isDigit
  if ds = [] then .fail
  else
    let v := digitsVal ds
    if (if neg then v > 2 ^ 31 else v ≥ 2 ^ 31) then .undef
    else .ok (signed neg v) (bs.dropWhile isDigit)

/-- `%c`. -/
def scanChar : Bytes → Scan (BitVec 8)
  | b :: r => .ok b r
  | [] => .fail

/-- `%s` into `buf[1024]`; a zero byte ends the string. -/
def scanStr (bs : Bytes) : Scan Name :=
  let bs := skipWs bs
  let w := bs.takeWhile fun b => !isWs b
  if w = [] then .fail
  else if w.length ≥ 1024 then .undef
  else .ok (w.takeWhile fun b => b != 0) (bs.dropWhile fun b => !isWs b)

/-- A literal of a format. -/
def scanLit : Bytes → Bytes → Scan Unit
  | [], bs => .ok () bs
  | c :: cs, b :: bs => if b = c then scanLit cs bs else .fail
  | _ :: _, [] => .fail

/-- A line as read: the sign character and the number behind it are separate. -/
inductive Rd where
  | v (n : Name)
  | a (sl : BitVec 8) (pl : Int) (sr : BitVec 8) (pr : Int)
  | r (sr : BitVec 8) (pr : Int)

/-- One round of the loop of `Load_bexprs` (bexpr.c:352-408): the first character decides the format, and all
formats end with `\n`, which skips white space. -/
def scanLine : Bytes → Scan Rd
  | [] => .fail
  | b :: r =>
    if b = 118 then (scanStr r).bind fun n r => .ok (.v n) (skipWs r)
    else if b = 97 then
      (scanChar (skipWs r)).bind fun sl r => (scanInt r).bind fun pl r =>
      (scanChar (skipWs r)).bind fun sr r => (scanInt r).bind fun pr r => .ok (.a sl pl sr pr) (skipWs r)
    else if b = 114 then
      (scanChar (skipWs r)).bind fun sr r => (scanInt r).bind fun pr r => .ok (.r sr pr) (skipWs r)
    else .fail

/-- `*((bexpr *) M_LOCATE_BUF(&work_buf, p))` with the sign character; outside the buffer undefined. -/
def pick (work : List Edge) (c : BitVec 8) (p : Int) : Option Edge :=
  if p < 0 then none
  else (work[p.toNat]?).map fun e => e.xorNeg (c = 45)

/-- The effect of one line: `BE_Var`, `BE_And`, or a result. -/
def execRd (c : Cfg) (s : St) (work res : List Edge) : Rd → Option (St × List Edge × List Edge)
  | .v n =>
    let (s, e) := beVar s n
    some (s, work ++ [e], res)
  | .a sl pl sr pr => do
    let l ← pick work sl pl
    let r ← pick work sr pr
    let (s, e) ← beAnd c s l r
    some (s, work ++ [e], res)
  | .r sr pr => do
    let r ← pick work sr pr
    some (s, work, res ++ [r])

/-- Results of `Load_bexprs`. -/
inductive LoadRes where
  | fail
  | ok (s : St) (rs : List Edge)

/-- The loop: the end of the file has been seen exactly when nothing is left, because every format ends by
skipping white space. -/
def loadLoop (c : Cfg) : Nat → Bytes → St → List Edge → List Edge → Option LoadRes
  | 0, _, _, _, _ => none
  | fuel + 1, bs, s, work, res =>
    if bs = [] then some (.ok s res)
    else match scanLine bs with
      | .undef => none
      | .fail => some .fail
      | .ok rd rest => do
        let (s, work, res) ← execRd c s work res rd
        loadLoop c fuel rest s work res

/-- `Load_bexprs` (bexpr.c:329-425).  After a header that does not match the function returns 1, which is
`TRUE`, with no results. -/
def loadBexprs (c : Cfg) (s : St) (bs : Bytes) : Option LoadRes :=
  match (scanLit header.dropLast bs).bind fun _ r => scanInt (skipWs r) with
  | .undef => none
  | .fail => some (.ok s [])
  | .ok _ rest => loadLoop c ((skipWs rest).length + 1) (skipWs rest) s [bF, bT] []

/-! ### The conditional -/

/-- Expressions built from values with `bITE`; the condition is evaluated first, the branches when needed. -/
inductive Ex where
  | leaf (e : Edge)
  | ite (c a b : Ex)

/-- Evaluation.  `cond` is `current_bexpr_cond`; `bITE` (bexpr.c:1048-1072) sets it before the branches are
evaluated and `g_be_ite` (1875-1905) reads it afterwards. -/
def evalEx (c : Cfg) : Ex → St → Edge → Option (St × Edge × Edge)
  | .leaf e, s, cond => some (s, cond, e)
  | .ite x a b, s, cond => do
    let (s, _, v) ← evalEx c x s cond
    if v = bT then evalEx c a s v
    else if v = bF then evalEx c b s v
    else do
      let (s, cond, va) ← evalEx c a s v
      let (s, cond, vb) ← evalEx c b s cond
      let (s, p) ← beAnd c s cond va
      let (s, q) ← beAnd c s cond.not vb
      let (s, r) ← beOr c s p q
      some (s, cond, r)

/-- No conditional among the branches. -/
def Ex.flat : Ex → Bool
  | .leaf _ => true
  | .ite x (.leaf _) (.leaf _) => x.flat
  | _ => false

end Voss.Bexpr
