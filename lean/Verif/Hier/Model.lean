import Verif.Vec.Extract

/-
Model of the unfolding of an instance in a circuit hierarchy (pexlif.c, voss_strings.c).
Simplified: tables are lists with the newest entry first (C45), memory management is left out.
-/
namespace Voss.Hier
open Vec

abbrev Name := List Char

/-- A formal with its actuals (`fa_inps`, `fa_outs`). -/
structure Pin where
  formal : Name
  acts : List Name
deriving DecidableEq

/-- `PINST` (pexlif.c): an instance with its instances inside (`P_HIER`), or none and the number of some functions
(`P_LEAF`). -/
inductive Pex where
  | mk (name : Name) (attrs : List (Name × Name)) (leaf : Bool) (inps outs : List Pin) (inter : List Name)
      (kids : Option (List Pex)) (fns : Nat)

namespace Pex
def name : Pex → Name | mk n _ _ _ _ _ _ _ => n
def attrs : Pex → List (Name × Name) | mk _ a _ _ _ _ _ _ => a
def leaf : Pex → Bool | mk _ _ l _ _ _ _ _ => l
def inps : Pex → List Pin | mk _ _ _ i _ _ _ _ => i
def outs : Pex → List Pin | mk _ _ _ _ o _ _ _ => o
def inter : Pex → List Name | mk _ _ _ _ _ i _ _ => i
def kids : Pex → Option (List Pex) | mk _ _ _ _ _ _ k _ => k
def fns : Pex → Nat | mk _ _ _ _ _ _ _ f => f
end Pex

/-- The result, a failure, or undefined behaviour. -/
inductive Res (α : Type) where
  | ok (a : α)
  | fail
  | ub
deriving DecidableEq

def Res.bind {α β : Type} : Res α → (α → Res β) → Res β
  | .ok a, f => f a
  | .fail, _ => .fail
  | .ub, _ => .ub

def Res.of {α : Type} : Option α → Res α
  | some a => .ok a
  | none => .ub

abbrev Tbl := List (Name × Name)

/-- pexlif.c:2588-2601: the bits of the actuals one after the other.  What is left of the bits of the formal. -/
def addBits : Tbl → List Name → List Name → Res (Tbl × List Name)
  | t, fv, [] => .ok (t, fv)
  | _, [], _ :: _ => .fail
  | t, f :: fv, a :: av => addBits ((f, a) :: t) fv av

def addActs : Tbl → List Name → List Name → Res (Tbl × List Name)
  | t, fv, [] => .ok (t, fv)
  | t, fv, a :: as => (Res.of (mdExpand a)).bind fun av => (addBits t fv av).bind fun r => addActs r.1 r.2 as

/-- pexlif.c:2574-2611 `mk_formal_actuals_substitution`. -/
def mkSubst : Tbl → List Pin → Res Tbl
  | t, [] => .ok t
  | t, ⟨f, as⟩ :: ps =>
    match as with
    | [] => .ub
    | a :: as' =>
      let t := if as' = [] then (f, a) :: t else t
      (Res.of (mdExpand f)).bind fun fv => (addActs t fv (a :: as')).bind fun r =>
        if r.2 = [] then mkSubst r.1 ps else .fail

/-- voss_strings.c:2141-2188 `show_contig_vector`: a name for every choice of ranges. -/
def showContig : Vec → Option (List Name)
  | [] => some [[]]
  | .txt s :: v => do let l ← showContig v; some (l.map (s ++ ·))
  | .idx rs :: v => do
    let l ← showContig v
    let ss ← rs.mapM showRng
    some (ss.flatMap fun s => l.map (s ++ ·))

def showContigAll : List Vec → Option (List Name)
  | [] => some []
  | v :: vs => do let a ← showContig v; let b ← showContigAll vs; some (a ++ b)

/-- voss_strings.c:407-413 `Merge_Vectors` without comma-separated ranges. -/
def mergeContig (names : List Name) : Option (List Name) := do
  let vs ← splitAll names
  let out ← mergeVecs vs
  showContigAll out

/-- pexlif.c:2613-2647 `subst_formal`. -/
def substFormal (t : Tbl) (f : Name) : Option (List Name) :=
  match t.lookup f with
  | some r => some [r]
  | none => do
    let v ← split f
    if edge v then none else
    let l ← showContigAll (expand v)
    some (l.map fun b => (t.lookup b).getD b)

def substAll (t : Tbl) : List Name → Option (List Name)
  | [] => some []
  | a :: as => do let x ← substFormal t a; let y ← substAll t as; some (x ++ y)

/-- pexlif.c:2649-2672 `subst_fa_list`. -/
def substPins (t : Tbl) : List Pin → Option (List Pin)
  | [] => some []
  | ⟨f, as⟩ :: ps => do
    let l ← substAll t as
    let m ← mergeContig l
    let r ← substPins t ps
    some (⟨f, m⟩ :: r)

/-- voss_strings.c:1733-1748 `get_base_name`. -/
def baseName : Vec → Option Name
  | [] => none
  | .idx _ :: _ => some []
  | .txt s :: _ => some (s.takeWhile (· != '['))

def baseOf (s : Name) : Option Name := (split s).bind baseName

/-- voss_strings.c:2233-2246 `VDB_Insert_vector`: only the base names matter. -/
def vdbOf : List Name → Option (List Name)
  | [] => some []
  | s :: ss => do let b ← baseOf s; let bs ← vdbOf ss; some (b :: bs)

/-- `sscanf(new, "_$%d_", &cnt)` and the search for the end of the number (pexlif.c:1561-1567).  Simplified: no sign or
white space before the number, and all numbers fit into an `int`. -/
def counted : Name → Option (Nat × Name)
  | '_' :: '$' :: cs =>
    match cs.takeWhile Char.isDigit with
    | [] => none
    | d :: ds => some (Nat.ofDigitChars 10 (d :: ds) 0, cs.dropWhile Char.isDigit)
  | _ => none

/-- The next name to try (pexlif.c:1560-1568). -/
def nextName (old new : Name) : Name :=
  match counted new with
  | none => '_' :: '$' :: '1' :: '_' :: old
  | some (n, r) => '_' :: '$' :: (Nat.toDigits 10 (n + 1) ++ r)

/-- pexlif.c:1559-1569: try names until the base name is new.  `none` if the name has no base name or there have been
more tries than names. -/
def freshName : Nat → List Name → Name → Name → Option Name
  | 0, _, _, _ => none
  | n+1, vdb, old, new => do
    let b ← baseOf new
    if b ∈ vdb then freshName n vdb old (nextName old new) else some new

/-- pexlif.c:1556-1576: new names for the internals, in order, with the base names in use afterwards. -/
def renameAll : List Name → List Name → Option (List Name)
  | _, [] => some []
  | vdb, o :: os => do
    let n ← freshName (vdb.length + 2) vdb o o
    let b ← baseOf n
    let r ← renameAll (b :: vdb) os
    some (n :: r)

/-- pexlif.c:1586-1605: the instances inside with the connections replaced. -/
def substKids (t : Tbl) (attrs : List (Name × Name)) : List Pex → Option (List Pex)
  | [] => some []
  | g :: gs => do
    let i ← substPins t g.inps
    let o ← substPins t g.outs
    let r ← substKids t attrs gs
    some (.mk g.name (g.attrs ++ attrs) g.leaf i o g.inter g.kids g.fns :: r)

/-- pexlif.c:1465-1622 `unfold_pexlif`.  `qsort` is a parameter of the extraction. -/
def unfold (sort : List Vec → List Vec) (p : Pex) (id : Nat) : Res Pex :=
  match p.kids with
  | none => .fail
  | some kids =>
    (Res.of (vdbOf (p.inps.map Pin.formal ++ p.outs.map Pin.formal ++ p.inter))).bind fun vdb =>
    match (if id = 0 then none else kids[id - 1]?) with
    | none => .fail
    | some k =>
      match k.kids with
      | none => .ok p
      | some gs =>
        (mkSubst [] k.inps).bind fun t =>
        (mkSubst t k.outs).bind fun t =>
        (Res.of (renameAll vdb k.inter)).bind fun new =>
        (mkSubst t ((k.inter.zip new).map fun x => ⟨x.1, [x.2]⟩).reverse).bind fun t =>
        (Res.of (substKids t k.attrs gs)).bind fun gs' =>
        (Res.of (mdExtract sort (new.reverse ++ p.inter))).bind fun inter =>
        .ok (.mk p.name p.attrs p.leaf p.inps p.outs inter (some (kids.eraseIdx (id - 1) ++ gs')) p.fns)

end Voss.Hier
