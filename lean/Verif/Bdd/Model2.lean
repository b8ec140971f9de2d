import Verif.Bdd.Model
/-
Model of the remaining operations of `src/bin/fl/new_bdd.c`: relational product, composition,
support listing, truth cover, saving and loading.
-/
namespace Voss.Bdd

/-! ### Relational product -/

/-- One slot of the relational product cache (`relprod_cache_rec` new_bdd.h:247-252). -/
structure RSlot where
  v : F
  a : F
  b : F
  res : F

/-- The 32 bit pattern of a formula. -/
def F.raw (f : F) : Nat := f.idx + if f.neg then 2 ^ 31 else 0

/-- `Begin_RelProd` new_bdd.c:911-917: `Calloc`, so all slots are zero. -/
def rcEmpty : Nat → RSlot := fun _ => ⟨ZERO, ZERO, ZERO, ZERO⟩

/-- `find_in_relprod_cache` new_bdd.c:3539-3545 (32 bit sum). -/
def rcIdx (sz : Nat) (v a b : F) : Nat := ((v.raw + a.raw + b.raw) % 2 ^ 32) % sz

/-- The last step of `Rel_prod` (new_bdd.c:1032-1035). -/
def orAnd (ex : Bool) (s : S) (l r : F) : Option (F × S) := if ex then bOr s l r else bAnd s l r

/-- `Rel_prod` new_bdd.c:925-1044.  The last argument of the C function is the flag `existential`;
its calls of `quantify` pass this flag (0 or 1) where an operation code is expected.  `code` is the
number passed: the C code is the instance `code = if ex then 1 else 0` (`relProdC` below). -/
def relProd (code : Nat) (ex : Bool) (sz : Nat) :
    Nat → S → (Nat → RSlot) → F → F → F → Option (F × (Nat → RSlot) × S)
  | 0, _, _, _, _, _ => none
  | fuel + 1, s, rc, qv, a, b =>
    if a = ZERO ∨ b = ZERO ∨ a = b.not then some (ZERO, rc, s)
    else if a = ONE ∨ a = b then do
      let (r, s) ← quantify (2 * s.fuel) s b qv code
      some (r, rc, s)
    else if b = ONE then do
      let (r, s) ← quantify (2 * s.fuel) s a qv code
      some (r, rc, s)
    else if qv = ONE ∨ qv = ZERO then do
      let (r, s) ← bAnd s a b
      some (r, rc, s)
    else
      let slot := rc (rcIdx sz qv a b)
      if slot.v = qv ∧ slot.a = a ∧ slot.b = b then some (slot.res, rc, s)
      else do
        let nv ← s.tbl qv.idx
        let na ← s.tbl a.idx
        let nb ← s.tbl b.idx
        let m := if s.ord na.var < s.ord nb.var then na.var else nb.var
        let pa := if s.ord na.var > s.ord nb.var then (a, a) else sons a na
        let pb := if s.ord nb.var > s.ord na.var then (b, b) else sons b nb
        let (ret, rc, s) ←
          if s.ord nv.var < s.ord m then
            relProd code ex sz fuel s rc ⟨false, nv.lson⟩ a b
          else if s.ord nv.var > s.ord m then do
            let (l, rc, s) ← relProd code ex sz fuel s rc qv pa.1 pb.1
            let (r, rc, s) ← relProd code ex sz fuel s rc qv pa.2 pb.2
            let v := if s.ord na.var > s.ord nb.var then nb.var else na.var
            let (res, s) ← findInsert s v l r
            some (res, rc, s)
          else do
            let (l, rc, s) ← relProd code ex sz fuel s rc ⟨false, nv.lson⟩ pa.1 pb.1
            let (r, rc, s) ← relProd code ex sz fuel s rc ⟨false, nv.lson⟩ pa.2 pb.2
            let (res, s) ← orAnd ex s l r
            some (res, rc, s)
        some (ret, upd rc (rcIdx sz qv a b) ⟨qv, a, b, ret⟩, s)

/-- `relprod_thereis` / `relprod_forall` at the language level (graph.c:4140-4163): the pinned
code. -/
def relProdC (ex : Bool) (s : S) (v a b : F) : Option (F × S) := do
  let (d, s) ← bDepends s.fuel s v
  let (r, _, s) ← relProd (if ex then 1 else 0) ex (s.size / 10) (2 * s.fuel) s rcEmpty d a b
  some (r, s)

/-- The same with the operation code that was presumably meant (not the pinned code). -/
def relProdFixed (ex : Bool) (s : S) (v a b : F) : Option (F × S) := do
  let (d, s) ← bDepends s.fuel s v
  let (r, _, s) ← relProd (if ex then opEXISTENTIAL else opUNIVERSAL) ex (s.size / 10)
    (2 * s.fuel) s rcEmpty d a b
  some (r, s)

/-! ### Composition -/

/-- Pending substitutions, in variable order (`subst_rec` list): variable and replacement. -/
abbrev Subs := List (Nat × F)

/-- `add_to_subs` new_bdd.c:3664-3712: insert in variable order; `none` is the error "Repeated
occurence in substitution". -/
def addToSubs (s : S) : Subs → Nat → F → Option Subs
  | [], v, e => some [(v, e)]
  | (w, h) :: rest, v, e =>
    if s.ord v < s.ord w then some ((v, e) :: (w, h) :: rest)
    else if v = w then none
    else (addToSubs s rest v e).map ((w, h) :: ·)

/-- `subs_tbl`: results by formula and pending list.  The C key is the list cell; the model uses
the number of pending substitutions, which identifies the cell. -/
abbrev SubCache := List ((F × Nat) × F)

/-- The test `POS(x) == ZERO || ORDER(f2var(x)) > ORDER(fv)` (new_bdd.c:3758-3759). -/
def laterVar (s : S) (v : Nat) (x : F) : Option Bool :=
  if x.idx = 0 then some true else (s.tbl x.idx).map (fun m => decide (s.ord m.var > s.ord v))

/-- `b_substitute` new_bdd.c:3714-3781. -/
def bSubst : Nat → S → SubCache → F → Subs → Option (F × SubCache × S)
  | 0, _, _, _, _ => none
  | _ + 1, s, c, f, [] => some (f, c, s)
  | fuel + 1, s, c, f, (sv, ex) :: rest =>
    if f = ONE ∨ f = ZERO then some (f, c, s)
    else match c.lookup (f, rest.length + 1) with
      | some r => some (r, c, s)
      | none => do
        let n ← s.tbl f.idx
        if s.ord n.var > s.ord sv then
          let (r, c, s) ← bSubst fuel s c f rest
          some (r, ((f, rest.length + 1), r) :: c, s)
        else if s.ord n.var < s.ord sv then
          let (varf, s) ← findInsert s n.var ONE ZERO
          let (l, c, s) ← bSubst fuel s c (sons f n).1 ((sv, ex) :: rest)
          let (r, c, s) ← bSubst fuel s c (sons f n).2 ((sv, ex) :: rest)
          let okl ← laterVar s n.var l
          let okr ← laterVar s n.var r
          let (res, s) ←
            if okl && okr then findInsert s n.var l r
            else do
              let (x, s) ← bAnd s l varf
              let (y, s) ← bAnd s r varf.not
              bOr s x y
          some (res, ((f, rest.length + 1), res) :: c, s)
        else
          let (l, c, s) ← bSubst fuel s c (sons f n).1 rest
          let (x, s) ← bAnd s l ex
          let (r, c, s) ← bSubst fuel s c (sons f n).2 rest
          let (y, s) ← bAnd s r ex.not
          let (res, s) ← bOr s x y
          some (res, ((f, rest.length + 1), res) :: c, s)

/-- The list built by `do_substitute` (new_bdd.c:1685-1693).  Outer `none`: undefined behaviour;
inner `none`: error message. -/
def buildSubs : S → Subs → List (String × F) → Option (Option Subs × S)
  | s, subs, [] => some (some subs, s)
  | s, subs, (name, e) :: rest => do
    let (v, s) ← bVar s name
    let n ← s.tbl v.idx
    match addToSubs s subs n.var e with
    | none => some (none, s)
    | some subs => buildSubs s subs rest

/-- Apply the substitution to every BDD of a list, sharing the result table (`Gen_map` over the
argument structure, new_bdd.c:1694, 3644-3650). -/
def substAll (subs : Subs) : S → SubCache → List F → Option (List F × S)
  | s, _, [] => some ([], s)
  | s, c, f :: fs => do
    let (r, c, s) ← bSubst (s.fuel + subs.length) s c f subs
    let (rs, s) ← substAll subs s c fs
    some (r :: rs, s)

/-- `do_substitute` new_bdd.c:1676-1705. -/
def substitute (s : S) (pairs : List (String × F)) (fs : List F) :
    Option (Option (List F) × S) := do
  let (subs, s) ← buildSubs s [] pairs
  match subs with
  | none => some (none, s)
  | some subs =>
    let (rs, s) ← substAll subs s [] fs
    some (some rs, s)

/-! ### Support listing -/

/-- `B_Size` new_bdd.c:797-814: visited handles and width of every variable. -/
def bSize : Nat → S → List F × (Nat → Nat) → F → Option (List F × (Nat → Nat))
  | 0, _, _, _ => none
  | fuel + 1, s, (seen, wid), f =>
    if f = ZERO ∨ f = ONE then some (seen, wid)
    else if f ∈ seen then some (seen, wid)
    else do
      let n ← s.tbl f.idx
      let (seen, wid) ← bSize fuel s (seen, wid) ⟨false, n.lson⟩
      let (seen, wid) ← bSize fuel s (seen, wid) ⟨false, n.rson.idx⟩
      some (f :: seen, upd wid n.var (wid n.var + 1))

/-- `B_Size` on every handle of a list, after `Reset_BDD_Size`. -/
def sizeAll (s : S) : List F × (Nat → Nat) → List F → Option (List F × (Nat → Nat))
  | st, [] => some st
  | st, f :: fs => do
    let st ← bSize s.fuel s st f
    sizeAll s st fs

/-- The variable at a position (`Get_Var_Name`/`B_Width` search, new_bdd.c:754-775). -/
def atPos (s : S) (p : Nat) : Option Nat := (List.range s.nvars).find? (fun v => s.ord v = p)

/-- Variables of positive width, in variable order (loop of `depends`, new_bdd.c:1585-1592, and of
`Save_BDDs` 835-842). -/
def usedVars (s : S) (wid : Nat → Nat) : Option (List Nat) := do
  let vs ← (List.range s.nvars).mapM (atPos s)
  some (vs.filter (fun v => 0 < wid v))

/-- `depends` new_bdd.c:1575-1596. -/
def depends (s : S) (fs : List F) : Option (List String) := do
  let (_, wid) ← sizeAll s ([], fun _ => 0) fs
  let vs ← usedVars s wid
  some (vs.map s.vname)

/-! ### Truth cover -/

/-- The loop that skips variables `f` does not mention (new_bdd.c:2147-2157). -/
def skipTo (v : Nat) : List Nat → Nat → Option (Nat × List Nat)
  | [], _ => none
  | w :: rest, mult => if w = v then some (mult, rest) else skipTo v rest (2 * mult)

/-- `truth_cover_rec` new_bdd.c:2123-2187.  The variable buffer and index are the list of remaining
variables.  Outer `none`: undefined behaviour, inner `none`: error message.  (The counts are
arbitrary-precision integers in C, see `Verif.Arbi`.) -/
def truthCover : Nat → S → List (F × Nat) → List Nat → F → Option (Option Nat × List (F × Nat))
  | 0, _, _, _, _ => none
  | fuel + 1, s, memo, vs, b =>
    if b = ZERO then some (some 0, memo)
    else if b = ONE then some (some (vs.foldl (fun r _ => r * 2) 1), memo)
    else do
      let n ← s.tbl b.idx
      match skipTo n.var vs 1 with
      | none => some (none, memo)
      | some (mult, rest) =>
        match memo.lookup b with
        | some r => some (some (mult * r), memo)
        | none =>
          let (L, memo) ← truthCover fuel s memo rest (sons b n).1
          match L with
          | none => some (none, memo)
          | some l =>
            let (R, memo) ← truthCover fuel s memo rest (sons b n).2
            match R with
            | none => some (none, memo)
            | some r => some (some (mult * (l + r)), (b, l + r) :: memo)

/-- Declare the listed variables and return their numbers (new_bdd.c:1720-1727). -/
def varNumbers : S → List String → Option (List Nat × S)
  | s, [] => some ([], s)
  | s, name :: rest => do
    let (v, s) ← bVar s name
    let n ← s.tbl v.idx
    let (vs, s) ← varNumbers s rest
    some (n.var :: vs, s)

/-- `do_truth_cover` new_bdd.c:1707-1741 (`qsort` by variable position). -/
def truthCoverOp (s : S) (names : List String) (f : F) : Option (Option Nat × S) := do
  let (vs, s) ← varNumbers s names
  let (r, _) ← truthCover s.fuel s [] (sortBy s.ord vs) f
  some (r, s)

/-! ### Saving and loading -/

/-- The lines of a saved file (new_bdd.c:824-858, 3600-3638).  The text layout (`fprintf`/`fscanf`)
is not modelled; it needs variable names that are not empty and contain no white space. -/
inductive Line where
  | var (name : String)
  | node (v : Nat) (lneg : Bool) (l : Nat) (rneg : Bool) (r : Nat)
  | root (neg : Bool) (i : Nat)
deriving DecidableEq, Repr

/-- `b_save` new_bdd.c:3599-3638.  `tbl` is `bdd_save_tbl` (node number to file index, the next
index is one more than its length), `vs` the variables written to the file.  (The C code skips the
recursive call for the constant, which would return at once.) -/
def bSave : Nat → S → List Nat → List (Nat × Nat) × List Line → F →
    Option (List (Nat × Nat) × List Line)
  | 0, _, _, _, _ => none
  | fuel + 1, s, vs, (tbl, out), f =>
    if f = ZERO ∨ f = ONE then some (tbl, out)
    else match tbl.lookup f.idx with
      | some _ => some (tbl, out)
      | none => do
        let n ← s.tbl f.idx
        let (tbl, out) ← bSave fuel s vs (tbl, out) ⟨false, n.lson⟩
        let il := (tbl.lookup n.lson).getD 0
        let (tbl, out) ← bSave fuel s vs (tbl, out) ⟨false, n.rson.idx⟩
        let ir := (tbl.lookup n.rson.idx).getD 0
        some ((f.idx, tbl.length + 1) :: tbl,
          out ++ [Line.node (vs.idxOf n.var) false il n.rson.neg ir])

/-- `b_save` on every root. -/
def saveAll (s : S) (vs : List Nat) : List (Nat × Nat) × List Line → List F →
    Option (List (Nat × Nat) × List Line)
  | st, [] => some st
  | st, f :: fs => do
    let st ← bSave s.fuel s vs st f
    saveAll s vs st fs

/-- `Save_BDDs` new_bdd.c:816-861 (without the header line and I/O errors). -/
def saveBDDs (s : S) (roots : List F) : Option (List Line) := do
  let (_, wid) ← sizeAll s ([], fun _ => 0) roots
  let vs ← usedVars s wid
  let (tbl, out) ← saveAll s vs ([], []) roots
  some (vs.map (fun v => Line.var (s.vname v)) ++ out ++
    roots.map (fun f => Line.root f.neg ((tbl.lookup f.idx).getD 0)))

/-- First loop of `Load_BDDs` (new_bdd.c:881-885). -/
def loadVars : S → List F → List Line → Option (List F × List Line × S)
  | s, acc, Line.var name :: rest => do
    let (b, s) ← bVar s name
    loadVars s (acc ++ [b]) rest
  | s, acc, rest => some (acc, rest, s)

/-- Second loop (new_bdd.c:892-900). -/
def loadNodes (vm : List F) : S → List F → List Line → Option (List F × List Line × S)
  | s, work, Line.node v ln l rn r :: rest => do
    let v ← vm[v]?
    let pt ← work[l]?
    let pe ← work[r]?
    let (b, s) ← bIte s v (F.xneg ln pt) (F.xneg rn pe)
    loadNodes vm s (work ++ [b]) rest
  | s, work, rest => some (work, rest, s)

/-- Third loop (new_bdd.c:901-905). -/
def loadRoots (work : List F) : List Line → Option (List F)
  | Line.root neg i :: rest => do
    let b ← work[i]?
    let bs ← loadRoots work rest
    some (F.xneg neg b :: bs)
  | _ => some []

/-- `Load_BDDs` new_bdd.c:863-909. -/
def loadBDDs (s : S) (file : List Line) : Option (List F × S) := do
  let (vm, rest, s) ← loadVars s [] file
  let (work, rest, s) ← loadNodes vm s [ZERO] rest
  let roots ← loadRoots work rest
  some (roots, s)

end Voss.Bdd
