/-
Model of the and-inverter expressions (`bexpr`): `src/bin/fl/bexpr.c`, `bexpr.h`, and of the interface to the
SAT solver: `src/bin/fl/minisat_ifc.cc`.

Simplifications.  An address is the position of a record in the record manager (C33); a `bexpr` is an address
with the tag bit 0x4.  Hash tables are lists searched for the first match (C29).  Strings are lists of bytes.
MiniSat is an arbitrary function of the clauses added so far, the assumptions and the number of the query;
what is assumed about its answers is stated in `Spec`.  Its variables are numbered from 1, as in the fields
`sat_idx`; overflow of that 32-bit field is not modelled.  `none` is undefined behaviour.
-/
namespace Voss.Bexpr

/-- A string: its bytes. -/
abbrev Name := List (BitVec 8)

/-- `bexpr`: a tagged pointer (bexpr.h:85-87). -/
structure Edge where
  neg : Bool
  idx : Nat
  deriving DecidableEq, Repr

/-- `BE_NOT` (bexpr.h:85). -/
def Edge.not (e : Edge) : Edge := ⟨!e.neg, e.idx⟩

/-- `BE_NOT` when the flag is set, as in `neg? BE_NOT(res) : res`. -/
def Edge.xorNeg (e : Edge) (n : Bool) : Edge := if n then e.not else e

/-- `BE_TRUE`, the first record allocated, and `BE_FALSE` (bexpr.c:1122-1136). -/
def bT : Edge := ⟨false, 0⟩
def bF : Edge := ⟨true, 0⟩

/-- The type and the children or name of a record (bexpr.h:48-76). -/
inductive Node where
  | free
  | one
  | var (name : Name)
  | and (l r : Edge)
  deriving DecidableEq, Repr

/-- `bexpr_rec` (bexpr.h:61-76).  `bdd` is `has_bdd` together with `bdd`; the mark bit is only used within
single functions; the links `next` and `same_sig_list` are the lists of `St`. -/
structure Rec where
  node : Node
  height : Nat
  sat : Nat
  sig : BitVec 64
  bdd : Option Nat
  deriving DecidableEq, Repr

/-- A literal of the solver: a variable, counted from 1, and its sign. -/
structure SLit where
  neg : Bool
  var : Nat
  deriving DecidableEq, Repr

def SLit.not (a : SLit) : SLit := ⟨!a.neg, a.var⟩

abbrev Clause := List SLit

/-- The state: the records, the entries of `bexpr_uniq_tbl`, the chains of `bexpr_sig_tbl`, the free list, and
of the solver the number of variables, the clauses and the number of queries so far. -/
structure St where
  heap : List Rec
  uniq : List Nat
  sigs : List (List Nat)
  freeL : List Nat
  nvars : Nat
  clauses : List Clause
  queries : Nat
  deriving DecidableEq, Repr

/-- Answers of the solver; a model gives every variable a value. -/
inductive Ans where
  | unsat
  | sat (σ : Nat → Bool)
  | undef

/-- The options `RC_reorder_bexpr_ands`, `RC_add_redundant_terms`, `RC_BEXPR_SAT_LIMIT` and the solver. -/
structure Cfg where
  reorder : Bool
  redundant : Bool
  satLimit : Nat
  solve : Nat → List Clause → List SLit → Ans

/-- An empty record: `get_be_node` (bexpr.c:1441-1449) and the sweep of `BE_Clean` (173-181). -/
def emptyRec : Rec := ⟨.free, 0, 0, 0, none⟩

def St.nd (s : St) (i : Nat) : Rec := (s.heap[i]?).getD emptyRec

/-- `BE_Init` (bexpr.c:1115-1136) and `Sat_Init` (minisat_ifc.cc:170-181). -/
def St.init : St :=
  { heap := [⟨.one, 0, 0, BitVec.allOnes 64, none⟩], uniq := [], sigs := [], freeL := [], nvars := 0,
    clauses := [], queries := 0 }

/-! ### The solver interface -/

/-- `SAT_Add_Var` (minisat_ifc.cc:183-190). -/
def satAddVar (s : St) : St × Nat := ({ s with nvars := s.nvars + 1 }, s.nvars + 1)

/-- `SAT_Add_AND_Clauses` (minisat_ifc.cc:192-212): variables are added until their number exceeds the
operands (this can add an unused one), then the output variable and three clauses. -/
def satAddAnd (s : St) (l r : SLit) : St × Nat :=
  let n := if max l.var r.var ≥ s.nvars then max l.var r.var + 1 else s.nvars
  let g := n + 1
  ({ s with nvars := g,
            clauses := [⟨true, g⟩, l] :: [⟨true, g⟩, r] :: [⟨false, g⟩, l.not, r.not] :: s.clauses }, g)

/-- One call of `solveLimited`. -/
def ask (c : Cfg) (s : St) (as : List SLit) : St × Ans :=
  ({ s with queries := s.queries + 1 }, c.solve s.queries s.clauses as)

/-- `SAT_and_is_same` (minisat_ifc.cc:233-280): the answer 1 needs three unsatisfiable queries.  A literal
with variable 0 stands for `mkLit(-1)`, which indexes the solver's arrays out of bounds. -/
def satAndIsSame (c : Cfg) (s : St) (l r k : SLit) : Option (St × Bool) :=
  if c.satLimit = 0 then some (s, false)
  else if l.var = 0 ∨ r.var = 0 ∨ k.var = 0 then none
  else
    match ask c s [l, r, k.not] with
    | (s1, .unsat) =>
      match ask c s1 [l.not, k] with
      | (s2, .unsat) =>
        match ask c s2 [r.not, k] with
        | (s3, .unsat) => some (s3, true)
        | (s3, _) => some (s3, false)
      | (s2, _) => some (s2, false)
    | (s1, _) => some (s1, false)

/-! ### Signatures -/

/-- `mk_prandom` (bexpr.c:1924-1935), used once per call of its callers. -/
def prandom (seed : BitVec 32) : BitVec 64 :=
  let r1 := seed.toNat * 48271 % 2147483647
  let r2 := r1 * 48271 % 2147483647
  BitVec.ofNat 64 (r1 * 2 ^ 32 + r2)

/-- The seed of a variable (bexpr.c:1469-1477); `char` is signed. -/
def varSeed (n : Name) : BitVec 32 :=
  let s := n.foldl (fun s c => 137 * s + c.signExtend 32) 1
  if s = 0 then 34624351 else s

def varSig (n : Name) : BitVec 64 := prandom (varSeed n)

/-- The signature of an and-node (bexpr.c:1494-1499). -/
def andSig (s : St) (l r : Edge) : BitVec 64 :=
  let seed : BitVec 32 :=
    match l.neg, r.neg with
    | true, true => 2352
    | true, false => -32451
    | false, true => -722521
    | false, false => 123215
  prandom seed + 3259 * (s.nd l.idx).sig + (s.nd r.idx).sig

/-- The solver's literal of a bexpr (e.g. bexpr.c:1492-1493, 1758-1760). -/
def St.lit (s : St) (e : Edge) : SLit := ⟨e.neg, (s.nd e.idx).sat⟩

/-! ### Nodes -/

/-- `get_be_node` (bexpr.c:1431-1451) followed by the initialisation of the fields. -/
def allocNode (s : St) (r : Rec) : St × Nat :=
  match s.freeL with
  | i :: rest => ({ s with freeL := rest, heap := s.heap.set i r }, i)
  | [] => ({ s with heap := s.heap ++ [r] }, s.heap.length)

/-- `find_hash(&bexpr_uniq_tbl, p)` with `be_eq` (bexpr.c:1335-1349). -/
def findUniq (s : St) (n : Node) : Option Nat := s.uniq.find? fun i => (s.nd i).node == n

/-- `BE_Var` (bexpr.c:123-131) with the variable case of `be_find_insert` (1460-1482).  The new node is not
entered into the table of signatures. -/
def beVar (s : St) (n : Name) : St × Edge :=
  match findUniq s (.var n) with
  | some i => (s, ⟨false, i⟩)
  | none =>
    let (s, v) := satAddVar s
    let (s, i) := allocNode s ⟨.var n, 1, v, varSig n, none⟩
    ({ s with uniq := i :: s.uniq }, ⟨false, i⟩)

/-- The loop over the candidates with the same signature (bexpr.c:1501-1509) and `check_for_eq_with_SAT`
(1749-1762). -/
def tryMerge (c : Cfg) (s : St) (l r : Edge) : List Nat → Option (St × Option Nat)
  | [] => some (s, none)
  | k :: ks => do
    let (s, same) ← satAndIsSame c s (s.lit l) (s.lit r) (s.lit ⟨false, k⟩)
    if same then some (s, some k) else tryMerge c s l r ks

/-- `be_sig_eq` (bexpr.c:1366-1375) on the first node of a chain. -/
def chainHas (s : St) (g : BitVec 64) : List Nat → Bool
  | k :: _ => (s.nd k).sig == g
  | [] => false

/-- The chain for a signature: `find_hash(&bexpr_sig_tbl, p)` and the links from there. -/
def findChain (s : St) (g : BitVec 64) : List Nat := (s.sigs.find? (chainHas s g)).getD []

/-- Append a node to the chain of its signature, or start one (bexpr.c:1516-1520). -/
def addChain (sg : Nat → BitVec 64) (g : BitVec 64) (i : Nat) : List (List Nat) → List (List Nat)
  | [] => [[i]]
  | [] :: chs => [] :: addChain sg g i chs
  | (k :: ks) :: chs =>
    if sg k = g then (k :: ks ++ [i]) :: chs else (k :: ks) :: addChain sg g i chs

/-- The and case of `be_find_insert` (bexpr.c:1453-1531). -/
def findInsertAnd (c : Cfg) (s : St) (l r : Edge) (h : Nat) : Option (St × Edge) :=
  match findUniq s (.and l r) with
  | some i => some (s, ⟨false, i⟩)
  | none => do
    let g := andSig s l r
    let (s, m) ← tryMerge c s l r (findChain s g)
    match m with
    | some k => some (s, ⟨false, k⟩)
    | none =>
      let (s, v) := satAddAnd s (s.lit l) (s.lit r)
      let (s', i) := allocNode s ⟨.and l r, h % 2 ^ 28, v, g, none⟩
      some ({ s' with uniq := i :: s'.uniq, sigs := addChain (fun k => (s.nd k).sig) g i s'.sigs },
        ⟨false, i⟩)

/-- `f->height` (bexpr.c:1559, 1569): for a tagged pointer the field is read four bytes too far, where it
shows the upper bits of `sat_idx`.  It only influences the order of operands. -/
def heightOf (s : St) (e : Edge) : Nat :=
  if e.neg then (s.nd e.idx).sat / 16 else (s.nd e.idx).height

/-- `be_and` (bexpr.c:1539-1571). -/
def beAnd (c : Cfg) (s : St) (f1 f2 : Edge) : Option (St × Edge) :=
  if f1 = bF ∨ f2 = bF then some (s, bF)
  else if f1 = bT then some (s, f2)
  else if f2 = bT then some (s, f1)
  else if f1 = f2 then some (s, f1)
  else if f1 = f2.not then some (s, bF)
  else
    let h := max (heightOf s f1) (heightOf s f2) + 1
    if c.reorder ∧ heightOf s f1 > heightOf s f2 then findInsertAnd c s f2 f1 h
    else findInsertAnd c s f1 f2 h

/-- `BE_Or` (bexpr.c:221-225). -/
def beOr (c : Cfg) (s : St) (f1 f2 : Edge) : Option (St × Edge) := do
  let (s, r) ← beAnd c s f1.not f2.not
  some (s, r.not)

/-- `BE_Nand` (bexpr.c:199-203). -/
def beNand (c : Cfg) (s : St) (f1 f2 : Edge) : Option (St × Edge) := do
  let (s, r) ← beAnd c s f1 f2
  some (s, r.not)

/-- `BE_Nor` (bexpr.c:193-197). -/
def beNor (c : Cfg) (s : St) (f1 f2 : Edge) : Option (St × Edge) := beAnd c s f1.not f2.not

/-- `BE_Xor` (bexpr.c:227-231).  The order in which C evaluates the two arguments is unspecified; here left to
right. -/
def beXor (c : Cfg) (s : St) (f1 f2 : Edge) : Option (St × Edge) := do
  let (s, a) ← beAnd c s f1.not f2
  let (s, b) ← beAnd c s f1 f2.not
  beOr c s a b

/-- `BE_Xnor` (bexpr.c:233-237). -/
def beXnor (c : Cfg) (s : St) (f1 f2 : Edge) : Option (St × Edge) := do
  let (s, a) ← beAnd c s f1.not f2.not
  let (s, b) ← beAnd c s f1 f2
  beOr c s a b

/-- `BE_Ite` (bexpr.c:211-219). -/
def beIte (c : Cfg) (s : St) (i t e : Edge) : Option (St × Edge) := do
  let (s, a) ← beAnd c s i t
  let (s, b) ← beAnd c s i.not e
  let (s, r) ← beOr c s a b
  if c.redundant then do
    let (s, k) ← beAnd c s t e
    beOr c s r k
  else some (s, r)

/-- `BE_NEQ` (bexpr.c:241-254), the simulator's test for a change of a value.  The signs `n1` and `n2` are taken
after the tag has been removed, so they are always equal. -/
def beNeq (s : St) (f1 f2 : Edge) : Bool :=
  if f1 = f2 then false
  else if f1 = f2.not then true
  else !((s.nd f1.idx).sig == (s.nd f2.idx).sig)

/-! ### Garbage collection -/

/-- `mark` (bexpr.c:1378-1388); the list holds the marked records. -/
def markNode (s : St) : Nat → Nat → List Nat → List Nat
  | 0, _, m => m
  | fuel + 1, i, m =>
    if i ∈ m then m
    else match (s.nd i).node with
      | .and l r => markNode s fuel r.idx (markNode s fuel l.idx (i :: m))
      | _ => i :: m

/-- The calls of `BE_Mark` for the references in use, and of `mark` in `BE_Clean` (bexpr.c:157-158).  The
recursion follows children, whose solver variables decrease. -/
def markRoots (s : St) (roots : List Edge) : List Nat :=
  (roots ++ [bF, bT]).foldl (fun m e => markNode s ((s.nd e.idx).sat + 1) e.idx m) []

/-- `insert_node_in_signature_tbl` (bexpr.c:139-150): after the first element of the chain. -/
def insertSig (sg : Nat → BitVec 64) (i : Nat) : List (List Nat) → List (List Nat)
  | [] => [[i]]
  | [] :: chs => [] :: insertSig sg i chs
  | (k :: ks) :: chs =>
    if sg k = sg i then (k :: i :: ks) :: chs else (k :: ks) :: insertSig sg i chs

/-- `delete_hash(&bexpr_uniq_tbl, bp)`: the first matching entry, if there is one. -/
def delUniq (s : St) (n : Node) : List Nat → List Nat
  | [] => []
  | k :: ks => if (s.nd k).node = n then ks else k :: delUniq s n ks

/-- One step of the sweep over the records (bexpr.c:162-184). -/
def sweepStep (marked : List Nat) (s : St) (i : Nat) : St :=
  if i ∈ marked then { s with sigs := insertSig (fun k => (s.nd k).sig) i s.sigs }
  else if (s.nd i).node = .free then { s with freeL := i :: s.freeL }
  else { s with uniq := delUniq s (s.nd i).node s.uniq, heap := s.heap.set i emptyRec, freeL := i :: s.freeL }

/-- `BE_Clean` (bexpr.c:152-185) after the references in use have been marked.  Clauses of freed nodes stay. -/
def beClean (s : St) (roots : List Edge) : St :=
  (List.range s.heap.length).foldl (sweepStep (markRoots s roots)) { s with freeL := [], sigs := [] }

/-! ### Substitution -/

/-- State of `be_subst`: `res_tbl`.  Keys are compared with `be_eq`. -/
abbrev Memo := List (Nat × Edge)

def Memo.find (s : St) (m : Memo) (i : Nat) : Option Edge :=
  (m.find? fun p => (s.nd p.1).node == (s.nd i).node).map (·.2)

/-- `be_subst` (bexpr.c:1618-1650).  `sub` is `gl_subst_tbl`. -/
def beSubst (c : Cfg) (sub : Name → Option Edge) : Nat → St → Memo → Edge → Option (St × Memo × Edge)
  | 0, _, _, _ => none
  | fuel + 1, s, m, e =>
    if e = bT ∨ e = bF then some (s, m, e)
    else match m.find s e.idx with
      | some r => some (s, m, r.xorNeg e.neg)
      | none => match (s.nd e.idx).node with
        | .var n => match sub n with
          | some r => some (s, m, r.xorNeg e.neg)
          | none => some (s, m, e)
        | .and l r => do
          let (s, m, nl) ← beSubst c sub fuel s m l
          let (s, m, nr) ← beSubst c sub fuel s m r
          if l = nl ∧ r = nr then
            some (s, (e.idx, ⟨false, e.idx⟩) :: m, (⟨false, e.idx⟩ : Edge).xorNeg e.neg)
          else do
            let (s, res) ← beAnd c s nl nr
            some (s, (e.idx, res) :: m, res.xorNeg e.neg)
        | _ => none

/-- The loop of `bsubstitute` filling `gl_subst_tbl` (bexpr.c:603-614); `none` is the failure on a name listed
twice. -/
def substTbl : List (Name × Edge) → List (Name × Edge) → Option (List (Name × Edge))
  | [], t => some t
  | (n, e) :: ps, t => if t.any (fun p => p.1 == n) then none else substTbl ps ((n, e) :: t)

def tblFind (t : List (Name × Edge)) (n : Name) : Option Edge := (t.find? fun p => p.1 == n).map (·.2)

/-- The leaves of the structure passed to `bsubstitute`, with one `res_tbl` for all of them
(bexpr.c:615-616, `top_be_subst` 1607-1616; the traversal is `Gen_map`, C35). -/
def beSubstList (c : Cfg) (sub : Name → Option Edge) : St → Memo → List Edge → Option (St × List Edge)
  | s, _, [] => some (s, [])
  | s, m, e :: es => do
    let (s, m, r) ← beSubst c sub ((s.nd e.idx).sat + 1) s m e
    let (s, rs) ← beSubstList c sub s m es
    some (s, r :: rs)

/-- Outcome of `bsubstitute`. -/
inductive SubstRes where
  | fail
  | ok (s : St) (rs : List Edge)

/-- `bsubstitute` (bexpr.c:595-622); `none` is undefined behaviour. -/
def bsubstitute (c : Cfg) (s : St) (sub : List (Name × Edge)) (es : List Edge) : Option SubstRes :=
  match substTbl sub [] with
  | none => some .fail
  | some t => do
    let (s, rs) ← beSubstList c (tblFind t) s [] es
    some (.ok s rs)

/-! ### Conversion to and from BDDs -/

/-- The BDD operations used here: handles of BDDs with their operations (C01 to C12). -/
structure BddOps where
  zero : Nat
  one : Nat
  not : Nat → Nat
  and : Nat → Nat → Nat
  var : Name → Nat

/-- `be2bdd` (bexpr.c:1401-1429) with the substitution `bexpr2bdd_sub_tbl`.  The result is stored in the node.
The operands of `B_And` are converted left to right here. -/
def be2bdd (o : BddOps) (sub : Name → Option Nat) : Nat → St → Edge → Option (St × Nat)
  | 0, _, _ => none
  | fuel + 1, s, e =>
    if e = bF then some (s, o.zero)
    else if e = bT then some (s, o.one)
    else match (s.nd e.idx).bdd with
      | some b => some (s, if e.neg then o.not b else b)
      | none => do
        let (s, res) ← match (s.nd e.idx).node with
          | .var n => some (s, (sub n).getD (o.var n))
          | .and l r => do
            let (s, a) ← be2bdd o sub fuel s l
            let (s, b) ← be2bdd o sub fuel s r
            some (s, o.and a b)
          | _ => none
        some ({ s with heap := s.heap.set e.idx { s.nd e.idx with bdd := some res } },
          if e.neg then o.not res else res)

/-- `bexpr2bdd` (bexpr.c:547-566). -/
def bexpr2bdd (o : BddOps) (sub : Name → Option Nat) (s : St) (e : Edge) : Option (St × Nat) :=
  be2bdd o sub ((s.nd e.idx).sat + 1) s e

/-- `Get_top_cofactor` on a BDD without tag: its variable and cofactors; `none` for the constants. -/
abbrev TopCof := Nat → Option (Name × Nat × Nat)

/-- `bdd2bexpr` (bexpr.c:1937-1959).  `isNeg` is the test of the tag of a BDD; the list is `bdd2bexpr_tbl`. -/
def bdd2bexpr (c : Cfg) (o : BddOps) (isNeg : Nat → Bool) (top : TopCof) :
    Nat → St → Memo → Nat → Option (St × Memo × Edge)
  | 0, _, _, _ => none
  | fuel + 1, s, m, f =>
    if f = o.one then some (s, m, bT)
    else if f = o.zero then some (s, m, bF)
    else
      let neg := isNeg f
      let f := if neg then o.not f else f
      match (m.find? fun p => p.1 == f).map (·.2) with
      | some r => some (s, m, r.xorNeg neg)
      | none => match top f with
        | none => none
        | some (v, hi, lo) => do
          let (s, x) := beVar s v
          let (s, m, h) ← bdd2bexpr c o isNeg top fuel s m hi
          let (s, m, l) ← bdd2bexpr c o isNeg top fuel s m lo
          let (s, r) ← beIte c s x h l
          some (s, (f, r) :: m, r.xorNeg neg)

/-! ### Queries -/

/-- Results of `Find_model` (minisat_ifc.cc:288-315): -1 and 0 are `unsat`, 2 is `undef`.  The clauses alone are
never unsatisfiable (C25), so the answer -1 of `simplify` is part of `unsat`. -/
def findModel (c : Cfg) (s : St) (as : List SLit) : Option (St × Ans) :=
  if as.any (fun a => a.var == 0) then none else some (ask c s as)

/-- `bexpr_is_unsat` (bexpr.c:709-741). -/
def bexprIsUnsat (c : Cfg) (s : St) (e : Edge) : Option (St × Bool) :=
  if e = bF then some (s, true)
  else if e = bT then some (s, false)
  else do
    let (s, a) ← findModel c s [s.lit e]
    match a with
    | .unsat => some (s, true)
    | _ => some (s, false)

/-- `be_sat_depend` (bexpr.c:1716-1735): the variables of an expression.  The first list holds the marked
records, the second is `bvar_sat_buf`, newest first; `bvar_sat_tbl` holds the same names. -/
def satDepend (s : St) : Nat → Nat → List Nat × List Nat → List Nat × List Nat
  | 0, _, m => m
  | fuel + 1, i, (m, vs) =>
    if i = 0 ∨ i ∈ m then (m, vs)
    else match (s.nd i).node with
      | .var n =>
        (i :: m, if vs.any (fun j => (s.nd j).node == .var n) then vs else i :: vs)
      | .and l r => satDepend s fuel r.idx (satDepend s fuel l.idx (i :: m, vs))
      | _ => (i :: m, vs)

/-- Results of `bget_model`. -/
inductive ModelRes where
  | list (as : List (Name × Bool))
  | timeout

/-- The collection of variables in `bget_model` (bexpr.c:804-811). -/
def modelVars (s : St) (es : List Edge) : List Nat :=
  (es.foldl (fun m e => satDepend s ((s.nd e.idx).sat + 1) e.idx m) ([], [])).2

/-- One element of the resulting list (bexpr.c:826-838). -/
def modelPair (s : St) (σ : Nat → Bool) (i : Nat) : Option (Name × Bool) :=
  match (s.nd i).node with
  | .var n => some (n, σ (s.nd i).sat)
  | _ => none

/-- `bget_model` (bexpr.c:743-855).  The result list is not sorted here.  A query
changes no node, so the nodes are read in the state before it. -/
def bgetModel (c : Cfg) (s : St) (es : List Edge) : Option (St × ModelRes) :=
  if bF ∈ es then some (s, .list [])
  else
    let as := (es.filter (fun e => e != bT)).map s.lit
    if as = [] then some (s, .list [([], true)])
    else do
      let (s', a) ← findModel c s as
      match a with
      | .unsat => some (s', .list [])
      | .undef => some (s', .timeout)
      | .sat σ => some (s', .list ((modelVars s es).filterMap (modelPair s σ)))

end Voss.Bexpr
