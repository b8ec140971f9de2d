import Verif.Bdd.Model
/-
Independent specification vocabulary for the BDD package: which Boolean function a handle denotes,
which states are well formed, and the textbook meaning of the operations.
-/
namespace Voss.Bdd

/-- Truth assignments to variable numbers. -/
abbrev Env := Nat → Bool
/-- Boolean functions. -/
abbrev BFun := Env → Bool

/-- `Den t i g`: node `i` of table `t` denotes `g` (walk from the node: `lson` when the variable is
true, `rson` when it is false, complementing for every flag met). -/
inductive Den (t : Nat → Option Node) : Nat → BFun → Prop
  | zero : Den t 0 (fun _ => false)
  | node {i : Nat} {n : Node} {gl gr : BFun} :
      i ≠ 0 → t i = some n → Den t n.lson gl → Den t n.rson.idx gr →
      Den t i (fun ρ => if ρ n.var then gl ρ else xor n.rson.neg (gr ρ))

/-- `f` is a live handle that denotes `g`. -/
def Denotes (s : S) (f : F) (g : BFun) : Prop :=
  ∃ g0, Den s.tbl f.idx g0 ∧ g = fun ρ => xor f.neg (g0 ρ)

/-- Change one variable. -/
def set1 (ρ : Env) (v : Nat) (b : Bool) : Env := fun w => if w = v then b else ρ w

/-- Two assignments agree outside a list of variables. -/
def AgreeOff (vs : List Nat) (ρ ρ' : Env) : Prop := ∀ v, v ∉ vs → ρ' v = ρ v

/-- `g` depends on `v`: changing `v` alone can change the value. -/
def DependsOn (g : BFun) (v : Nat) : Prop := ∃ ρ, g (set1 ρ v true) ≠ g (set1 ρ v false)

/-- Meaning of the cached operations on Boolean functions. -/
def opFun (fn : Nat) (a b : BFun) : BFun := fun ρ =>
  if fn = opAND then a ρ && b ρ else if fn = opOR then a ρ || b ρ else xor (a ρ) (b ρ)

/-- All / some values of the listed variables. -/
def qFun (univ : Bool) : List Nat → BFun → BFun
  | [], g => g
  | v :: vs, g => fun ρ =>
    let a := qFun univ vs (fun ρ => g (set1 ρ v true)) ρ
    let b := qFun univ vs (fun ρ => g (set1 ρ v false)) ρ
    if univ then a && b else a || b

/-- Simultaneous replacement of variables by functions. -/
def substEnv (σ : List (Nat × BFun)) (ρ : Env) : Env := fun v =>
  match σ.lookup v with
  | some h => h ρ
  | none => ρ v

/-- Composition. -/
def comp (σ : List (Nat × BFun)) (g : BFun) : BFun := fun ρ => g (substEnv σ ρ)

/-- Truth assignments to variable names. -/
abbrev NEnv := String → Bool

/-- `f` is a live handle that denotes the function `G` of the named variables. -/
def NDen (s : S) (f : F) (G : NEnv → Bool) : Prop :=
  ∃ g, Denotes s f g ∧ ∀ η : NEnv, G η = g (fun v => η (s.vname v))

/-- Change one named variable. -/
def setN (η : NEnv) (name : String) (b : Bool) : NEnv := fun m => if m = name then b else η m

/-- `G` depends on the variable `name`. -/
def NDependsOn (G : NEnv → Bool) (name : String) : Prop :=
  ∃ η, G (setN η name true) ≠ G (setN η name false)

/-- Simultaneous replacement of named variables by functions. -/
def nSubst (σ : List (String × (NEnv → Bool))) (G : NEnv → Bool) : NEnv → Bool := fun η =>
  G fun name => match σ.lookup name with
    | some h => h η
    | none => η name

/-- Variables met when following the stored `lson` fields from a node. -/
inductive Chain (t : Nat → Option Node) : Nat → List Nat → Prop
  | nil : Chain t 0 []
  | cons {i : Nat} {n : Node} {vs : List Nat} :
      i ≠ 0 → t i = some n → Chain t n.lson vs → Chain t i (n.var :: vs)

/-- Son `j` of a node for variable `v` is the constant or a live node for a later variable. -/
def Below (s : S) (v j : Nat) : Prop := j = 0 ∨ ∃ m, s.tbl j = some m ∧ s.ord v < s.ord m.var

/-- Well-formedness of the node table, unique tables, free list and variable order. -/
structure SInv (s : S) : Prop where
  tbl0 : s.tbl 0 = none
  live_iff : ∀ i, i ∈ s.live ↔ (s.tbl i).isSome
  live_nodup : s.live.Nodup
  live_lt : ∀ i, i ∈ s.live → i < s.size
  free_ok : ∀ i, i ∈ s.free → i ≠ 0 ∧ i < s.size ∧ s.tbl i = none
  free_nodup : s.free.Nodup
  size_pos : 0 < s.size
  uniq : ∀ i j n, s.tbl i = some n → s.tbl j = some n → i = j
  var_lt : ∀ i n, s.tbl i = some n → n.var < s.nvars
  below_l : ∀ i n, s.tbl i = some n → Below s n.var n.lson
  below_r : ∀ i n, s.tbl i = some n → Below s n.var n.rson.idx
  reduced : ∀ i n, s.tbl i = some n → (⟨false, n.lson⟩ : F) ≠ n.rson
  ord_inj : ∀ v w, v < s.nvars → w < s.nvars → s.ord v = s.ord w → v = w
  ord_lt : ∀ v, v < s.nvars → s.ord v < s.nvars

/-- A result cache entry tells the truth. -/
def EntryOK (s : S) (e : CEntry) : Prop :=
  if e.fn = opAND ∨ e.fn = opOR ∨ e.fn = opXOR then
    ∃ ga gb, Denotes s e.a ga ∧ Denotes s e.b gb ∧ Denotes s e.res (opFun e.fn ga gb)
  else if e.fn = opDEPENDS then
    ∃ (g : BFun) (vs : List Nat), Denotes s e.a g ∧ (∀ v, v ∈ vs ↔ DependsOn g v) ∧ Denotes s e.res (fun ρ => vs.all ρ)
  else
    ∃ g vs, Denotes s e.a g ∧ Chain s.tbl e.b.idx vs ∧
      Denotes s e.res (qFun (e.fn == opUNIVERSAL) vs g)

/-- The variable table: every named variable has a live node that denotes it. -/
structure VInv (s : S) : Prop where
  var_ok : ∀ name f, (name, f) ∈ s.vars → ∃ v, v < s.nvars ∧ s.vname v = name ∧
    Denotes s f (fun ρ => ρ v)
  var_all : ∀ v, v < s.nvars → ∃ f, s.vars.lookup (s.vname v) = some f ∧ Denotes s f (fun ρ => ρ v)
  name_inj : ∀ v w, v < s.nvars → w < s.nvars → s.vname v = s.vname w → v = w

/-- The invariant of the package. -/
structure Inv (s : S) : Prop where
  str : SInv s
  cache : ∀ e ∈ s.cache, EntryOK s e
  vars : VInv s

/-- `s'` was obtained from `s` by operations that keep every handle: nothing a user can observe
about existing BDDs and variables changes. -/
structure Ext (s s' : S) : Prop where
  tbl : ∀ i n, s.tbl i = some n → s'.tbl i = some n
  ord : s'.ord = s.ord
  nvars : s'.nvars = s.nvars
  vname : s'.vname = s.vname
  vars : s'.vars = s.vars

end Voss.Bdd
