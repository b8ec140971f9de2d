import Verif.Bexpr.Model
/-
What the expressions mean, what is assumed of the SAT solver, and histories of calls.
-/
namespace Voss.Bexpr

/-- Values of the variables. -/
abbrev Env := Name → Bool

/-- Boolean functions of the variables. -/
abbrev Fn := Env → Bool

/-- The function of a node: the constant, a variable, or the conjunction of the children with their signs.
The relation holds only for nodes all of whose descendants are in use. -/
inductive Den (s : St) : Nat → Fn → Prop where
  | one {i : Nat} : (s.nd i).node = .one → Den s i (fun _ => true)
  | var {i : Nat} {n : Name} : (s.nd i).node = .var n → Den s i (fun ρ => ρ n)
  | and {i : Nat} {l r : Edge} {f g : Fn} : (s.nd i).node = .and l r → Den s l.idx f → Den s r.idx g →
      Den s i (fun ρ => (f ρ ^^ l.neg) && (g ρ ^^ r.neg))

/-- The function of an expression. -/
def Means (s : St) (e : Edge) (f : Fn) : Prop := ∃ g, Den s e.idx g ∧ f = fun ρ => g ρ ^^ e.neg

/-- A literal, a clause and a set of clauses under an assignment of the solver's variables. -/
def SLit.holds (σ : Nat → Bool) (a : SLit) : Bool := σ a.var ^^ a.neg
def Clause.holds (σ : Nat → Bool) (c : Clause) : Prop := ∃ a ∈ c, a.holds σ = true
def Sat (σ : Nat → Bool) (cs : List Clause) (as : List SLit) : Prop :=
  (∀ c ∈ cs, Clause.holds σ c) ∧ ∀ a ∈ as, a.holds σ = true

/-- The solver's answers are right: assumed of MiniSat.  It may fail to answer. -/
structure RightAnswers (c : Cfg) : Prop where
  unsat : ∀ n cs as, c.solve n cs as = .unsat → ¬ ∃ σ, Sat σ cs as
  sat : ∀ n cs as σ, c.solve n cs as = .sat σ → Sat σ cs as

/-- `i` can be reached from `j` through children. -/
inductive Reach (s : St) : Nat → Nat → Prop where
  | refl (i : Nat) : Reach s i i
  | left {i j : Nat} {l r : Edge} : (s.nd i).node = .and l r → Reach s l.idx j → Reach s i j
  | right {i j : Nat} {l r : Edge} : (s.nd i).node = .and l r → Reach s r.idx j → Reach s i j

/-! ### Histories

A program holds a list of expressions.  Every call adds its result in front; a collection keeps the listed
ones. -/

inductive Op where
  | const (b : Bool)
  | var (n : Name)
  | not (i : Nat)
  | and (i j : Nat)
  | or (i j : Nat)
  | nand (i j : Nat)
  | nor (i j : Nat)
  | xor (i j : Nat)
  | xnor (i j : Nat)
  | ite (i j k : Nat)
  | subst (sub : List (Name × Nat)) (is : List Nat)
  | isUnsat (i : Nat)
  | collect (keep : List Nat)

/-- The handle at a position; a missing one counts as the constant 0. -/
def hget (hs : List Edge) (i : Nat) : Edge := (hs[i]?).getD bF

def push (hs : List Edge) (x : St × Edge) : St × List Edge := (x.1, x.2 :: hs)

/-- One call on the model. -/
def step (c : Cfg) (s : St) (hs : List Edge) : Op → Option (St × List Edge)
  | .const b => some (s, (if b then bT else bF) :: hs)
  | .var n => some (push hs (beVar s n))
  | .not i => some (s, (hget hs i).not :: hs)
  | .and i j => (beAnd c s (hget hs i) (hget hs j)).map (push hs)
  | .or i j => (beOr c s (hget hs i) (hget hs j)).map (push hs)
  | .nand i j => (beNand c s (hget hs i) (hget hs j)).map (push hs)
  | .nor i j => (beNor c s (hget hs i) (hget hs j)).map (push hs)
  | .xor i j => (beXor c s (hget hs i) (hget hs j)).map (push hs)
  | .xnor i j => (beXnor c s (hget hs i) (hget hs j)).map (push hs)
  | .ite i j k => (beIte c s (hget hs i) (hget hs j) (hget hs k)).map (push hs)
  | .subst sub is =>
    match bsubstitute c s (sub.map fun p => (p.1, hget hs p.2)) (is.map (hget hs)) with
    | none => none
    | some .fail => some (s, hs)
    | some (.ok s rs) => some (s, rs ++ hs)
  | .isUnsat i => (bexprIsUnsat c s (hget hs i)).map fun x => (x.1, hs)
  | .collect keep => some (beClean s (keep.map (hget hs)), keep.map (hget hs))

def run (c : Cfg) : List Op → St → List Edge → Option (St × List Edge)
  | [], s, hs => some (s, hs)
  | op :: ops, s, hs => do
    let (s, hs) ← step c s hs op
    run c ops s hs

def fget (fs : List Fn) (i : Nat) : Fn := (fs[i]?).getD fun _ => false

/-- The environment in which every variable has the value of the function substituted for it. -/
def substEnv (sub : List (Name × Fn)) (ρ : Env) : Env := fun n =>
  match sub.find? (fun p => p.1 == n) with
  | some p => p.2 ρ
  | none => ρ n

/-- The same call on Boolean functions. -/
def specStep (fs : List Fn) : Op → List Fn
  | .const b => (fun _ => b) :: fs
  | .var n => (fun ρ => ρ n) :: fs
  | .not i => (fun ρ => !fget fs i ρ) :: fs
  | .and i j => (fun ρ => fget fs i ρ && fget fs j ρ) :: fs
  | .or i j => (fun ρ => fget fs i ρ || fget fs j ρ) :: fs
  | .nand i j => (fun ρ => !(fget fs i ρ && fget fs j ρ)) :: fs
  | .nor i j => (fun ρ => !(fget fs i ρ || fget fs j ρ)) :: fs
  | .xor i j => (fun ρ => fget fs i ρ != fget fs j ρ) :: fs
  | .xnor i j => (fun ρ => fget fs i ρ == fget fs j ρ) :: fs
  | .ite i j k => (fun ρ => if fget fs i ρ then fget fs j ρ else fget fs k ρ) :: fs
  | .subst sub is =>
    if (sub.map (·.1)).Nodup then
      is.map (fun i ρ => fget fs i (substEnv (sub.map fun p => (p.1, fget fs p.2)) ρ)) ++ fs
    else fs
  | .isUnsat _ => fs
  | .collect keep => keep.map (fget fs)

def specRun : List Op → List Fn → List Fn
  | [], fs => fs
  | op :: ops, fs => specRun ops (specStep fs op)

/-- What the result of `bget_model` says about the expressions: the empty list, that no values of the variables
make all of them true; another list, with every variable at most once, that all values that agree with it do. -/
def ModelOK (fs : List Fn) : ModelRes → Prop
  | .list [] => ∀ ρ, ∃ f ∈ fs, f ρ = false
  | .list (a :: as) => (((a :: as).map (·.1)).Nodup ∧
      ∀ ρ : Env, (∀ p ∈ a :: as, ρ p.1 = p.2) → ∀ f ∈ fs, f ρ = true)
  | .timeout => True

/-- Two lists related element by element. -/
def Each {α β : Type} (R : α → β → Prop) : List α → List β → Prop
  | [], [] => True
  | a :: as, b :: bs => R a b ∧ Each R as bs
  | _, _ => False

/-! ### BDDs

What is used of the BDD package: the operations denote what they should (C01 to C12). -/

structure BddRight (o : BddOps) (den : Nat → Fn) : Prop where
  zero : ∀ ρ, den o.zero ρ = false
  one : ∀ ρ, den o.one ρ = true
  not : ∀ b ρ, den (o.not b) ρ = !den b ρ
  and : ∀ a b ρ, den (o.and a b) ρ = (den a ρ && den b ρ)
  var : ∀ n ρ, den (o.var n) ρ = ρ n

/-- Cofactors with respect to the top variable; `depth` counts the variables along a path. -/
structure CofRight (o : BddOps) (den : Nat → Fn) (top : TopCof) (depth : Nat → Nat) : Prop where
  total : ∀ f, f ≠ o.one → f ≠ o.zero → ∃ v hi lo, top f = some (v, hi, lo)
  cof : ∀ f v hi lo, top f = some (v, hi, lo) → ∀ ρ, den f ρ = if ρ v then den hi ρ else den lo ρ
  less : ∀ f v hi lo, top f = some (v, hi, lo) → depth hi < depth f ∧ depth lo < depth f
  not : ∀ f, depth (o.not f) = depth f ∧ (f ≠ o.one → f ≠ o.zero → o.not f ≠ o.one ∧ o.not f ≠ o.zero)

/-- The environment in which the listed variables have the values of the BDDs substituted for them. -/
def bddEnv (o : BddOps) (den : Nat → Fn) (sub : Name → Option Nat) (ρ : Env) : Env :=
  fun n => den ((sub n).getD (o.var n)) ρ

/-- A history in which expressions are also converted to BDDs. -/
inductive BOp where
  | op (o : Op)
  | conv (i : Nat)

/-- All conversions with the same substitution; the converted BDDs are listed, newest first. -/
def runB (c : Cfg) (o : BddOps) (sub : Name → Option Nat) :
    List BOp → St → List Edge → List Nat → Option (St × List Edge × List Nat)
  | [], s, hs, bs => some (s, hs, bs)
  | .op x :: xs, s, hs, bs => do
    let (s, hs) ← step c s hs x
    runB c o sub xs s hs bs
  | .conv i :: xs, s, hs, bs => do
    let (s, b) ← bexpr2bdd o sub s (hget hs i)
    runB c o sub xs s hs (b :: bs)

def specRunB (E : Env → Env) : List BOp → List Fn → List Fn → List Fn × List Fn
  | [], fs, gs => (fs, gs)
  | .op x :: xs, fs, gs => specRunB E xs (specStep fs x) gs
  | .conv i :: xs, fs, gs => specRunB E xs fs ((fun ρ => fget fs i (E ρ)) :: gs)

/-! ### Invariant of the tables -/

/-- The three clauses that define `g` as the conjunction of two literals. -/
def AndClauses (cs : List Clause) (g : Nat) (l r : SLit) : Prop :=
  [⟨true, g⟩, l] ∈ cs ∧ [⟨true, g⟩, r] ∈ cs ∧ [⟨false, g⟩, l.not, r.not] ∈ cs

def St.live (s : St) (i : Nat) : Prop := (s.nd i).node ≠ .free

structure Inv (s : St) : Prop where
  root : (s.nd 0).node = .one ∧ (s.nd 0).sat = 0 ∧ (s.nd 0).sig = BitVec.allOnes 64
  oneOnly : ∀ i, (s.nd i).node = .one → i = 0
  uniq : ∀ i, i ∈ s.uniq ↔ s.live i ∧ i ≠ 0
  nodup : s.uniq.Nodup
  inj : ∀ i j, s.live i → (s.nd i).node = (s.nd j).node → i = j
  kids : ∀ i l r, (s.nd i).node = .and l r →
    (s.live l.idx ∧ l.idx ≠ 0 ∧ (s.nd l.idx).sat < (s.nd i).sat) ∧
    (s.live r.idx ∧ r.idx ≠ 0 ∧ (s.nd r.idx).sat < (s.nd i).sat)
  satRange : ∀ i, s.live i → i ≠ 0 → 0 < (s.nd i).sat ∧ (s.nd i).sat ≤ s.nvars
  freeOk : s.freeL.Nodup ∧ ∀ i ∈ s.freeL, i < s.heap.length ∧ ¬ s.live i
  empty : ∀ i, ¬ s.live i → s.nd i = emptyRec
  chains : ∀ ch ∈ s.sigs, ∀ k ∈ ch, s.live k ∧ ∀ k' ∈ ch, (s.nd k').sig = (s.nd k).sig
  cls : ∀ c ∈ s.clauses, ∀ a ∈ c, a.var ≤ s.nvars
  andCls : ∀ i l r, (s.nd i).node = .and l r → AndClauses s.clauses (s.nd i).sat (s.lit l) (s.lit r)
  ext : ∀ ρ : Env, ∃ σ, Sat σ s.clauses [] ∧ ∀ i f, Den s i f → i ≠ 0 → σ (s.nd i).sat = f ρ

/-- `s'` comes from `s` by calls that only add nodes. -/
def Grow (s s' : St) : Prop :=
  (∀ i, s.live i → s'.nd i = s.nd i) ∧ (∀ i b, (s'.nd i).bdd = some b → s'.nd i = s.nd i)

end Voss.Bexpr
