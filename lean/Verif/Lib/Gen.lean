import Verif.Lib.HashSpec
/-
Model of the generation hash `src/lib/generation_hash.c`: a hash table with checkpoints.
`none` is undefined behaviour.
-/
namespace Voss.Lib.Gen

/-- `gen_hash_rec` (generation_hash.h:21-34).  The head of `diffs` is `cur_diff`.  The data stored in
`to_del` is the key itself; only whether it is `NULL` is looked at, and keys are taken not to be `NULL`. -/
structure Gen (K V : Type) where
  main : Tbl K V
  diffs : List (Tbl K Unit × Tbl K V)

section
variable {K V : Type} (h : K → Nat → Nat) (eq : K → K → Bool)

/-- `begin_generation` generation_hash.c:22-32. -/
def beginGen (g : Gen K V) : Option (Gen K V) := do
  let d ← create 100
  let a ← create 100
  some { g with diffs := (d, a) :: g.diffs }

/-- `create_gen_hash` generation_hash.c:34-46. -/
def createGen (size : Nat) : Option (Gen K V) := do
  let t ← create size
  beginGen ⟨t, []⟩

/-- `find_gen_hash` generation_hash.c:63-68. -/
def findGen (g : Gen K V) (k : K) : Option (Option V) := find h eq g.main k

/-- Record the present value of a key in `to_add` (generation_hash.c:86-88, 108-110). -/
def recordOld (a : Tbl K V) (k : K) : Option V → Option (Tbl K V)
  | some v => insert h a k (some v)
  | none => some a

/-- `insert_gen_hash` generation_hash.c:70-91. -/
def insertGen (g : Gen K V) (k : K) (data : Option V) : Option (Gen K V) :=
  match g.diffs with
  | [] => none
  | (d, a) :: ds => do
    let inDel ← find h eq d k
    let inAdd ← find h eq a k
    let inMain ← find h eq g.main k
    if inDel.isSome || inAdd.isSome then do
      let t ← insert h g.main k data
      some { g with main := t }
    else do
      let d ← insert h d k (some ())
      let a ← recordOld h a k inMain
      let t ← insert h g.main k data
      some ⟨t, (d, a) :: ds⟩

/-- `delete_gen_hash` generation_hash.c:93-113. -/
def deleteGen (g : Gen K V) (k : K) : Option (Gen K V) :=
  match g.diffs with
  | [] => none
  | (d, a) :: ds => do
    let inDel ← find h eq d k
    let inAdd ← find h eq a k
    let inMain ← find h eq g.main k
    if inDel.isSome || inAdd.isSome then do
      let t ← delete h eq g.main k
      some { g with main := t }
    else do
      let a ← recordOld h a k inMain
      let t ← delete h eq g.main k
      some ⟨t, (d, a) :: ds⟩

/-- `scan_hash(to_del, del_fun)`. -/
def deleteAll : Tbl K V → List (K × Option Unit) → Option (Tbl K V)
  | t, [] => some t
  | t, e :: es => do
    let t ← delete h eq t e.1
    deleteAll t es

/-- `scan_hash(to_add, add_fun)`. -/
def insertAll : Tbl K V → List (K × Option V) → Option (Tbl K V)
  | t, [] => some t
  | t, e :: es => do
    let t ← insert h t e.1 e.2
    insertAll t es

/-- `end_generation` generation_hash.c:116-133. -/
def endGen (g : Gen K V) : Option (Gen K V) :=
  match g.diffs with
  | [] => none
  | (d, a) :: ds => do
    let t ← deleteAll h eq g.main (scan d)
    let t ← insertAll h t (scan a)
    some ⟨t, ds⟩

inductive Op (K V : Type) where
  | beginG
  | endG
  | insert (k : K) (v : V)
  | delete (k : K)
  | find (k : K)

/-- One operation; `find` gives a result. -/
def step (g : Gen K V) : Op K V → Option (Gen K V × Option V)
  | .beginG => do
    let g ← beginGen g
    some (g, none)
  | .endG => do
    let g ← endGen h eq g
    some (g, none)
  | .insert k v => do
    let g ← insertGen h eq g k (some v)
    some (g, none)
  | .delete k => do
    let g ← deleteGen h eq g k
    some (g, none)
  | .find k => do
    let d ← findGen h eq g k
    some (g, d)

def run : Gen K V → List (Op K V) → Option (Gen K V × List (Option V))
  | g, [] => some (g, [])
  | g, op :: ops => do
    let (g, o) ← step h eq g op
    let (g, os) ← run g ops
    some (g, o :: os)

end

/-! ### Specification: a stack of maps -/

/-- The present map, and for each open generation the map at its start and the keys changed in it. -/
structure GSpec (K V : Type) where
  cur : K → Option V
  gens : List ((K → Option V) × List K)

section
variable {K V : Type} (eq : K → K → Bool)

def GSpec.init : GSpec K V := ⟨fun _ => none, [(fun _ => none, [])]⟩

def touch (k : K) : List ((K → Option V) × List K) → List ((K → Option V) × List K)
  | [] => []
  | (m, ks) :: gs => (m, k :: ks) :: gs

def GSpec.step (s : GSpec K V) : Op K V → GSpec K V × Option V
  | .beginG => (⟨s.cur, (s.cur, []) :: s.gens⟩, none)
  | .endG => (match s.gens with
              | [] => s
              | (m, _) :: gs => ⟨m, gs⟩, none)
  | .insert k v => (⟨fun k' => if eq k k' then some v else s.cur k', touch k s.gens⟩, none)
  | .delete k => (⟨fun k' => if eq k k' then none else s.cur k', touch k s.gens⟩, none)
  | .find k => (s, s.cur k)

def GSpec.run (s : GSpec K V) : List (Op K V) → GSpec K V × List (Option V)
  | [] => (s, [])
  | op :: ops => ((GSpec.run (s.step eq op).1 ops).1, (s.step eq op).2 :: (GSpec.run (s.step eq op).1 ops).2)

/-- The key has not been changed in the current generation, and there is one. -/
def GSpec.Fresh (s : GSpec K V) (k : K) : Prop :=
  match s.gens with
  | [] => False
  | (_, ks) :: _ => ∀ k' ∈ ks, eq k k' = false

/-- What the proved part asks for: only absent keys are inserted, only present keys deleted, and no key
is changed twice within one generation. -/
def GSpec.Legal (s : GSpec K V) : List (Op K V) → Prop
  | [] => True
  | op :: ops =>
    (match op with
     | .insert k _ => s.cur k = none ∧ s.Fresh eq k
     | .delete k => (s.cur k).isSome ∧ s.Fresh eq k
     | .endG => s.gens ≠ []
     | _ => True) ∧ GSpec.Legal (s.step eq op).1 ops

end
end Voss.Lib.Gen
