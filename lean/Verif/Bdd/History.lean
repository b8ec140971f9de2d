import Verif.Bdd.Model2
import Verif.Bdd.Model3
import Verif.Bdd.Spec
import Mathlib.Data.Set.Defs
/-
Histories of BDD operations: the commands a user can give to the package, what the modelled code does
for a list of commands, and what the commands mean for Boolean functions of named variables.
-/
namespace Voss.Bdd

/-! ### Commands -/

/-- The binary connectives (new_bdd.c:478-536). -/
inductive BinOp where
  | and | or | xor | nand | nor | xnor
deriving DecidableEq, Repr

/-- The function of the package for a connective. -/
def BinOp.run : BinOp → S → F → F → Option (F × S)
  | .and => bAnd | .or => bOr | .xor => bXor | .nand => bNand | .nor => bNor | .xnor => bXnor

/-- A command.  Operands are positions in the list of handles (the pool) the user holds. -/
inductive Cmd where
  | const (b : Bool)
  /-- `variable name` -/
  | var (name : String)
  | not (i : Nat)
  | bin (op : BinOp) (i j : Nat)
  | ite (i j k : Nat)
  /-- `Quant_forall` / `Quant_thereis`, over the support of the first operand -/
  | quant (univ : Bool) (v f : Nat)
  /-- `substitute` with variables by name -/
  | subst (pairs : List (String × Nat)) (fs : List Nat)
  /-- keep the handles at these positions, forget the others -/
  | pick (is : List Nat)
  /-- garbage collection -/
  | gc
  /-- garbage collection with dynamic variable ordering -/
  | sift (c : Cfg)
  /-- `var_order names` -/
  | varOrder (names : List String)
  /-- save the BDDs at these positions and load the file again -/
  | saveLoad (is : List Nat)

/-- `P_VAR_ORDER` (graph.c:3873-3890) and `Reorder` (new_bdd.c:1079-1118): three garbage collections,
the second one with `user_defined_reorder`. -/
def varOrder (s : S) (pool : List F) (names : List String) : Option S := do
  let (vs, s) ← orderingVars s names
  let s ← gc s pool [] .keep
  let s ← gc s pool [] (.user vs)
  gc s pool [] .keep

/-- What the code does for one command: new state and new pool.  A command that refers to a position
outside of the pool is skipped.  A `substitute` that names a variable twice reports an error and
gives no result. -/
def step (s : S) (pool : List F) : Cmd → Option (S × List F)
  | .const b => some (s, pool ++ [if b then ONE else ZERO])
  | .var name => do
    let (f, s) ← bVar s name
    some (s, pool ++ [f])
  | .not i =>
    match pool[i]? with
    | some f => some (s, pool ++ [bNot f])
    | none => some (s, pool)
  | .bin op i j =>
    match pool[i]?, pool[j]? with
    | some f, some g => do
      let (r, s) ← op.run s f g
      some (s, pool ++ [r])
    | _, _ => some (s, pool)
  | .ite i j k =>
    match pool[i]?, pool[j]?, pool[k]? with
    | some f, some g, some h => do
      let (r, s) ← bIte s f g h
      some (s, pool ++ [r])
    | _, _, _ => some (s, pool)
  | .quant univ v f =>
    match pool[v]?, pool[f]? with
    | some v, some f => do
      let (r, s) ← if univ then quantForall s v f else quantThereis s v f
      some (s, pool ++ [r])
    | _, _ => some (s, pool)
  | .subst pairs fs =>
    match pairs.mapM (fun p => (pool[p.2]?).map (fun f => (p.1, f))), fs.mapM (pool[·]?) with
    | some ps, some fs => do
      let (out, s) ← substitute s ps fs
      match out with
      | none => some (s, pool)
      | some rs => some (s, pool ++ rs)
    | _, _ => some (s, pool)
  | .pick is => some (s, is.filterMap (pool[·]?))
  | .gc => do
    let s ← gc s pool [] .keep
    some (s, pool)
  | .sift c => do
    let s ← gc s pool [] (.sift c)
    some (s, pool)
  | .varOrder names => do
    let s ← varOrder s pool names
    some (s, pool)
  | .saveLoad is =>
    match is.mapM (pool[·]?) with
    | some fs => do
      let file ← saveBDDs s fs
      let (rs, s) ← loadBDDs s file
      some (s, pool ++ rs)
    | none => some (s, pool)

/-- A history of commands. -/
def run : S → List F → List Cmd → Option (S × List F)
  | s, pool, [] => some (s, pool)
  | s, pool, c :: cs => do
    let (s, pool) ← step s pool c
    run s pool cs

/-- The conjunction of the listed variables: `sitlist (\\n.\\r. variable n AND r) vars T`
(preamble.fl:449-450, 456-457). -/
def conjNames : S → List String → Option (F × S)
  | s, [] => some (ONE, s)
  | s, name :: rest => do
    let (v, s) ← bVar s name
    let (r, s) ← conjNames s rest
    bAnd s v r

/-- `Quant_forall vars f` and `Quant_thereis vars f` (preamble.fl:448-459). -/
def quantNames (univ : Bool) (s : S) (names : List String) (f : F) : Option (F × S) := do
  let (v, s) ← conjNames s names
  if univ then quantForall s v f else quantThereis s v f

/-! ### Meaning of the commands -/

/-- Truth table of the connectives. -/
def BinOp.sem : BinOp → Bool → Bool → Bool
  | .and, a, b => a && b
  | .or, a, b => a || b
  | .xor, a, b => a != b
  | .nand, a, b => !(a && b)
  | .nor, a, b => !(a || b)
  | .xnor, a, b => a == b

open Classical in
/-- `G` for all / some values of the variables `V` depends on. -/
noncomputable def nQuant (univ : Bool) (V G : NEnv → Bool) : NEnv → Bool := fun η =>
  if univ then decide (∀ η' : NEnv, (∀ n, ¬ NDependsOn V n → η' n = η n) → G η' = true)
  else decide (∃ η' : NEnv, (∀ n, ¬ NDependsOn V n → η' n = η n) ∧ G η' = true)

/-- Assignments that satisfy `G` and agree with `η0` outside the listed names. -/
def SatSet (names : List String) (G : NEnv → Bool) (η0 : NEnv) : Set NEnv :=
  {η | (∀ n, n ∉ names → η n = η0 n) ∧ G η = true}

open Classical in
/-- `G` for all / some values of the listed variables. -/
noncomputable def qNames (univ : Bool) (names : List String) (G : NEnv → Bool) : NEnv → Bool := fun η =>
  if univ then decide (∀ η' : NEnv, (∀ n, n ∉ names → η' n = η n) → G η' = true)
  else decide (∃ η' : NEnv, (∀ n, n ∉ names → η' n = η n) ∧ G η' = true)

/-- What one command means for the list of Boolean functions the user holds. -/
noncomputable def meaning (pool : List (NEnv → Bool)) : Cmd → List (NEnv → Bool)
  | .const b => pool ++ [(fun _ => b : NEnv → Bool)]
  | .var name => pool ++ [(fun η => η name : NEnv → Bool)]
  | .not i =>
    match pool[i]? with
    | some G => pool ++ [fun η => !(G η)]
    | none => pool
  | .bin op i j =>
    match pool[i]?, pool[j]? with
    | some G, some H => pool ++ [fun η => op.sem (G η) (H η)]
    | _, _ => pool
  | .ite i j k =>
    match pool[i]?, pool[j]?, pool[k]? with
    | some G, some H, some K => pool ++ [fun η => if G η then H η else K η]
    | _, _, _ => pool
  | .quant univ v f =>
    match pool[v]?, pool[f]? with
    | some V, some G => pool ++ [nQuant univ V G]
    | _, _ => pool
  | .subst pairs fs =>
    match pairs.mapM (fun p => (pool[p.2]?).map (fun G => (p.1, G))), fs.mapM (pool[·]?) with
    | some σ, some Gs => if (σ.map Prod.fst).Nodup then pool ++ Gs.map (nSubst σ) else pool
    | _, _ => pool
  | .pick is => is.filterMap (pool[·]?)
  | .gc => pool
  | .sift _ => pool
  | .varOrder _ => pool
  | .saveLoad is =>
    match is.mapM (pool[·]?) with
    | some Gs => pool ++ Gs
    | none => pool

/-- What a history means. -/
noncomputable def meanings : List (NEnv → Bool) → List Cmd → List (NEnv → Bool)
  | pool, [] => pool
  | pool, c :: cs => meanings (meaning pool c) cs

/-! ### Histories without the naming trap -/

/-- The name of a next-state variable, as `B_Var` sees it (new_bdd.c:258-262). -/
def EndsN (name : String) : Prop :=
  2 ≤ name.toList.length ∧ name.toList.drop (name.toList.length - 2) = ['_', 'n']

/-- The name without its last two characters. -/
def base (name : String) : String := String.ofList (name.toList.take (name.toList.length - 2))

/-- Not the name of a next-state variable of a next-state variable (no name like `x_n_n`). -/
def NameOK (name : String) : Prop := ¬ (EndsN name ∧ EndsN (base name))

/-- The command does not reorder variables. -/
def Cmd.Plain : Cmd → Prop
  | .sift _ => False
  | .varOrder _ => False
  | _ => True

/-- No variable is called like `x_n_n`, and only current-state variables are given to `var_order`. -/
def Cmd.NamesOK : Cmd → Prop
  | .var name => NameOK name
  | .subst pairs _ => ∀ p ∈ pairs, NameOK p.1
  | .varOrder names => ∀ n ∈ names, ¬ EndsN n
  | _ => True

/-- Histories the theorems talk about: without reordering, or without names like `x_n_n`. -/
def Ok (p : List Cmd) : Prop := (∀ c ∈ p, c.Plain) ∨ (∀ c ∈ p, c.NamesOK)

instance (n : String) : Decidable (EndsN n) := by unfold EndsN; infer_instance
instance (n : String) : Decidable (NameOK n) := by unfold NameOK; infer_instance

end Voss.Bdd
