/-
Model of the type checker (`src/bin/fl/typecheck.c`).

Conventions.
* A `typeExp_rec` that is a type variable is a number; the other records never change, so they are trees.
  A variable that has become an `Indirection_tp` is one that is bound in the store.  Only the identity of
  variables is ever looked at.
* Outcomes: `ok`, `fail` (a type error was reported), `ub` (a null pointer is followed or an assertion
  fails), `out` (the fuel ran out; the code has none, see `c57_ends`).
* Messages are left out.
-/
namespace Voss.TC

/-- Type operators other than variables and indirections (typecheck.h:110-113; `fail_tp` is never used). -/
inductive Op where
  | bool | bexpr | int | fsm | string | void | fp
  | arrow | tuple | list | ref | tbl
  | concrete (name : String)
deriving DecidableEq

mutual
/-- `typeExp_rec`. -/
inductive Ty where
  | var (v : Nat)
  | con (op : Op) (args : Tys)
/-- `typeList_rec`. -/
inductive Tys where
  | nil
  | cons (t : Ty) (ts : Tys)
end

deriving instance DecidableEq for Ty, Tys

abbrev Ty.arrow (a b : Ty) : Ty := .con .arrow (.cons a (.cons b .nil))
abbrev Ty.list (a : Ty) : Ty := .con .list (.cons a .nil)
abbrev Ty.base (o : Op) : Ty := .con o .nil

inductive Res (α : Type) where
  | ok (a : α)
  | fail
  | ub
  | out

def Res.bind {α β : Type} : Res α → (α → Res β) → Res β
  | .ok a, f => f a
  | .fail, _ => .fail
  | .ub, _ => .ub
  | .out, _ => .out

instance : Monad Res where
  pure := .ok
  bind := Res.bind

def Res.ofOption {α : Type} : Option α → Res α
  | some a => .ok a
  | none => .out

/-- The store: bindings, the next new variable, the variables bound in the current context (`diff_buf`), the
last one first, and the overloaded names met (`to_be_resolved`), with their types. -/
structure St where
  bind : Nat → Option Ty
  next : Nat
  trail : List Nat
  unres : List (Nat × Ty) := []

/-- `record_old_value`, `t1->typeOp = Indirection_tp; t1->alias = t2` typecheck.c:1084-1091, 1129-1131. -/
def St.set (s : St) (v : Nat) (t : Ty) : St :=
  { s with bind := fun w => if w = v then some t else s.bind w, trail := v :: s.trail }

/-- `new_tVar` typecheck.c:956-964. -/
def St.fresh (s : St) : Ty × St := (.var s.next, { s with next := s.next + 1 })

/-- `get_real_type` typecheck.c:1001-1008. -/
def resolve (bind : Nat → Option Ty) : Nat → Ty → Option Ty
  | 0, _ => none
  | n + 1, .var v => match bind v with
    | none => some (.var v)
    | some t => resolve bind n t
  | _ + 1, .con o ts => some (.con o ts)

mutual
/-- `occurs` typecheck.c:1064-1082; the first argument, an unbound variable, is its number. -/
def occurs (bind : Nat → Option Ty) (v : Nat) : Nat → Ty → Option Bool
  | 0, _ => none
  | n + 1, t => do
    match ← resolve bind n t with
    | .var w => some (v == w)
    | .con _ ts => occursIn bind v n ts
/-- Its loop. -/
def occursIn (bind : Nat → Option Ty) (v : Nat) : Nat → Tys → Option Bool
  | 0, _ => none
  | _ + 1, .nil => some false
  | n + 1, .cons t ts => do
    if ← occurs bind v n t then some true else occursIn bind v n ts
end

mutual
/-- `unify` typecheck.c:1115-1159. -/
def unify : Nat → St → Ty → Ty → Res (Bool × St)
  | 0, _, _, _ => .out
  | n + 1, s, t1, t2 => do
    let t1 ← Res.ofOption (resolve s.bind n t1)
    let t2 ← Res.ofOption (resolve s.bind n t2)
    match t1, t2 with
    | .var v, t2 =>
      if ← Res.ofOption (occurs s.bind v n t2) then
        if Ty.var v ≠ t2 then .ok (false, s) else .ok (true, s)
      else .ok (true, s.set v t2)
    | .con o ts, .var v => unify n s (.var v) (.con o ts)
    | .con o ts, .con o' ts' =>
      if o ≠ o' then .ok (false, s) else unifyAll n s ts ts'
/-- Its loop: it runs over the first list. -/
def unifyAll : Nat → St → Tys → Tys → Res (Bool × St)
  | 0, _, _, _ => .out
  | _ + 1, s, .nil, _ => .ok (true, s)
  | _ + 1, _, .cons _ _, .nil => .ub
  | n + 1, s, .cons t ts, .cons t' ts' => do
    let (b, s) ← unify n s t t'
    if b then unifyAll n s ts ts' else .ok (false, s)
end

mutual
/-- `copy_to_persistent_store_rec` and `fresh_inst_rec` typecheck.c:2791-2866, 2877-2945, which differ in
where the records are allocated: a copy with new variables.  `memo` are the `alias` fields of variables
(`clean_aliases` has removed those of earlier copies). -/
def copy (bind : Nat → Option Ty) : Nat → List (Nat × Nat) → Nat → Ty → Option (Ty × List (Nat × Nat) × Nat)
  | 0, _, _, _ => none
  | n + 1, memo, next, t => do
    match ← resolve bind n t with
    | .var v => match memo.lookup v with
      | some w => some (.var w, memo, next)
      | none => some (.var next, (v, next) :: memo, next + 1)
    | .con o ts => do
      let (ts, memo, next) ← copyAll bind n memo next ts
      some (.con o ts, memo, next)
def copyAll (bind : Nat → Option Ty) : Nat → List (Nat × Nat) → Nat → Tys → Option (Tys × List (Nat × Nat) × Nat)
  | 0, _, _, _ => none
  | _ + 1, memo, next, .nil => some (.nil, memo, next)
  | n + 1, memo, next, .cons t ts => do
    let (t, memo, next) ← copy bind n memo next t
    let (ts, memo, next) ← copyAll bind n memo next ts
    some (.cons t ts, memo, next)
end

/-- `fresh_inst` typecheck.c:2862-2867, `copy_to_persistent_store` typecheck.c:2782-2787. -/
def inst (n : Nat) (s : St) (t : Ty) : Res (Ty × St) := do
  let (t, _, next) ← Res.ofOption (copy s.bind n [] s.next t)
  .ok (t, { s with next := next })

/-- Expressions, as the type checker gets them.  `const` is a name that is defined, with the type it has in the
symbol table, or a primitive, whose type `get_prim_fun_type` builds with new variables.  `ov v t` is an
overloaded name whose entry in the symbol table has type `t`; `v` identifies the node.  `hint` is an
expression with a type assertion. -/
inductive Tm where
  | var (x : String)
  | lit (o : Op)
  | const (t : Ty)
  | ov (v : Nat) (t : Ty)
  | app (f a : Tm)
  | nil
  | cons (h t : Tm)
  | lam (x : String) (b : Tm)
  | hint (e : Tm) (t : Ty)

/-- `unify`, where a failure ends the type check. -/
def unify! (n : Nat) (s : St) (t1 t2 : Ty) : Res St := do
  let (b, s) ← unify n s t1 t2
  if b then .ok s else .fail

/-- `make_arrow`, `make_list` typecheck.c:1011-1026, 1046-1057. -/
def mkArrow (n : Nat) (s : St) (a b : Ty) : Res Ty := do
  let b ← Res.ofOption (resolve s.bind n b)
  let a ← Res.ofOption (resolve s.bind n a)
  .ok (.arrow a b)
def mkList (n : Nat) (s : St) (a : Ty) : Res Ty := do .ok (.list (← Res.ofOption (resolve s.bind n a)))

/-- The two parts of a function type; other operators have been refused, and a list that is too short has a
null pointer followed. -/
def arrowParts : Ty → Res (Ty × Ty)
  | .con .arrow (.cons a (.cons b _)) => .ok (a, b)
  | .con .arrow _ => .ub
  | .con _ _ => .fail
  | .var _ => .ub

/-- The `APPLY_ND` case, when the parts have been checked (typecheck.c:1991-2012). -/
def inferApp (n : Nat) (s : St) (tf ta : Ty) : Res (Ty × St) := do
  let fnTp ← Res.ofOption (resolve s.bind n tf)
  let argTp ← Res.ofOption (resolve s.bind n ta)
  let (fnTp, s) ← match fnTp with
    | .var v => do
      let (r, s) := s.fresh
      let expected ← mkArrow n s argTp r
      let s ← unify! n s (.var v) expected
      let fnTp ← Res.ofOption (resolve s.bind n (.var v))
      .ok (fnTp, s)
    | fnTp => .ok (fnTp, s)
  let (a, b) ← arrowParts fnTp
  let s ← unify! n s argTp a
  .ok (← Res.ofOption (resolve s.bind n b), s)

/-- `build_node_type_struct` typecheck.c:1977-2131.  `env` is `lvars_tbl`, where a `LAMBDA_ND` hides an older
entry of the same name while its body is checked.  A variable that is not bound is an assertion failure. -/
def infer (n : Nat) : St → List (String × Ty) → Tm → Res (Ty × St)
  | s, env, .var x => match env.lookup x with
    | some t => .ok (t, s)
    | none => .ub
  | s, _, .lit o => .ok (.base o, s)
  | s, _, .const t => inst n s t
  | s, _, .ov v t => do
    let (t, s) ← inst n s t
    .ok (t, { s with unres := (v, t) :: s.unres })
  | s, env, .app f a => do
    let (tf, s) ← infer n s env f
    let (ta, s) ← infer n s env a
    inferApp n s tf ta
  | s, _, .nil => do
    let (a, s) := s.fresh
    .ok (← mkList n s a, s)
  | s, env, .cons h t => do
    let (th, s) ← infer n s env h
    let (tt, s) ← infer n s env t
    let pot ← mkList n s th
    let s ← unify! n s tt pot
    .ok (← Res.ofOption (resolve s.bind n tt), s)
  | s, env, .lam x b => do
    let (a, s) := s.fresh
    let (tb, s) ← infer n s ((x, a) :: env) b
    .ok (← mkArrow n s a tb, s)
  | s, env, .hint e t => do
    let (te, s) ← infer n s env e
    let s ← unify! n s te t
    .ok (← Res.ofOption (resolve s.bind n te), s)

/-- `pop_tc_context(TRUE)` typecheck.c:1102-1113: the variables bound in the context are unbound. -/
def restore (bind : Nat → Option Ty) : List Nat → Nat → Option Ty
  | [] => bind
  | v :: vs => restore (fun w => if w = v then none else bind w) vs

/-- `TypeCheck` typecheck.c:196-297 for an expression without overloaded names.  The result is the type in
the persistent store, and the store afterwards. -/
def typeCheck (n : Nat) (s : St) (e : Tm) : Res (Ty × St) := do
  let (t, s') ← infer n { s with trail := [] } [] e
  let (t, s') ← inst n s' t
  .ok (t, { s with bind := restore s'.bind s'.trail, next := s'.next })

end Voss.TC
