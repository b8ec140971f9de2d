import Verif.Type.Spec
/-
Model of the resolution of overloaded names (typecheck.c, symbol.c).

An alternative is a function that is neither overloaded itself nor has implicit arguments (`find_core_type`
typecheck.c:1565-1575 is then its type).  The alternatives of the name at node `v` are `alts v`, in the order
of `overload_list`.  `MAX_OVERLOAD_RESOLUTION_DEPTH` (50000 names in one expression) is not modelled.
-/
namespace Voss.TC

mutual
/-- `Type_eq` typecheck.c:2388-2455.  The counter `anon_cnt` gives every variable a number of its own, so
variables are equal when they are the same. -/
def typeEq (bind : Nat → Option Ty) : Nat → Ty → Ty → Option Bool
  | 0, _, _ => none
  | n + 1, t1, t2 => do
    match ← resolve bind n t1, ← resolve bind n t2 with
    | .var v, .var w => some (v == w)
    | .con o ts, .con o' ts' => if o ≠ o' then some false else typeEqAll bind n ts ts'
    | _, _ => some false
/-- Its loop over the arguments. -/
def typeEqAll (bind : Nat → Option Ty) : Nat → Tys → Tys → Option Bool
  | 0, _, _ => none
  | _ + 1, .nil, .nil => some true
  | n + 1, .cons t ts, .cons t' ts' => do
    if ← typeEq bind n t t' then typeEqAll bind n ts ts' else some false
  | _ + 1, _, _ => some false
end

/-- What a search returns: the number of solutions (an upper bound when it is more than one), for each node the
number of its alternative when there is one solution, and the store. -/
abbrev Found := Nat × List (Nat × Nat) × St

/-- `Type_eq(alt_type, cur_type) || unify(TRUE, alt_type, cur_type)` typecheck.c:2213. -/
def test (n : Nat) (s : St) (t1 t2 : Ty) : Res (Bool × St) := do
  if ← Res.ofOption (typeEq s.bind n t1 t2) then .ok (true, s) else unify n s t1 t2

/-- The loop over the alternatives in `nbr_succ_overload_res` typecheck.c:2210-2260: `i` is the number of the
next alternative, `rest` the search for the remaining names, `cnt` and `repl` are what has been found. -/
def tryAlts (n : Nat) (v : Nat) (cur : Ty) (rest : St → Res Found) : List Ty → Nat → Nat → List (Nat × Nat) → St → Res Found
  | [], _, cnt, repl, s => .ok (cnt, repl, s)
  | a :: as, i, cnt, repl, s => do
    let (alt, s) ← inst n s a
    let (b, s1) ← test n { s with trail := [] } alt cur
    if b then
      let (new, s1) ← inst n s1 a
      let (b, s1) ← unify n s1 new cur
      if b then
        let (k, r, s1) ← rest s1
        let s := { s with bind := restore s1.bind s1.trail, next := s1.next }
        if cnt + k > 1 then .ok (cnt + k, [], s)
        else if k = 1 then tryAlts n v cur rest as (i + 1) (cnt + k) ((v, i) :: r) s
        else tryAlts n v cur rest as (i + 1) (cnt + k) repl s
      else .ub
    else tryAlts n v cur rest as (i + 1) cnt repl { s with bind := restore s1.bind s1.trail, next := s1.next }

/-- `nbr_succ_overload_res` typecheck.c:2183-2290, with `closed` true.  The list is `to_be_resolved`. -/
def search (n : Nat) (alts : Nat → List Ty) : List (Nat × Ty) → St → Res Found
  | [], s => .ok (1, [], s)
  | (v, t) :: us, s => do
    let cur ← Res.ofOption (resolve s.bind n t)
    tryAlts n v cur (search n alts us) (alts v) 0 0 [] s

/-- The expression with its overloaded names replaced by alternatives (`*(nrp->old) = *(nrp->new)`
typecheck.c:243-246). -/
def Tm.pick (alts : Nat → List Ty) (c : Nat → Nat) : Tm → Tm
  | .ov v t => match (alts v)[c v]? with
    | some a => .const a
    | none => .ov v t
  | .app f a => .app (f.pick alts c) (a.pick alts c)
  | .cons h t => .cons (h.pick alts c) (t.pick alts c)
  | .lam x b => .lam x (b.pick alts c)
  | .hint e t => .hint (e.pick alts c) t
  | e => e

/-- The choice that a list of replacements describes. -/
def chosen (repl : List (Nat × Nat)) (v : Nat) : Nat := (repl.lookup v).getD 0

/-- `result = make_arrow(ntp->type, result)` for all unresolved names, typecheck.c:265-270. -/
def implicitArgs (n : Nat) (s : St) : List (Nat × Ty) → Ty → Res Ty
  | [], t => .ok t
  | (_, u) :: us, t => do implicitArgs n s us (← mkArrow n s u t)

/-- The result of `TypeCheck`: the type, and the nodes that become implicit arguments, or the choice. -/
inductive Over where
  | one (repl : List (Nat × Nat)) (t : Ty)
  | many (args : List Nat) (t : Ty)

/-- `TypeCheck` typecheck.c:196-297. -/
def typeCheckO (n : Nat) (alts : Nat → List Ty) (s : St) (e : Tm) : Res (Over × St) := do
  let (t, s1) ← infer n { s with trail := [] } [] e
  let (k, repl, s1) ← search n alts s1.unres s1
  if k = 0 then .fail
  else if k = 1 then
    let (t, s1) ← infer n { s1 with unres := [] } [] (e.pick alts (chosen repl))
    let (t, s1) ← inst n s1 t
    .ok (.one repl t, { s with bind := restore s1.bind s1.trail, next := s1.next })
  else
    let t ← implicitArgs n s1 s1.unres t
    let (t, s1) ← inst n s1 t
    .ok (.many (s1.unres.map (·.1)) t, { s with bind := restore s1.bind s1.trail, next := s1.next })

/-! ### The type of an overloaded name -/

mutual
/-- `find_common_type_rec` typecheck.c:404-430 on types without bound variables; `next` is the next new
variable.  `Type_eq` is equality there. -/
def common (next : Nat) : Ty → Ty → Ty × Nat
  | .con .arrow ts, .con .arrow ts' =>
    if Ty.con .arrow ts = .con .arrow ts' then (.con .arrow ts, next)
    else let (ts, next) := commonAll next ts ts'; (.con .arrow ts, next)
  | t1, t2 =>
    if t1 = t2 then (t1, next)
    else match t1, t2 with
      | .var v, _ => (.var v, next)
      | _, .var w => (.var w, next)
      | _, _ => (.var next, next + 1)
/-- `find_common_typelist` typecheck.c:383-402: the rest of the list comes first. -/
def commonAll (next : Nat) : Tys → Tys → Tys × Nat
  | .cons t ts, .cons t' ts' =>
    let (us, next) := commonAll next ts ts'
    let (u, next) := common next t t'
    (.cons u us, next)
  | ts, _ => (ts, next)
end

/-- `Get_common_type` typecheck.c:432-452, without a declared type, for at least one alternative; without the
copy at its end. -/
def commonType (next : Nat) : List Ty → Ty × Nat
  | [] => (.var next, next + 1)
  | a :: as => (a :: as).foldl (fun p b => common p.2 p.1 b) (a, next)

/-- `Find_Overload_Choice` typecheck.c:2157-2170 for a function that is not overloaded: the function of that
name, if its type fits `type`.  `pop_tc_context(FALSE)` keeps the bindings. -/
def findChoice (n : Nat) (s : St) (type fnType : Ty) : Res (Bool × St) := do
  let (b, s1) ← unify n { s with trail := [] } type fnType
  if b then .ok (true, { s1 with trail := s.trail })
  else .ok (false, { s1 with bind := restore s1.bind s1.trail, trail := s.trail })

end Voss.TC
