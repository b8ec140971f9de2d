import Verif.Cache.Val
/-
Model of the caches of `clet`/`cletrec` functions (`src/bin/fl/cache.c`) and of the rule that uses them
(`P_CACHE` in `src/bin/fl/graph.c`).
-/
namespace Voss.Cache

/-- The table `primes` (cache.c:24-49), without the 0 at its end. -/
def primes : List Nat :=
  [241, 503, 1019, 2039, 4091, 8179, 16369, 32749, 65521, 131063, 262139, 524269, 1048571, 2097143, 4194287,
   8388593, 16777199, 33554393, 67108859, 134217689, 268435399, 536870879, 1073741789, 2147483629]

/-- `new_prime` cache.c:562-569.  The 0 at the end of the table does not stop the loop: it runs off the
table (`none`). -/
def newPrime (n : Nat) : Option Nat := primes.find? (fun p => !decide (p ≤ n))

/-- `g_cache_rec` (cache.h), without the mark. -/
structure Tbl (R : Type) where
  size : Nat
  load : Nat
  tbl : List (Option (V × R))

/-- A new or emptied cache: `Make_g_cache`, `Sweep_G_caches`, `clean_clets` (cache.c:69-80, 173-187,
189-208). -/
def Tbl.empty {R : Type} : Tbl R := ⟨0, 0, []⟩

variable (E : HashEnv) {R : Type}

/-- `Find_in_g_cache` cache.c:81-98.  An empty entry is a `NULL` key, which is equal only to `NULL`. -/
def find (store : Nat → V) (fuel : Nat) (T : Tbl R) (argl : V) : Option (Option R) :=
  if T.load = 0 then some none else do
    let hash ← mainHash E argl T.size
    match ← T.tbl[hash]? with
    | none => some none
    | some (k, r) => do
      if ← cacheEq store fuel k argl then some (some r) else some none

/-- Write one entry (cache.c:124-130, 137-144). -/
def put (T : Tbl R) (argl : V) (res : R) : Option (Tbl R) := do
  let hash ← mainHash E argl T.size
  let old ← T.tbl[hash]?
  some { T with load := if old.isNone then T.load + 1 else T.load, tbl := T.tbl.set hash (some (argl, res)) }

/-- The loop that moves the entries (cache.c:122-132). -/
def move : Tbl R → List (Option (V × R)) → Option (Tbl R)
  | T, [] => some T
  | T, none :: l => move T l
  | T, some (k, r) :: l => do move (← put E T k r) l

/-- `Insert_in_g_cache` cache.c:100-145. -/
def insert (T : Tbl R) (argl : V) (res : R) : Option (Tbl R) := do
  let T ← if T.size = 0 ∨ w32 (100 * T.load) / T.size > 85 then do
      let size ← newPrime (w32 (T.size + 1))
      move E ⟨size, 0, List.replicate size none⟩ T.tbl
    else some T
  put E T argl res

/-- What the evaluation of the body of a function does: give a result, call a cached function under some
context, look into a reference cell, or cause a garbage collection, which empties the caches that are not
marked (`Sweep_G_caches` cache.c:173-187); `clean_clets` is the case that none is kept (cache.c:189-208). -/
inductive Body (R : Type) where
  | ret (r : R)
  | call (g ctx : Nat) (args : List V) (k : R → Body R)
  | deref (c : Nat) (k : V → Body R)
  | collect (marked : Nat → Bool) (k : Body R)

/-- The result of evaluation: a value, undefined behaviour (or `DIE`), or no end within the bound. -/
inductive Res (α : Type) where
  | val (a : α)
  | ub
  | out

/-- The caches and the reference cells. -/
structure St (R : Type) where
  caches : Nat → Tbl R
  store : Nat → V

/-- The key of a call: the context and the arguments, which end in NIL (graph.c:4404-4430; the arguments
are the list that `Make_arglist`, graph.c:915-927, builds).  The list nodes are new; their addresses are
left out. -/
def keyArgs : List V → V
  | [] => .cons 0 .null .null
  | a :: as => .cons 0 a (keyArgs as)
def key (ctx : Nat) (args : List V) : V := .cons 0 (.leaf 0 (.bool ctx)) (keyArgs args)

/-- Empty the caches that are not marked. -/
def St.collect (st : St R) (marked : Nat → Bool) : St R :=
  { st with caches := fun i => if marked i then st.caches i else Tbl.empty }

/-- Run a body; `call` runs a call of a cached function. -/
def runBody (call : Nat → Nat → List V → St R → Res (R × St R)) : Body R → St R → Res (R × St R)
  | .ret r, st => .val (r, st)
  | .deref c k, st => runBody call (k (st.store c)) st
  | .collect marked k, st => runBody call k (st.collect marked)
  | .call g ctx args k, st =>
    match call g ctx args st with
    | .val (r, st) => runBody call (k r) st
    | .ub => .ub
    | .out => .out

/-- The rule `P_CACHE` (graph.c:4403-4446) for function number `g`: look the arguments up; if they are not
there evaluate the body and enter the result.  `n` bounds the nesting of calls and the number of reference
cells followed by a comparison. -/
def call (defs : Nat → Nat → List V → Body R) : Nat → Nat → Nat → List V → St R → Res (R × St R)
  | 0, _, _, _, _ => .out
  | n + 1, g, ctx, args, st =>
    match find E st.store n (st.caches g) (key ctx args) with
    | none => .ub
    | some (some r) => .val (r, st)
    | some none =>
      match runBody (call defs n) (defs g ctx args) st with
      | .ub => .ub
      | .out => .out
      | .val (r, st) =>
        match insert E (st.caches g) (key ctx args) r with
        | none => .ub
        | some T => .val (r, { st with caches := fun i => if i = g then T else st.caches i })

/-- What can happen to the caches between evaluations: a call; an assignment to a reference cell
(`P_UPDATE_RVAR`); a garbage collection or `clean_clets`. -/
inductive Event where
  | call (g ctx : Nat) (args : List V)
  | assign (c : Nat) (v : V)
  | collect (marked : Nat → Bool)

/-- A session: the results of the calls and the caches at the end. -/
def session (defs : Nat → Nat → List V → Body R) (n : Nat) : List Event → St R → Res (List R × St R)
  | [], st => .val ([], st)
  | .assign c v :: es, st => session defs n es { st with store := fun i => if i = c then v else st.store i }
  | .collect marked :: es, st => session defs n es (st.collect marked)
  | .call g ctx args :: es, st =>
    match call E defs n g ctx args st with
    | .ub => .ub
    | .out => .out
    | .val (r, st) =>
      match session defs n es st with
      | .val (rs, st) => .val (r :: rs, st)
      | .ub => .ub
      | .out => .out

/-- The start: all caches empty. -/
def start (store : Nat → V) : St R := ⟨fun _ => Tbl.empty, store⟩

end Voss.Cache
