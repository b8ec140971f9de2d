import Verif.Cache.MemoLemmas
/-
Property theorems for cached functions (C40).
-/
namespace Voss.Cache

/-! ### C40: cached functions return what the function returns -/

/-- Over every session of calls, garbage collections, `clean_clets` and assignments, with any nesting of
cached calls, whatever the hash functions: each call returns what the function returns with no cache, and
nothing undefined happens.  Missing (and false, see below): arguments that hold reference cells, minus zero,
vectors with redundant sign bits, and objects of different classes; functions that read reference cells. -/
theorem c40_session_partial {R : Type} (E : HashEnv) {ok : Nat → List V → Prop} {store : Nat → V}
    {defs : Nat → Nat → List V → Body R} (pure : Pure ok store defs) (n : Nat) (es : List Event) (hes : ∀ e ∈ es, e.Pure ok) :
    session E defs n es (start store) ≠ .ub ∧ ∀ rs st, session E defs n es (start store) = .val (rs, st) →
      List.Forall₂ (fun (c : Nat × Nat × List V) r => Returns store defs c.1 c.2.1 c.2.2 r) (calls es) rs := by
  have h := session_good E pure n es (start store) hes stOk_start
  constructor
  · intro e; rw [e] at h; exact h
  · intro rs st e; rw [e] at h; exact h.1

/-- If the functions end within a nesting of `n` calls, so does the session. -/
theorem c40_ends {R : Type} (E : HashEnv) {ok : Nat → List V → Prop} {store : Nat → V}
    {defs : Nat → Nat → List V → Body R} (pure : Pure ok store defs) (n : Nat) (es : List Event) (hes : ∀ e ∈ es, e.Pure ok)
    (hp : ∀ c ∈ calls es, ∃ r, plain store defs n c.1 c.2.1 c.2.2 = some r) :
    ∃ rs st, session E defs n es (start store) = .val (rs, st) :=
  session_ends E pure n es (start store) hes stOk_start hp

/-- After any session, a call that has just been evaluated is, if it is made again, answered without
evaluating the function, wherever the same arguments are stored: the answer does not depend on what the
functions are (`defs'`). -/
theorem c40_hit {R : Type} (E : HashEnv) {ok : Nat → List V → Prop} {store : Nat → V}
    {defs : Nat → Nat → List V → Body R} (pure : Pure ok store defs) {n m g ctx : Nat} {args bs : List V} {r : R} {rs : List R}
    {st st' : St R} {es : List Event} (hes : ∀ e ∈ es, e.Pure ok)
    (hses : session E defs n es (start store) = .val (rs, st)) (hok : ok g args) (hpl : ∀ a ∈ args, a.Plain)
    (hmiss : find E st.store n (st.caches g) (key ctx args) = some none)
    (hcall : call E defs (n + 1) g ctx args st = .val (r, st')) (hsame : SameArgs args bs)
    (defs' : Nat → Nat → List V → Body R) : call E defs' (m + 1) g ctx bs st' = .val (r, st') := by
  have hst : StOk ok store defs st := by
    have h := session_good E pure n es (start store) hes stOk_start
    rw [hses] at h
    exact h.2
  simp only [call, hmiss] at hcall
  have hb := runBody_good (call_good E pure n) (defs g ctx args) st (pure.body g ctx args hok hpl) hst
  cases e : runBody (call E defs n) (defs g ctx args) st with
  | ub => rw [e] at hcall; cases hcall
  | out => rw [e] at hcall; cases hcall
  | val p =>
    obtain ⟨r1, st1⟩ := p
    rw [e] at hcall hb
    have hret : Returns store defs g ctx args r1 := by
      obtain ⟨m, e'⟩ := hb.1
      exact ⟨m + 1, e'⟩
    obtain ⟨T, h, hT, okT, _, hh, hg⟩ := insert_ok E (hb.2 g) (ctx := ctx) (args := args) (r := r1) ⟨hok, hpl, hret⟩
    simp only [hT, Res.val.injEq, Prod.mk.injEq] at hcall
    obtain ⟨rfl, rfl⟩ := hcall
    simp only [call, if_true, find_hit E okT st1.store m hpl hh hg hsame]

/-! #### A case that meets the hypotheses -/

/-- Simple hash functions; the conversion to `unint` is right for the doubles 39.0, 0.0 and -0.0. -/
def env : HashEnv := ⟨fun z n => z.toNat % n, fun s n => s.length % n, fun s => s.length,
  fun b => if b = 0x4043800000000000#64 then 39 else 0, fun _ o n => o % n, id⟩

def num (a : Nat) (z : Int) : V := .leaf a (.int z)

/-- `cletrec fib n = n < 2 => n | fib (n-1) + fib (n-2)`. -/
def fibBody (ctx : Nat) : V → Body Int
  | .leaf _ (.int z) =>
    if z < 2 then .ret z
    else .call 0 ctx [num 7 (z - 1)] fun a => .call 0 ctx [num 8 (z - 2)] fun b => .ret (a + b)
  | _ => .ret 0
def fib : Nat → Nat → List V → Body Int
  | _, ctx, [v] => fibBody ctx v
  | _, _, _ => .ret 0

def isNum (_ : Nat) (args : List V) : Prop := ∃ a z, args = [num a z]

theorem fib_erase : ∀ (g ctx : Nat) (as bs : List V), SameArgs as bs → fib g ctx as = fib g ctx bs
  | g, ctx, [], [], _ => rfl
  | g, ctx, [], _ :: _, h => by simp [SameArgs] at h
  | g, ctx, [a], [], h => by simp [SameArgs] at h
  | g, ctx, [a], [b], h => by
    have h : erase a = erase b := by simpa [SameArgs] using h
    show fibBody ctx a = fibBody ctx b
    cases a <;> cases b <;> simp [erase] at h
    · rfl
    · subst h; rename_i l _; cases l <;> rfl
    · rfl
    · rfl
  | g, ctx, [a], b :: b' :: bs, h => by simp [SameArgs] at h
  | g, ctx, a :: a' :: as, [], h => by simp [SameArgs] at h
  | g, ctx, a :: a' :: as, [b], h => by simp [SameArgs] at h
  | g, ctx, a :: a' :: as, b :: b' :: bs, h => rfl

theorem fib_pure : Pure isNum (fun _ => .null) fib where
  body := by
    rintro g ctx _ ⟨a, z, rfl⟩ _
    show Body.Pure isNum (fibBody ctx (num a z))
    unfold fibBody num
    simp only
    split
    · trivial
    · refine ⟨⟨⟨7, _, rfl⟩, by simp [num, V.Plain, Leaf.Plain]⟩, fun _ => ⟨⟨⟨8, _, rfl⟩, by simp [num, V.Plain, Leaf.Plain]⟩, fun _ => trivial⟩⟩
  same := by
    rintro g ctx as bs r h ⟨n, e⟩
    refine ⟨n, ?_⟩
    cases n with
    | zero => exact e
    | succ n =>
      simp only [plain] at e ⊢
      rw [← fib_erase g ctx as bs h]
      exact e
  alike := by
    rintro g _ _ ⟨a, z, rfl⟩ ⟨a', z', rfl⟩
    exact ⟨fun _ _ => rfl, trivial, trivial⟩

def fibSession : List Event :=
  [.call 0 one [num 1 10], .call 0 one [num 2 12], .collect (fun _ => false), .call 0 one [num 3 10]]

example : ∀ e ∈ fibSession, e.Pure isNum := by
  intro e he
  simp only [fibSession, List.mem_cons, List.not_mem_nil, or_false] at he
  rcases he with rfl | rfl | rfl | rfl
  · exact ⟨⟨1, 10, rfl⟩, by simp [num, V.Plain, Leaf.Plain]⟩
  · exact ⟨⟨2, 12, rfl⟩, by simp [num, V.Plain, Leaf.Plain]⟩
  · trivial
  · exact ⟨⟨3, 10, rfl⟩, by simp [num, V.Plain, Leaf.Plain]⟩

/-- The results of a session, if it ends. -/
def results {R : Type} : Res (List R × St R) → Option (List R)
  | .val (rs, _) => some rs
  | _ => none

/-- Did something undefined happen? -/
def undef {R : Type} : Res (List R × St R) → Bool
  | .ub => true
  | _ => false

example : results (session env fib 14 fibSession (start fun _ => .null)) = some [55, 144, 55] := by decide +kernel

/-- The first call of `c40_hit` is not in the cache. -/
example : find env (fun _ => .null) 13 ((start fun _ => .null : St Int).caches 0) (key one [num 1 10]) = some none := rfl
example : results (match call env fib 14 0 one [num 1 10] (start fun _ => .null) with
    | .val (r, st) => .val ([r], st) | .ub => .ub | .out => .out) = some [55] := by decide +kernel

/-! #### Where the full property fails -/

/-- `clet get r = deref r`. -/
def get : Nat → Nat → List V → Body Int
  | _, _, [.leaf _ (.ref c)] => .deref c fun v => match v with
    | .leaf _ (.int z) => .ret z
    | _ => .ret 0
  | _, _, _ => .ret 0

def cell (a c : Nat) : V := .leaf a (.ref c)

/-- Reference cells are compared by what they hold now, and the entry was made for what they held then:
`get r0` is called while `r0` holds 1, then `r0` is set to 2; now `get r1`, for another cell that holds 2,
is answered by 1. -/
theorem c40_cells :
    results (session env get 9 [.assign 0 (num 1 1), .call 0 one [cell 10 0], .assign 0 (num 2 2), .assign 1 (num 3 2),
      .call 0 one [cell 11 1]] (start fun _ => .null)) = some [1, 1]
    ∧ plain (fun i => if i = 0 then num 2 2 else num 3 2) get 1 0 one [cell 11 1] = some 2 := by decide +kernel

/-- `clet sign x = 1.0/x < 0.0`. -/
def sign : Nat → Nat → List V → Body Bool
  | _, _, [.leaf _ (.flt b)] => .ret b.msb
  | _, _, _ => .ret false

/-- Zero and minus zero are equal arguments with equal hash values: the second is answered by the result of
the first. -/
theorem c40_minus_zero :
    results (session env sign 9 [.call 0 one [.leaf 1 (.flt 0)],
      .call 0 one [.leaf 2 (.flt 0x8000000000000000#64)]] (start fun _ => .null)) = some [false, false]
    ∧ plain (fun _ => .null) sign 1 0 one [.leaf 2 (.flt 0x8000000000000000#64)] = some true := by decide +kernel

/-- `clet len v = length (bv2list v)`. -/
def len : Nat → Nat → List V → Body Nat
  | _, _, [.leaf _ (.bv l)] => .ret l.length
  | _, _, _ => .ret 0

/-- Vectors that differ in sign bits only are equal arguments.  Most often their hash values differ; for the
vectors `<v>` and `<v,v>`, where the formula `v` is BDD number 215, they agree, and the second call is
answered by the result of the first. -/
theorem c40_vector_length :
    results (session env len 9 [.call 0 one [.leaf 1 (.bv [215])], .call 0 one [.leaf 2 (.bv [215, 215])]]
      (start fun _ => .null)) = some [1, 1]
    ∧ plain (fun _ => .null) len 1 0 one [.leaf 2 (.bv [215, 215])] = some 2 := by decide +kernel

/-- A polymorphic function that is called with objects of two classes (here a vector and a number whose hash
values agree) has the objects of the one class compared by the function of the other. -/
theorem c40_classes :
    undef (session env (fun _ _ _ => .ret 0 : Nat → Nat → List V → Body Nat) 9
      [.call 0 one [.leaf 1 (.bv [0])], .call 0 one [.leaf 2 (.flt 0x4043800000000000#64)]] (start fun _ => .null)) = true := by decide +kernel

end Voss.Cache
