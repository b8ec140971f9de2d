import Verif.Fl.PatLemmas
import Verif.Fl.Engeler
/-
The fl compiler: C39 (optimiser), C52 (combinator code), C53 (pattern matching).
The theorems hold in every algebra that satisfies the laws of the combinators (`Alg`) and, for pattern
matching, of the primitives (`Data`).  `Engeler.alg` is a non-trivial one.
-/
namespace Voss.Fl
variable {D : Type} (A : Alg D)

/-! ### C39: the optimiser preserves meaning -/

/-- C39 (partial: no identifier of the program looks like `_ZZ'3`).  Renaming apart and removing aliases
do not change the values of a term, in no environment and for no arguments. -/
theorem c39_optimise_partial (t : Term) (h : t.NoZZ) (ρ : Env D) (as : List D) (d : D) :
    Val A (optimise t) ρ as d ↔ Val A t.plain ρ as d := optimise_val A t h ρ as d

/-- `\x. (\y. y) x` and a renaming are covered. -/
example : (Term.lam "x".toList (.app (.lam "y".toList (.app (.var "y".toList) (.var "g".toList))) (.var "x".toList))).NoZZ ∧
    optimise (.lam "x".toList (.app (.lam "y".toList (.app (.var "y".toList) (.var "g".toList))) (.var "x".toList))) =
      .lam "_ZZ'0".toList (.app (.var "_ZZ'0".toList) (.var "g".toList)) := by
  refine ⟨?_, by decide +kernel⟩
  intro x hx j hj
  subst hj
  have h1 : zzName j ∈ [['x'], ['y'], ['y'], ['g'], ['x']] := hx
  have h2 : (zzName j).head? = some '_' := rfl
  simp at h1
  rcases h1 with h1 | h1 | h1 | h1 <;> rw [h1] at h2 <;> simp at h2

/-- C39 is violated: `_ZZ'0` is a legal identifier.  With `let _ZZ'0 = 7`, the function `\x. _ZZ'0` becomes
the identity. -/
theorem c39_capture_global : ¬ ∀ (t : Term) (ρ : Env Engeler.D) (as : List Engeler.D) (d : Engeler.D),
    Val Engeler.alg (optimise t) ρ as d ↔ Val Engeler.alg t.plain ρ as d := by
  intro h
  have ho : optimise (.lam "x".toList (.var (zzName 0))) = .lam (zzName 0) (.var (zzName 0)) := by decide +kernel
  have h1 := (h (.lam "x".toList (.var (zzName 0))) (fun _ => Engeler.alg.con (.int 7)) [Engeler.alg.con (.int 1)]
    (Engeler.alg.con (.int 7))).mpr rfl
  rw [ho] at h1
  have h2 : Engeler.alg.con (.int 7) = (Env.set (fun _ => Engeler.alg.con (.int 7)) (zzName 0)
    (Engeler.alg.con (.int 1))) (zzName 0) := h1
  rw [Env.set_same] at h2
  exact absurd (Engeler.int_inj h2) (by decide)

/-- C39 is violated for bound variables as well: `\_ZZ'1. \y. _ZZ'1` becomes a function that gives its second
argument. -/
theorem c39_capture_bound : ¬ ∀ (t : Term) (ρ : Env Engeler.D) (as : List Engeler.D) (d : Engeler.D),
    (∀ x, isFree x t = false) → (Val Engeler.alg (optimise t) ρ as d ↔ Val Engeler.alg t.plain ρ as d) := by
  intro h
  have ho : optimise (.lam (zzName 1) (.lam "y".toList (.var (zzName 1)))) =
    .lam (zzName 0) (.lam (zzName 1) (.var (zzName 1))) := by decide +kernel
  have hf : ∀ x, isFree x (.lam (zzName 1) (.lam "y".toList (.var (zzName 1)))) = false := by
    intro x
    simp only [isFree]
    split
    · rfl
    · rename_i hx
      split
      · rfl
      · simpa using hx
  have h1 := (h (.lam (zzName 1) (.lam "y".toList (.var (zzName 1)))) (fun _ => Engeler.alg.con (.int 7))
    [Engeler.alg.con (.int 1), Engeler.alg.con (.int 2)] (Engeler.alg.con (.int 1)) hf).mpr (by
      show _ = _
      rw [Env.set_other _ _ (by decide +kernel), Env.set_same]; rfl)
  rw [ho] at h1
  have h2 : Engeler.alg.con (.int 1) = ((Env.set (fun _ => Engeler.alg.con (.int 7)) (zzName 0)
    (Engeler.alg.con (.int 1))).set (zzName 1) (Engeler.alg.con (.int 2))) (zzName 1) := h1
  rw [Env.set_same] at h2
  exact absurd (Engeler.int_inj h2) (by decide)

/-! ### C52: combinator code -/

/-- C52: the code of small terms has a value of the term: in every environment, for every number of
arguments. -/
theorem c52_small (t : Term) (ρ : Env D) (as : List D) : Val A t ρ as (A.apps ((compileSmall t).ev A ρ) as) := by
  have := val_more A t ρ [] as _ (compileSmall_val A t ρ)
  simpa using this

/-- C52: so has the code of large terms, which a different algorithm makes. -/
theorem c52_large (t : Term) (ρ : Env D) (as : List D) :
    Val A t ρ as (A.apps ((compileBig t []).1.ev A ρ) as) := by
  have := val_more A t ρ [] as _ (compileBig_val A t ρ)
  simpa using this

/-- C52: the code refers to exactly the free variables of the term. -/
theorem c52_free (t : Term) (x : Name) : x ∈ (compileSmall t).fv ↔ isFree x t = true := compileSmall_fv t x

/-- C52 (with C39's restriction on names): the whole compiler. -/
theorem c52_compile_partial (t : Term) (h : t.NoZZ) (ρ : Env D) (as : List D) :
    Val A t.plain ρ as (A.apps ((compileTerm t).ev A ρ) as) := by
  have := val_more A t.plain ρ [] as _ (compileTerm_val A t h ρ)
  simpa using this

/-- `\x. \y. x` applied to 1 and 2 is 1 and nothing else. -/
example (ρ : Env Engeler.D) : Val Engeler.alg (.lam "x".toList (.lam "y".toList (.var "x".toList))) ρ
    [Engeler.alg.con (.int 1), Engeler.alg.con (.int 2)] = fun d => d = Engeler.alg.con (.int 1) := rfl

example : compileSmall (.lam "x".toList (.lam "y".toList (.app (.var "x".toList) (.var "y".toList)))) = .con .I := by
  decide +kernel

example : (compileBig (.lam "x".toList (.lam "y".toList (.var "x".toList))) []).1 =
    .app (.app (.con .B) (.con .K)) (.con .I) := by decide +kernel

/-! ### C53: definitions by pattern matching -/

/-- C53 (partial: no made-up names in the program).  A function defined by clauses, applied to as many
arguments as the clauses have patterns, has a value of the body of the first clause that applies, with the
variables of its patterns bound to the parts of the arguments. -/
theorem c53_select_partial (dat : Data A) (f : Name) (cs : List Clause) (ρ : Env D) (hc : ∀ c ∈ cs, c.OK A ρ)
    (ds : List D) (c : Clause) (s : List (Name × D)) (hs : Selects A ρ ds cs (some (c, s)))
    (hp : ∀ v, Val A c.body (ρ.sets s) [] v → dat.proper v) (n : Nat) (r : D)
    (h : Val A (decl f cs ds.length false n).1 ρ ds r) : Val A c.body (ρ.sets s) [] r := by
  obtain ⟨ρ', h1, h2, _, h4⟩ := addArgs_val _ ds ρ r h
  exact fnDefs_take dat hc h1 h2 hs c s rfl hp n r h4

/-- C53 (partial: as above): if no clause applies, the result is the error. -/
theorem c53_error_partial (dat : Data A) (f : Name) (cs : List Clause) (hne : cs ≠ []) (ρ : Env D)
    (hc : ∀ c ∈ cs, c.OK A ρ) (ds : List D) (hs : Selects A ρ ds cs none) (n : Nat) (r : D)
    (h : Val A (decl f cs ds.length false n).1 ρ ds r) :
    r = A.app (A.con .error) (A.con (.str ("No pattern matched for ".toList ++ f ++ ['\n']))) := by
  obtain ⟨ρ', h1, h2, _, h4⟩ := addArgs_val _ ds ρ r h
  exact fnDefs_none dat hc h1 h2 hs rfl hne n r h4

/-- C53 (partial: as above): recursive definitions.  The clauses are read with the function itself for
its name. -/
theorem c53_recursive_partial (dat : Data A) (f : Name) (cs : List Clause) (arity : Nat) (ρ : Env D) (n : Nat) (r : D)
    (h : Val A (decl f cs arity true n).1 ρ [] r) (hc : ∀ c ∈ cs, c.OK A (ρ.set f r))
    (ds : List D) (hl : ds.length = arity) (c : Clause) (s : List (Name × D))
    (hs : Selects A (ρ.set f r) ds cs (some (c, s)))
    (hp : ∀ v, Val A c.body ((ρ.set f r).sets s) [] v → dat.proper v) :
    Val A c.body ((ρ.set f r).sets s) [] (A.apps r ds) := by
  subst hl
  have h1 := val_more A _ _ [] ds _ (rec_val h)
  obtain ⟨ρ', h1, h2, _, h4⟩ := addArgs_val _ ds _ _ h1
  exact fnDefs_take dat hc h1 h2 hs c s rfl hp n _ h4

/-- C53: a constructor function makes the value that the pattern of the constructor takes apart. -/
theorem c53_constructor (dat : Data A) (c : Name) (ds : List D) (ρ : Env D) (r : D)
    (h : Val A (constructor c ds.length) ρ ds r) : r = ds.foldl A.pair (A.con (.str (cname c))) := by
  obtain ⟨ρ', _, h2, _, h4⟩ := addArgs_val _ ds ρ r h
  exact constrRec_val dat c ρ' ds [] (by simpa using h2) r (by simpa using h4)

/-- C53 (partial: as above, and C39's names): the whole compiler, for a definition that is not recursive. -/
theorem c53_compiled_partial (dat : Data A) (f : Name) (cs : List Clause) (ρ : Env D) (hc : ∀ c ∈ cs, c.OK A ρ)
    (ds : List D) (n : Nat) (hz : (decl f cs ds.length false n).1.NoZZ)
    (hpl : (decl f cs ds.length false n).1.plain = (decl f cs ds.length false n).1) (c : Clause)
    (s : List (Name × D)) (hs : Selects A ρ ds cs (some (c, s)))
    (hp : ∀ v, Val A c.body (ρ.sets s) [] v → dat.proper v) :
    Val A c.body (ρ.sets s) [] (A.apps ((compileTerm (decl f cs ds.length false n).1).ev A ρ) ds) := by
  have h := c52_compile_partial A _ hz ρ ds
  rw [hpl] at h
  exact c53_select_partial A dat f cs ρ hc ds c s hs hp n _ h

/-- `hd` on lists, with 0 for the empty list: `let f [] = 0 /\ f (x:xs) = x`. -/
def hdClauses : List Clause :=
  [⟨[.nil], none, .con (.int 0)⟩, ⟨[.cons (.var ['x']) (.var "xs".toList)], none, .var ['x']⟩]

/-- The hypotheses are met. -/
example (ρ : Env Engeler.D) (u v : Engeler.D) : (∀ c ∈ hdClauses, c.OK Engeler.alg ρ) ∧
    Selects Engeler.alg ρ [Engeler.alg.pair u v] hdClauses
      (some (⟨[.cons (.var ['x']) (.var "xs".toList)], none, .var ['x']⟩, [(['x'], u), ("xs".toList, v)])) := by
  constructor
  · intro c hc
    have hm : ∀ (x : Name), x.head? = some 'x' → ¬ Made x := by
      rintro x hx (⟨k, rfl⟩ | ⟨k, rfl⟩ | ⟨k, rfl⟩)
      · exact absurd (show some '_' = some 'x' from hx) (by decide)
      · exact absurd (show some 'A' = some 'x' from hx) (by decide)
      · exact absurd (show some '_' = some 'x' from hx) (by decide)
    rcases List.mem_cons.mp hc with rfl | hc
    · refine ⟨?_, ⟨fun x hx => by simp [isFree] at hx, by simp⟩, ?_⟩
      · intro p hp
        simp at hp; subst hp
        exact ⟨rfl, fun x hx => by simp [Pat.vars] at hx⟩
      · intro p hp k hk
        simp at hp; subst hp
        simp [Pat.constrs] at hk
    · simp at hc
      subst hc
      refine ⟨?_, ⟨?_, by simp⟩, ?_⟩
      · intro p hp
        simp at hp; subst hp
        refine ⟨rfl, fun x hx => hm x ?_⟩
        simp [Pat.vars] at hx
        rcases hx with rfl | rfl <;> rfl
      · intro x hx k hk
        subst hk
        have : argName k = ['x'] := by simpa [isFree] using hx
        exact absurd (show some 'A' = some 'x' from congrArg List.head? this) (by decide)
      · intro p hp k hk
        simp at hp; subst hp
        simp [Pat.constrs] at hk
  · exact .skip (.inl (.head (.nil u v) rfl))
      (.take ⟨MatchAll.cons (s := [(['x'], u)] ++ [("xs".toList, v)]) (.cons (.var _ u) (.var _ v)) .nil,
        fun g hg => by cases hg⟩)

/-- C53 is violated: the arguments of every function are called `Arg1`, `Arg2`, ..., which are legal
identifiers.  With `let Arg1 = 7`, the function defined by `let f x = Arg1` is the identity. -/
theorem c53_capture_global : ¬ ∀ (f x : Name) (e : Term) (ρ : Env Engeler.D) (d r : Engeler.D) (n : Nat),
    Val Engeler.alg (decl f [⟨[.var x], none, e⟩] 1 false n).1 ρ [d] r → Val Engeler.alg e (ρ.set x d) [] r := by
  intro h
  have h1 := h ['f'] ['x'] (.var (argName 1)) (fun _ => Engeler.alg.con (.int 7)) (Engeler.alg.con (.int 1))
    (Engeler.alg.con (.int 1)) 0 (by
      have hd : (decl ['f'] [⟨[.var ['x']], none, .var (argName 1)⟩] 1 false 0).1 =
        .lam (argName 1) (.app (.lam ['x'] (.var (argName 1))) (.var (argName 1))) := by decide +kernel
      rw [hd]
      refine ⟨_, rfl, ?_⟩
      show _ = _
      rw [Env.set_other _ _ (by decide +kernel), Env.set_same]; rfl)
  have h2 : Engeler.alg.con (.int 1) = (Env.set (fun _ => Engeler.alg.con (.int 7)) ['x']
    (Engeler.alg.con (.int 1))) (argName 1) := h1
  rw [Env.set_other _ _ (by decide +kernel)] at h2
  exact absurd (Engeler.int_inj h2) (by decide)

/-- C53 is violated: `let f Arg1 y = y` gives its first argument. -/
theorem c53_capture_parameter : ¬ ∀ (f x y : Name) (e : Term) (ρ : Env Engeler.D) (d1 d2 r : Engeler.D) (n : Nat),
    x ≠ y → (∀ z, isFree z e = true → z = x ∨ z = y) →
    Val Engeler.alg (decl f [⟨[.var x, .var y], none, e⟩] 2 false n).1 ρ [d1, d2] r →
    Val Engeler.alg e ((ρ.set x d1).set y d2) [] r := by
  intro h
  have h1 := h ['f'] (argName 1) ['y'] (.var ['y']) (fun _ => Engeler.alg.con (.int 7)) (Engeler.alg.con (.int 1))
    (Engeler.alg.con (.int 2)) (Engeler.alg.con (.int 1)) 0 (by decide +kernel)
    (fun z hz => .inr (by simpa [isFree] using hz)) (by
      have hd : (decl ['f'] [⟨[.var (argName 1), .var ['y']], none, .var ['y']⟩] 2 false 0).1 =
        .lam (argName 2) (.lam (argName 1) (.app (.lam (argName 1) (.app (.lam ['y'] (.var ['y'])) (.var (argName 1))))
          (.var (argName 2)))) := by decide +kernel
      rw [hd]
      refine ⟨_, rfl, _, rfl, ?_⟩
      show _ = _
      rw [show ∀ (ρ : Env Engeler.D) d, Alg.apps Engeler.alg ((ρ.set ['y'] d) ['y']) [] = d from
        fun ρ d => Env.set_same ρ ['y'] d]
      show _ = Env.set _ (argName 1) _ (argName 1)
      rw [Env.set_same]
      show _ = Env.set _ (argName 1) _ (argName 2)
      rw [Env.set_other _ _ (by decide +kernel), Env.set_same])
  have h2 : Engeler.alg.con (.int 1) = (Env.set (Env.set (fun _ => Engeler.alg.con (.int 7)) (argName 1)
    (Engeler.alg.con (.int 1))) ['y'] (Engeler.alg.con (.int 2))) ['y'] := h1
  rw [Env.set_same] at h2
  exact absurd (Engeler.int_inj h2) (by decide)

/-- C53 is violated: the parts of an argument are taken from a variable called `_q_0`, `_q_1`, ..., which is a
legal identifier.  Whatever the counter is, there is a pattern whose variable captures it: `_q_n : y` binds `y` to
the tail of the head. -/
theorem c53_capture_pattern (n : Nat) : ¬ ∀ (p : Pat) (e : Term) (ρ : Env Engeler.D) (d r : Engeler.D)
    (s : List (Name × Engeler.D)), p.wf = true → Match Engeler.alg p d s →
    Val Engeler.alg (trarg p e false n).1 ρ [d] r → Val Engeler.alg e (ρ.sets s) [] r := by
  intro h
  let A := Engeler.alg
  let d : Engeler.D := A.pair (A.pair (A.con (.int 1)) (A.con (.int 2))) (A.con (.int 3))
  have hq : qName n ≠ ['y'] := by
    intro he
    exact absurd (show some '_' = some 'y' from congrArg List.head? he) (by decide)
  have hk : findNew (.var ['y']) n = n := by
    show (if isFree (qName n) (.var ['y']) then findNewF 0 (.var ['y']) (n + 1) else n) = n
    rw [if_neg (by simpa [isFree] using hq)]
  have ht : (trarg (.cons (.var (qName n)) (.var ['y'])) (.var ['y']) false n).1 =
      .lam (qName n) (condPF (prim1 .isCons (.var (qName n)))
        (.app (.lam (qName n) (.app (.lam ['y'] (.var ['y'])) (prim1 .tail (.var (qName n)))))
          (prim1 .head (.var (qName n))))) := by
    simp only [trarg, hk]
  let ρ : Env Engeler.D := fun _ => A.con (.int 7)
  have hv := c52_small A (trarg (.cons (.var (qName n)) (.var ['y'])) (.var ['y']) false n).1 ρ [d]
  generalize A.apps ((compileSmall (trarg (.cons (.var (qName n)) (.var ['y'])) (.var ['y']) false n).1).ev A ρ) [d]
    = r at hv
  have h1 := h (.cons (.var (qName n)) (.var ['y'])) (.var ['y']) ρ d r _ rfl (.cons (.var _ _) (.var _ _)) hv
  have h2 : r = A.con (.int 3) := by
    have : r = (Env.sets ρ ([(qName n, A.pair (A.con (.int 1)) (A.con (.int 2)))] ++ [(['y'], A.con (.int 3))])) ['y'] := h1
    rw [this]
    exact Env.set_same (ρ.set (qName n) (A.pair (A.con (.int 1)) (A.con (.int 2)))) ['y'] (A.con (.int 3))
  rw [ht] at hv
  have h3 := val_condPF Engeler.data (b := true) (ρ := ρ.set (qName n) d) (as := []) (r := r) (by
    rintro v ⟨w, hw, rfl⟩
    rw [val_q hw]
    exact Engeler.data.isCons_cons _ _) hv
  obtain ⟨v, ⟨w, hw, hv1⟩, x, ⟨z, hz, hx⟩, h4⟩ := h3
  have hv2 : v = A.app (A.con .head) w := hv1
  rw [val_q hw] at hv2
  have hv3 : v = A.pair (A.con (.int 1)) (A.con (.int 2)) := hv2.trans (Engeler.data.head_cons _ _)
  have hx2 : x = A.app (A.con .tail) z := hx
  rw [val_q hz, hv3] at hx2
  have hx3 : x = A.con (.int 2) := hx2.trans (Engeler.data.tail_cons _ _)
  have h5 : r = x := by
    have : r = (Env.set _ ['y'] x) ['y'] := h4
    rwa [Env.set_same] at this
  rw [h2, hx3] at h5
  exact absurd (Engeler.int_inj h5) (by decide)

end Voss.Fl
