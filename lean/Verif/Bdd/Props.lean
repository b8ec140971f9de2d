import Verif.Bdd.HistLemmas
import Verif.Bdd.BinderLemmas
/-
Property theorems C14-C23 and C42-C44: the BDD package.

`run (init lg) [] p` is what the modelled code does for the command list `p`, starting from a fresh
package with `2^lg` node slots; `meanings [] p` are the Boolean functions of named variables the user
means by the commands (both in `History.lean`).  `NDen s f G` says that in state `s` handle `f` is a
live BDD whose evaluation gives the function `G` (`Spec.lean`).
-/
namespace Voss.Bdd

/-- The state `s` and the handles `pool` were produced by some history of commands. -/
def Reached (s : S) (pool : List F) : Prop := ∃ lg p, Ok p ∧ run (init lg) [] p = some (s, pool)

/-- As `Reached`, for histories without variable names like `x_n_n`. -/
def ReachedN (s : S) (pool : List F) : Prop :=
  ∃ lg p, (∀ c ∈ p, Cmd.NamesOK c) ∧ run (init lg) [] p = some (s, pool)

theorem Reached.inv {s : S} {pool : List F} (h : Reached s pool) : Inv s := by
  obtain ⟨lg, p, hp, e⟩ := h
  obtain ⟨s', pool', e', I, _⟩ := hist_spec lg p hp
  rw [e] at e'
  cases e'
  exact I

theorem ReachedN.reached {s : S} {pool : List F} (h : ReachedN s pool) : Reached s pool := by
  obtain ⟨lg, p, hp, e⟩ := h
  exact ⟨lg, p, Or.inr hp, e⟩

theorem ReachedN.pairs {s : S} {pool : List F} (h : ReachedN s pool) : PairedN s := by
  obtain ⟨lg, p, hp, e⟩ := h
  obtain ⟨s', pool', e', _, _, P⟩ := hist_spec lg p (Or.inr hp)
  rw [e] at e'
  cases e'
  exact P hp

/-- A small history used by the examples: `a AND b`, `a OR b`, a garbage collection that forgets
`a OR b`, a reordering with sifting, and a requested order. -/
def sampleCfg : Cfg := ⟨fun _ _ _ => true, fun _ _ => false, fun _ => false, 1, 0⟩
def sample : List Cmd :=
  [.var "a", .var "b", .bin .and 0 1, .bin .or 0 1, .pick [0, 1, 2], .gc, .sift sampleCfg,
   .varOrder ["b", "a"], .bin .xor 0 2]

theorem sample_ok : ∀ c ∈ sample, Cmd.NamesOK c := by
  have h : NameOK "a" ∧ NameOK "b" ∧ ¬ EndsN "a" ∧ ¬ EndsN "b" := by decide +kernel
  intro c hc
  simp only [sample, List.mem_cons, List.not_mem_nil, or_false] at hc
  rcases hc with rfl | rfl | rfl | rfl | rfl | rfl | rfl | rfl | rfl <;> simp [Cmd.NamesOK, h]

/-- The code really runs through the sample history. -/
theorem sample_runs : (run (init 4) [] sample).map Prod.snd =
    some [⟨true, 1⟩, ⟨true, 3⟩, ⟨true, 5⟩, ⟨false, 6⟩] := by decide +kernel

/-! ### C14 canonicity -/

/-- C14.  After any history of BDD operations the code has not run into undefined behaviour, every
handle evaluates to the function the user means, and two handles are equal exactly when these
functions are equal. -/
theorem c14_canonical (lg : Nat) (p : List Cmd) (hp : Ok p) :
    ∃ s pool, run (init lg) [] p = some (s, pool) ∧
      List.Forall₂ (NDen s) pool (meanings [] p) ∧
      ∀ (i j : Nat) (f g : F) (G H : NEnv → Bool), pool[i]? = some f → pool[j]? = some g →
        (meanings [] p)[i]? = some G → (meanings [] p)[j]? = some H → (bEqual f g = true ↔ G = H) := by
  obtain ⟨s, pool, e, I, hF, _⟩ := hist_spec lg p hp
  refine ⟨s, pool, e, hF, ?_⟩
  intro i j f g G H hi hj hGi hHj
  have at' : ∀ (i : Nat) (f : F) (G : NEnv → Bool), pool[i]? = some f → (meanings [] p)[i]? = some G → NDen s f G := by
    intro i f G h1 h2
    rcases forall₂_at hF i with ⟨a, _⟩ | ⟨x, y, a, b, r⟩
    · rw [h1] at a; exact absurd a (by simp)
    · rw [h1] at a; rw [h2] at b; cases a; cases b; exact r
  have df := at' i f G hi hGi
  have dg := at' j g H hj hHj
  simp only [bEqual, beq_iff_eq]
  constructor
  · rintro rfl; exact nden_det df dg
  · rintro rfl; exact nden_inj I df dg

example : Ok sample := Or.inr sample_ok
/-- `(a AND b) XOR a` and `a AND NOT b` get the same handle. -/
example : (run (init 2) [] [.var "a", .var "b", .bin .and 0 1, .bin .xor 2 0, .not 1, .bin .and 0 4]).map
    (fun r => decide (r.2[3]? = r.2[5]?)) = some true := by decide +kernel

/-! ### C15 connectives -/

/-- C15.  In every reachable state (whatever is in the unique tables and the result cache) the
connectives denote the pointwise connectives and leave the meaning of every BDD alone. -/
theorem c15_connectives {s : S} {pool : List F} (hs : Reached s pool) {f g h : F} {G H K : NEnv → Bool}
    (hf : NDen s f G) (hg : NDen s g H) (hh : NDen s h K) :
    NDen s (bNot f) (fun η => !(G η)) ∧
    (∀ op : BinOp, ∃ r s', op.run s f g = some (r, s') ∧ NDen s' r (fun η => op.sem (G η) (H η)) ∧
      ∀ f0 G0, NDen s f0 G0 → NDen s' f0 G0) ∧
    (∃ r s', bIte s f g h = some (r, s') ∧ NDen s' r (fun η => if G η then H η else K η) ∧
      ∀ f0 G0, NDen s f0 G0 → NDen s' f0 G0) := by
  have I := hs.inv
  refine ⟨hf.not, fun op => ?_, ?_⟩
  · obtain ⟨r, s', e, _, E, d⟩ := bin_spec op I hf hg
    exact ⟨r, s', e, d, fun f0 G0 h0 => h0.good I E⟩
  · obtain ⟨r, s', e, _, E, d⟩ := nIte_spec I hf hg hh
    exact ⟨r, s', e, d, fun f0 G0 h0 => h0.good I E⟩

/-- The lazy connectives of the language (`F_and`, `F_or`) agree with the strict ones. -/
theorem c15_lazy {s : S} {pool : List F} (hs : Reached s pool) {f g : F} {G H : NEnv → Bool}
    (hf : NDen s f G) (hg : NDen s g H) :
    (∃ r s', fAnd s f g = some (r, s') ∧ NDen s' r (fun η => G η && H η) ∧ ∀ f0 G0, NDen s f0 G0 → NDen s' f0 G0) ∧
    (∃ r s', fOr s f g = some (r, s') ∧ NDen s' r (fun η => G η || H η) ∧ ∀ f0 G0, NDen s f0 G0 → NDen s' f0 G0) := by
  have I := hs.inv
  have z : ∀ {G : NEnv → Bool}, NDen s ZERO G → G = fun _ => false := fun h => nden_det h (nden_zero s)
  have o : ∀ {G : NEnv → Bool}, NDen s ONE G → G = fun _ => true := fun h => nden_det h (nden_zero s).not
  constructor
  · unfold fAnd
    split
    · next h =>
      refine ⟨_, _, rfl, ?_, fun _ _ h => h⟩
      have : (fun η => G η && H η) = fun _ => false := by
        rcases h with rfl | rfl
        · rw [z hf]; simp
        · rw [z hg]; simp
      rw [this]; exact nden_zero s
    · split
      · next h =>
        subst h
        refine ⟨_, _, rfl, ?_, fun _ _ h => h⟩
        rw [o hf]; simpa using hg
      · split
        · next h =>
          subst h
          refine ⟨_, _, rfl, ?_, fun _ _ h => h⟩
          rw [o hg]; simpa using hf
        · obtain ⟨r, s', e, _, E, d⟩ := bin_spec .and I hf hg
          exact ⟨r, s', e, d, fun f0 G0 h0 => h0.good I E⟩
  · unfold fOr
    split
    · next h =>
      refine ⟨_, _, rfl, ?_, fun _ _ h => h⟩
      have : (fun η => G η || H η) = fun _ => true := by
        rcases h with rfl | rfl
        · rw [o hf]; simp
        · rw [o hg]; simp
      rw [this]; exact (nden_zero s).not
    · split
      · next h =>
        subst h
        refine ⟨_, _, rfl, ?_, fun _ _ h => h⟩
        rw [z hf]; simpa using hg
      · split
        · next h =>
          subst h
          refine ⟨_, _, rfl, ?_, fun _ _ h => h⟩
          rw [z hg]; simpa using hf
        · obtain ⟨r, s', e, _, E, d⟩ := bin_spec .or I hf hg
          exact ⟨r, s', e, d, fun f0 G0 h0 => h0.good I E⟩

/-- A reached state with three handles that denote something. -/
theorem sample_reached : ∃ s pool f g h G H K, Reached s pool ∧ NDen s f G ∧ NDen s g H ∧ NDen s h K ∧
    f ∈ pool ∧ g ∈ pool ∧ h ∈ pool ∧ f ≠ g ∧ g ≠ h := by
  obtain ⟨s, pool, e, I, hF, _⟩ := hist_spec 4 sample (Or.inr sample_ok)
  have hr := sample_runs
  rw [e] at hr
  simp only [Option.map_some, Option.some.injEq] at hr
  subst hr
  have key : ∀ (i : Nat) (f : F), ([⟨true, 1⟩, ⟨true, 3⟩, ⟨true, 5⟩, ⟨false, 6⟩] : List F)[i]? = some f → ∃ G, NDen s f G := by
    intro i f hi
    rcases forall₂_at hF i with ⟨a, _⟩ | ⟨x, y, a, _, r⟩
    · rw [hi] at a; exact absurd a (by simp)
    · rw [hi] at a; cases a; exact ⟨y, r⟩
  obtain ⟨G, hG⟩ := key 0 _ rfl
  obtain ⟨H, hH⟩ := key 1 _ rfl
  obtain ⟨K, hK⟩ := key 2 _ rfl
  exact ⟨s, _, _, _, _, G, H, K, ⟨4, sample, Or.inr sample_ok, e⟩, hG, hH, hK, by simp, by simp, by simp,
    by decide, by decide⟩

/-! ### C16 quantification -/

/-- C16.  `Quant_forall vars f` / `Quant_thereis vars f` hold at an assignment iff `f` holds for all /
some values of the listed variables, in every reachable state, and no BDD changes its meaning. -/
theorem c16_quantification {s : S} {pool : List F} (hs : Reached s pool) (univ : Bool) (names : List String)
    {f : F} {G : NEnv → Bool} (hf : NDen s f G) :
    ∃ r s' R, quantNames univ s names f = some (r, s') ∧ NDen s' r R ∧
      (∀ η : NEnv, R η = true ↔
        if univ then ∀ η' : NEnv, (∀ n, n ∉ names → η' n = η n) → G η' = true
        else ∃ η' : NEnv, (∀ n, n ∉ names → η' n = η n) ∧ G η' = true) ∧
      ∀ f0 G0, NDen s f0 G0 → NDen s' f0 G0 := by
  obtain ⟨r, s', e, _, K, d⟩ := quantNames_spec univ hs.inv names hf
  refine ⟨r, s', _, e, d, fun η => ?_, fun f0 G0 h0 => h0.keeps hs.inv K⟩
  unfold qNames
  cases univ <;> simp

/-- C16 for the primitive, which quantifies over the variables its first operand depends on. -/
theorem c16_primitive {s : S} {pool : List F} (hs : Reached s pool) (univ : Bool) {v f : F}
    {V G : NEnv → Bool} (hv : NDen s v V) (hf : NDen s f G) :
    ∃ r s' R, (if univ then quantForall s v f else quantThereis s v f) = some (r, s') ∧ NDen s' r R ∧
      (∀ η : NEnv, R η = true ↔
        if univ then ∀ η' : NEnv, (∀ n, ¬ NDependsOn V n → η' n = η n) → G η' = true
        else ∃ η' : NEnv, (∀ n, ¬ NDependsOn V n → η' n = η n) ∧ G η' = true) ∧
      ∀ f0 G0, NDen s f0 G0 → NDen s' f0 G0 := by
  obtain ⟨r, s', e, _, E, d⟩ := nQuant_spec univ hs.inv hv hf
  refine ⟨r, s', _, e, d, fun η => ?_, fun f0 G0 h0 => h0.good hs.inv E⟩
  unfold nQuant
  cases univ <;> simp

example : ∃ s pool f G, Reached s pool ∧ NDen s f G := by
  obtain ⟨s, pool, f, _, _, G, _, _, h, d, _⟩ := sample_reached
  exact ⟨s, pool, f, G, h, d⟩
/-- `∀a. a OR b` is `b` and `∃a. a AND b` is `b`. -/
example : (do
    let (s, p) ← run (init 3) [] [.var "a", .var "b", .bin .or 0 1, .bin .and 0 1]
    let (r, s) ← quantNames true s ["a"] (p.getD 2 ZERO)
    let (q, _) ← quantNames false s ["a"] (p.getD 3 ZERO)
    some (decide (r = p.getD 1 ZERO ∧ q = p.getD 1 ZERO))) = some true := by decide +kernel

/-! ### C17 relational product -/

/-- C17, full statement, for one quantifier: the relational product is the quantified conjunction in
every reachable state. -/
def RelProdSpec (op : S → F → F → F → Option (F × S)) (univ : Bool) : Prop :=
  ∀ (s : S) (pool : List F), Reached s pool → ∀ (v f g : F) (V G H : NEnv → Bool), NDen s v V → NDen s f G →
    NDen s g H → ∃ r s', op s v f g = some (r, s') ∧ NDen s' r (nQuant univ V (fun η => G η && H η)) ∧
      ∀ f0 G0, NDen s f0 G0 → NDen s' f0 G0

/-- `relprod_forall` of the pinned code violates C17: `relprod_forall x T x` is `T`, while `∀x. x` is
`F`. -/
theorem c17_forall_violated : ¬ RelProdSpec (relProdC false) true := by
  intro h
  have hp : ∀ c ∈ [Cmd.var "x"], Cmd.Plain c := by simp [Cmd.Plain]
  obtain ⟨s, pool, e, I, hF, _⟩ := hist_spec 3 [.var "x"] (Or.inl hp)
  have e2 : (do
    let (s, p) ← run (init 3) [] [.var "x"]
    let (r, _) ← relProdC false s (p.getD 0 ZERO) ONE (p.getD 0 ZERO)
    some (p.length, r)) = some (1, ONE) := by decide +kernel
  simp only [e, Option.bind_eq_bind, Option.bind_some] at e2
  obtain ⟨⟨r, s'⟩, er, e2⟩ := Option.bind_eq_some_iff.1 e2
  simp only [Option.some.injEq, Prod.mk.injEq] at e2
  obtain ⟨hlen, rfl⟩ := e2
  rcases forall₂_at hF 0 with ⟨a, _⟩ | ⟨x, X, a, b, d⟩
  · rw [List.getElem?_eq_none_iff] at a; omega
  have hx : pool.getD 0 ZERO = x := by simp [List.getD_eq_getElem?_getD, a]
  have hX : X = fun η => η "x" := by
    simp [meanings, meaning] at b; exact b.symm
  subst hX
  rw [hx] at er
  obtain ⟨r', s'', er', dr, _⟩ := h s pool ⟨3, _, Or.inl hp, e⟩ x ONE x _ _ _ d (nden_zero s).not d
  rw [er] at er'
  cases er'
  have := congrFun (nden_det dr (nden_zero _).not) (fun _ => true)
  simp only [nQuant, if_true, Bool.not_false, Bool.true_and, decide_eq_true_eq] at this
  have := this (fun n => if n = "x" then false else true) (by
    intro n hn
    by_cases hnx : n = "x"
    · exfalso; apply hn; rw [hnx]; exact ⟨fun _ => true, by simp [setN]⟩
    · simp [hnx])
  simp at this

/-- `relprod_thereis` of the pinned code violates C17 too: after `x AND y` has been computed,
`relprod_thereis y T x` is `x AND y` (found in the cache under the code of `AND`), while `∃y. x` is
`x`. -/
theorem c17_thereis_violated : ¬ RelProdSpec (relProdC true) false := by
  intro h
  have hp : ∀ c ∈ [Cmd.var "x", .var "y", .bin .and 0 1], Cmd.Plain c := by simp [Cmd.Plain]
  obtain ⟨s, pool, e, I, hF, _⟩ := hist_spec 3 _ (Or.inl hp)
  have e2 : (do
    let (s, p) ← run (init 3) [] [.var "x", .var "y", .bin .and 0 1]
    let (r, _) ← relProdC true s (p.getD 1 ZERO) ONE (p.getD 0 ZERO)
    some (p.length, decide (r = p.getD 2 ZERO))) = some (3, true) := by decide +kernel
  simp only [e, Option.bind_eq_bind, Option.bind_some] at e2
  obtain ⟨⟨r, s'⟩, er, e2⟩ := Option.bind_eq_some_iff.1 e2
  simp only [Option.some.injEq, Prod.mk.injEq, decide_eq_true_eq] at e2
  obtain ⟨hlen, hr⟩ := e2
  have get : ∀ (i : Nat) (G : NEnv → Bool), i < 3 → (meanings [] [Cmd.var "x", .var "y", .bin .and 0 1])[i]? = some G →
      NDen s (pool.getD i ZERO) G := by
    intro i G hi hG
    rcases forall₂_at hF i with ⟨a, _⟩ | ⟨x, X, a, b, d⟩
    · rw [List.getElem?_eq_none_iff] at a; omega
    · rw [hG] at b; cases b
      have : pool.getD i ZERO = x := by simp [List.getD_eq_getElem?_getD, a]
      rw [this]; exact d
  have dx := get 0 (fun η => η "x") (by omega) rfl
  have dy := get 1 (fun η => η "y") (by omega) rfl
  have dxy := get 2 (fun η => η "x" && η "y") (by omega) rfl
  obtain ⟨r', s'', er', dr, hk⟩ := h s pool ⟨3, _, Or.inl hp, e⟩ _ ONE _ _ _ _ dy (nden_zero s).not dx
  rw [er] at er'
  cases er'
  subst hr
  have := congrFun (nden_det dr (hk _ _ dxy)) (fun n => if n = "y" then false else true)
  simp only [nQuant, Bool.false_eq_true, if_false, Bool.not_false, Bool.true_and] at this
  have hy : ¬ ("x" = "y") := by decide
  simp only [hy, if_false, if_true, Bool.and_false, decide_eq_false_iff_not] at this
  exact this ⟨_, fun _ _ => rfl, by simp [hy]⟩

/-- The damage of `relprod_thereis` is not limited to its own result: after `relprod_thereis y T x`
the ordinary `x AND y` answers `x`. -/
theorem c17_poisons_and : (do
    let (s, p) ← run (init 3) [] [.var "x", .var "y"]
    let (_, s) ← relProdC true s (p.getD 1 ZERO) ONE (p.getD 0 ZERO)
    let (r, _) ← bAnd s (p.getD 0 ZERO) (p.getD 1 ZERO)
    some (decide (r = p.getD 0 ZERO))) = some true := by decide +kernel

/-- C17 for the pinned code where it is right: with no variables to quantify (a constant first operand)
both relational products are the conjunction. -/
theorem c17_constant_partial (ex : Bool) {s : S} {pool : List F} (hs : Reached s pool) {f g : F} {G H : NEnv → Bool}
    (b : Bool) (hf : NDen s f G) (hg : NDen s g H) :
    ∃ r s', relProdC ex s (if b then ONE else ZERO) f g = some (r, s') ∧ NDen s' r (fun η => G η && H η) ∧
      ∀ f0 G0, NDen s f0 G0 → NDen s' f0 G0 := by
  have I := hs.inv
  have o : ∀ {G : NEnv → Bool}, NDen s ONE G → G = fun _ => true := fun h => nden_det h (nden_zero s).not
  have z : ∀ {G : NEnv → Bool}, NDen s ZERO G → G = fun _ => false := fun h => nden_det h (nden_zero s)
  have hdep : bDepends s.fuel s (if b then ONE else ZERO) = some (ONE, s) := by
    unfold S.fuel
    cases b <;> simp [bDepends]
  have hq : ∀ (x : F) (code : Nat), quantify (2 * s.fuel) s x ONE code = some (x, s) := by
    intro x code
    unfold S.fuel
    rw [show 2 * (s.nvars + 1) = (2 * s.nvars + 1) + 1 by omega]
    simp [quantify]
  unfold relProdC
  rw [hdep]
  simp only [Option.bind_eq_bind, Option.bind_some]
  rw [show 2 * s.fuel = (2 * s.nvars + 1) + 1 by unfold S.fuel; omega]
  generalize 2 * s.nvars + 1 = k
  unfold relProd
  by_cases h : f = ZERO ∨ g = ZERO ∨ f = g.not
  · rw [if_pos h]
    refine ⟨ZERO, s, rfl, ?_, fun _ _ h => h⟩
    have : (fun η => G η && H η) = fun _ => false := by
      rcases h with rfl | rfl | rfl
      · rw [z hf]; simp
      · rw [z hg]; simp
      · rw [nden_det hf hg.not]; simp
    rw [this]; exact nden_zero s
  rw [if_neg h]
  by_cases h2 : f = ONE ∨ f = g
  · rw [if_pos h2, hq]
    refine ⟨g, s, rfl, ?_, fun _ _ h => h⟩
    rcases h2 with rfl | rfl
    · rw [o hf]; simpa using hg
    · rw [nden_det hf hg]; simpa using hg
  rw [if_neg h2]
  by_cases h3 : g = ONE
  · rw [if_pos h3, hq]
    subst h3
    refine ⟨f, s, rfl, ?_, fun _ _ h => h⟩
    rw [o hg]; simpa using hf
  rw [if_neg h3, if_pos (Or.inl rfl)]
  obtain ⟨r, s', e, _, E, d⟩ := bin_spec .and I hf hg
  refine ⟨r, s', ?_, d, fun f0 G0 h0 => h0.good I E⟩
  simp only [BinOp.run] at e
  rw [e]; rfl

example : ∃ s pool f g G H, Reached s pool ∧ NDen s f G ∧ NDen s g H ∧ f ≠ g := by
  obtain ⟨s, pool, f, g, _, G, H, _, h, d, d', _, _, _, _, hne, _⟩ := sample_reached
  exact ⟨s, pool, f, g, G, H, h, d, d', hne⟩

/-- C17, what is left of it: with the right operation code (`EXISTENTIAL`/`UNIVERSAL` instead of the
flag) both relational products satisfy the full statement, so the operation code is the only defect.
This is not the pinned code; for that see `c17_constant_partial`. -/
theorem c17_relprod_partial : RelProdSpec (relProdFixed true) false ∧ RelProdSpec (relProdFixed false) true := by
  constructor <;> intro s pool hs v f g V G H hv hf hg
  · obtain ⟨r, s', e, _, E, d⟩ := relProdFixed_names true hs.inv hv hf hg
    exact ⟨r, s', e, d, fun f0 G0 h0 => h0.good hs.inv E⟩
  · obtain ⟨r, s', e, _, E, d⟩ := relProdFixed_names false hs.inv hv hf hg
    exact ⟨r, s', e, d, fun f0 G0 h0 => h0.good hs.inv E⟩

/-! ### C18 substitution -/

/-- C18.  `substitute` is simultaneous composition; a repeated variable is rejected. -/
theorem c18_substitution {s : S} {pool : List F} (hs : Reached s pool) {pairs : List (String × F)}
    {σ : List (String × (NEnv → Bool))} {fs : List F} {Gs : List (NEnv → Bool)}
    (hp : List.Forall₂ (fun p q => p.1 = q.1 ∧ NDen s p.2 q.2) pairs σ) (hf : List.Forall₂ (NDen s) fs Gs) :
    ∃ out s', substitute s pairs fs = some (out, s') ∧
      (¬ (pairs.map Prod.fst).Nodup → out = none) ∧
      ((pairs.map Prod.fst).Nodup → ∃ rs, out = some rs ∧
        List.Forall₂ (fun r G => NDen s' r (nSubst σ G)) rs Gs) ∧
      ∀ f0 G0, NDen s f0 G0 → NDen s' f0 G0 := by
  obtain ⟨out, s', e, _, K, _, h1, h2⟩ := substitute_spec hs.inv hp hf
  exact ⟨out, s', e, h1, h2, fun f0 G0 h0 => h0.keeps hs.inv K⟩

example : ∃ s pool f g G H, Reached s pool ∧ List.Forall₂ (fun (p : String × F) (q : String × (NEnv → Bool)) =>
    p.1 = q.1 ∧ NDen s p.2 q.2) [("a", f), ("b", g)] [("a", G), ("b", H)] ∧ List.Forall₂ (NDen s) [f, g] [G, H] := by
  obtain ⟨s, pool, f, g, _, G, H, _, h, d, d', _⟩ := sample_reached
  exact ⟨s, pool, f, g, G, H, h, .cons ⟨rfl, d⟩ (.cons ⟨rfl, d'⟩ .nil), .cons d (.cons d' .nil)⟩
/-- Swapping `a` and `b` in `a AND NOT b` gives `b AND NOT a`. -/
example : (do
    let (s, p) ← run (init 3) [] [.var "a", .var "b", .not 0, .not 1, .bin .and 0 3, .bin .and 1 2]
    let (r, _) ← substitute s [("a", p.getD 1 ZERO), ("b", p.getD 0 ZERO)] [p.getD 4 ZERO]
    some (decide (r = some [p.getD 5 ZERO]))) = some true := by decide +kernel

/-! ### C19 support -/

/-- C19.  `depends` lists exactly the variables on which one of the expressions depends, without
duplicates and in variable order. -/
theorem c19_support {s : S} {pool : List F} (hs : Reached s pool) {fs : List F} {Gs : List (NEnv → Bool)}
    (h : List.Forall₂ (NDen s) fs Gs) :
    ∃ names, depends s fs = some names ∧ names.Nodup ∧
      names.Pairwise (fun a b => ∃ v w, v < s.nvars ∧ w < s.nvars ∧ s.vname v = a ∧ s.vname w = b ∧
        s.ord v < s.ord w) ∧
      ∀ name, name ∈ names ↔ ∃ G ∈ Gs, ∃ η, G (setN η name true) ≠ G (setN η name false) :=
  depends_spec hs.inv h

example : ∃ s pool f g G H, Reached s pool ∧ List.Forall₂ (NDen s) [f, g] [G, H] := by
  obtain ⟨s, pool, f, g, _, G, H, _, h, d, d', _⟩ := sample_reached
  exact ⟨s, pool, f, g, G, H, h, .cons d (.cons d' .nil)⟩
example : (do
    let (s, p) ← run (init 3) [] [.var "a", .var "b", .bin .xor 0 1, .bin .xor 2 0]
    let d ← depends s [p.getD 3 ZERO]
    let e ← depends s [p.getD 2 ZERO]
    some (d, e)) = some (["b"], ["a", "b"]) := by decide +kernel

/-! ### C20 truth cover -/

/-- C20.  `truth_cover` counts the assignments to the (distinct) listed variables that satisfy the
function, and fails when the function depends on a variable that is not listed. -/
theorem c20_truth_cover {s : S} {pool : List F} (hs : Reached s pool) {names : List String} (hnd : names.Nodup)
    {f : F} {G : NEnv → Bool} (h : NDen s f G) :
    ∃ out s', truthCoverOp s names f = some (out, s') ∧
      ((∀ n, NDependsOn G n → n ∈ names) → out = some (SatSet names G (fun _ => false)).ncard) ∧
      ((∃ n, NDependsOn G n ∧ n ∉ names) → out = none) ∧
      ∀ f0 G0, NDen s f0 G0 → NDen s' f0 G0 := by
  obtain ⟨out, s', e, _, K, h1, h2⟩ := truthCoverOp_spec hs.inv hnd h
  refine ⟨out, s', e, ?_, ?_, fun f0 G0 h0 => h0.keeps hs.inv K⟩
  · intro ha
    cases out with
    | none => obtain ⟨n, hn, hm⟩ := h1 rfl; exact absurd (ha n hn) hm
    | some k => rw [(h2 k rfl).2]
  · rintro ⟨n, hn, hm⟩
    cases out with
    | none => rfl
    | some k => exact absurd ((h2 k rfl).1 n hn) hm

/-- `a AND b` has 2 models over `a, b, c`, and cannot be counted over `a` alone. -/
example : (do
    let (s, p) ← run (init 3) [] [.var "a", .var "b", .bin .and 0 1]
    let (r, s) ← truthCoverOp s ["a", "c", "b"] (p.getD 2 ZERO)
    let (q, _) ← truthCoverOp s ["a"] (p.getD 2 ZERO)
    some (r, q)) = some (some 2, none) := by decide +kernel
/-- Without the distinctness assumption the count is wrong: `truth_cover ["x","x"] x` is 2. -/
theorem c20_duplicates : (do
    let (s, p) ← run (init 3) [] [.var "x"]
    let (r, _) ← truthCoverOp s ["x", "x"] (p.getD 0 ZERO)
    some r) = some (some 2) := by decide +kernel

/-! ### C21 garbage collection, C22 reordering -/

theorem meanings_append (p q : List Cmd) : ∀ Gs, meanings Gs (p ++ q) = meanings (meanings Gs p) q := by
  induction p with
  | nil => intro Gs; rfl
  | cons c p ih => intro Gs; simp only [List.cons_append, meanings, ih]

theorem zip_den {s s' : S} : ∀ {pool pool' : List F} {Gs : List (NEnv → Bool)}, List.Forall₂ (NDen s) pool Gs →
    List.Forall₂ (NDen s') pool' Gs → List.Forall₂ (fun f f' => ∃ G, NDen s f G ∧ NDen s' f' G) pool pool' := by
  intro pool pool' Gs h
  induction h generalizing pool' with
  | nil => intro h'; cases h'; exact .nil
  | cons d _ ih => intro h'; cases h' with
    | cons d' hr => exact .cons ⟨_, d, d'⟩ (ih hr)

/-- C21.  A garbage collection at any point of a history cannot be observed: with and without it, all
handles of the final pool denote the same functions (so equality tests and all later operations agree). -/
theorem c21_gc_unobservable (lg : Nat) (p q : List Cmd) (hp : Ok (p ++ q)) :
    ∃ s pool s' pool', run (init lg) [] (p ++ q) = some (s, pool) ∧
      run (init lg) [] (p ++ .gc :: q) = some (s', pool') ∧
      List.Forall₂ (fun f f' => ∃ G, NDen s f G ∧ NDen s' f' G) pool pool' := by
  obtain ⟨s, pool, e, _, h, _⟩ := hist_spec lg _ hp
  obtain ⟨s', pool', e', _, h', _⟩ := hist_spec lg (p ++ .gc :: q) (by
    rcases hp with hp | hp
    · left; intro c hc
      simp only [List.mem_append, List.mem_cons] at hc
      rcases hc with hc | rfl | hc
      · exact hp c (by simp [hc])
      · trivial
      · exact hp c (by simp [hc])
    · right; intro c hc
      simp only [List.mem_append, List.mem_cons] at hc
      rcases hc with hc | rfl | hc
      · exact hp c (by simp [hc])
      · trivial
      · exact hp c (by simp [hc]))
  refine ⟨s, pool, s', pool', e, e', zip_den h ?_⟩
  rw [meanings_append] at h' ⊢
  exact h'

/-- C21, for one collection: live handles keep their meaning, handle and distinctness. -/
theorem c21_gc_live {s : S} {pool : List F} (hs : Reached s pool) :
    ∃ s', gc s pool [] .keep = some s' ∧ Reached s' pool ∧ ∀ f ∈ pool, ∀ G, NDen s f G → NDen s' f G := by
  obtain ⟨lg, p, hp, e⟩ := hs
  obtain ⟨s1, pool1, e1, I, h, _⟩ := hist_spec lg p hp
  rw [e] at e1; cases e1
  obtain ⟨s', e', I', h', _⟩ := gcPool I h .keep trivial
  refine ⟨s', e', ⟨lg, p ++ [.gc], ?_, ?_⟩, ?_⟩
  · rcases hp with hp | hp
    · left; intro c hc; simp only [List.mem_append, List.mem_singleton] at hc
      rcases hc with hc | rfl
      · exact hp c hc
      · trivial
    · right; intro c hc; simp only [List.mem_append, List.mem_singleton] at hc
      rcases hc with hc | rfl
      · exact hp c hc
      · trivial
  · have run_app : ∀ (p : List Cmd) (t : S) (pl : List F) (c : Cmd), run t pl (p ++ [c]) =
        (run t pl p).bind (fun r => step r.1 r.2 c) := by
      intro p
      induction p with
      | nil =>
        intro t pl c
        simp only [List.nil_append, run, Option.bind_eq_bind, Option.bind_some]
        cases step t pl c <;> rfl
      | cons d p ih =>
        intro t pl c
        simp only [List.cons_append, run, Option.bind_eq_bind]
        cases hst : step t pl d with
        | none => rfl
        | some r => simp only [Option.bind_some]; exact ih _ _ _
    rw [run_app, e]
    simp only [Option.bind_some, step, e', Option.bind_eq_bind]
  · intro f hf G hG
    obtain ⟨i, hi⟩ := List.mem_iff_getElem?.1 hf
    rcases forall₂_at h i with ⟨a, _⟩ | ⟨x, y, a, b, r⟩
    · rw [hi] at a; exact absurd a (by simp)
    · rw [hi] at a; cases a
      rcases forall₂_at h' i with ⟨a', _⟩ | ⟨x', y', a', b', r'⟩
      · rw [hi] at a'; exact absurd a' (by simp)
      · rw [hi] at a'; cases a'
        rw [b] at b'; cases b'
        rw [nden_det hG r]; exact r'

example : Ok ([.var "a", .var "b", .bin .and 0 1] ++ [.bin .or 0 1]) := by
  left; simp [Cmd.Plain]
/-- The collection in this history frees a slot that the next operation takes again. -/
example : (run (init 3) [] [.var "a", .var "b", .bin .and 0 1, .pick [0, 1], .gc, .bin .xor 0 1]).map Prod.snd =
    some [⟨true, 1⟩, ⟨true, 3⟩, ⟨false, 5⟩] := by decide +kernel

/-- C22.  Dynamic reordering (sifting with arbitrary decisions and interrupts, or a requested variable
order) at any point of a history cannot be observed through the functions: with and without it, all
handles of the final pool denote the same functions.  Needs variable names that do not end in `_n_n`. -/
theorem c22_reorder_partial (lg : Nat) (p q : List Cmd) (c : Cmd) (hc : (∃ cfg, c = .sift cfg) ∨
      ∃ names, c = .varOrder names ∧ ∀ n ∈ names, ¬ EndsN n)
    (hp : ∀ c ∈ p ++ q, Cmd.NamesOK c) :
    ∃ s pool s' pool', run (init lg) [] (p ++ q) = some (s, pool) ∧
      run (init lg) [] (p ++ c :: q) = some (s', pool') ∧
      List.Forall₂ (fun f f' => ∃ G, NDen s f G ∧ NDen s' f' G) pool pool' := by
  obtain ⟨s, pool, e, _, h, _⟩ := hist_spec lg _ (Or.inr hp)
  have hcn : c.NamesOK := by
    rcases hc with ⟨cfg, rfl⟩ | ⟨names, rfl, hn⟩
    · trivial
    · exact hn
  obtain ⟨s', pool', e', _, h', _⟩ := hist_spec lg (p ++ c :: q) (by
    right; intro d hd
    simp only [List.mem_append, List.mem_cons] at hd
    rcases hd with hd | rfl | hd
    · exact hp d (by simp [hd])
    · exact hcn
    · exact hp d (by simp [hd]))
  refine ⟨s, pool, s', pool', e, e', zip_den h ?_⟩
  have hm : ∀ Gs, meaning Gs c = Gs := by
    intro Gs
    rcases hc with ⟨cfg, rfl⟩ | ⟨names, rfl, _⟩ <;> rfl
  rw [meanings_append] at h' ⊢
  simp only [meanings, hm] at h'
  exact h'

example : ∀ c ∈ sample, Cmd.NamesOK c := sample_ok
/-- The reordering in this history really changes the order. -/
example : (run (init 4) [] [.var "a", .var "b", .bin .and 0 1, .varOrder ["b"]]).map
    (fun r => (List.range r.1.nvars).map r.1.ord) = some [2, 3, 0, 1] := by decide +kernel

/-- C22 fails for names ending in `_n_n`: with the variables `a` and `a_n_n` declared the number of
variables is odd and sifting runs over the end of the position table. -/
theorem c22_violated : run (init 4) [] [.var "a", .var "a_n_n", .sift sampleCfg] = none := by
  rw [← Option.isNone_iff_eq_none]; decide +kernel

/-! ### C23 saving and loading -/

/-- C23.  BDDs saved in one session and loaded in another one (with any variables, variable order and
cache contents there) come back as the same functions, in the same order; nothing else changes in the
second session. -/
theorem c23_save_load {s t : S} {pool pool' : List F} (hs : Reached s pool) (ht : Reached t pool')
    {roots : List F} {Gs : List (NEnv → Bool)} (h : List.Forall₂ (NDen s) roots Gs) :
    ∃ file rs t', saveBDDs s roots = some file ∧ loadBDDs t file = some (rs, t') ∧
      List.Forall₂ (NDen t') rs Gs ∧ ∀ f0 G0, NDen t f0 G0 → NDen t' f0 G0 := by
  obtain ⟨file, e1, rs, t', e2, _, K, d, _⟩ := saveLoad_spec hs.inv ht.inv h
  exact ⟨file, rs, t', e1, e2, d, fun f0 G0 h0 => h0.keeps ht.inv K⟩

/-- In particular loading in the same session gives back the very handles that were saved. -/
theorem c23_same_session {s : S} {pool : List F} (hs : Reached s pool) {roots : List F} {Gs : List (NEnv → Bool)}
    (h : List.Forall₂ (NDen s) roots Gs) :
    ∃ file t', saveBDDs s roots = some file ∧ loadBDDs s file = some (roots, t') := by
  obtain ⟨file, e1, rs, t', e2, I, K, d, _⟩ := saveLoad_spec hs.inv hs.inv h
  refine ⟨file, t', e1, ?_⟩
  have h' : List.Forall₂ (NDen t') roots Gs := forall₂_imp h fun _ _ d => d.keeps hs.inv K
  have : rs = roots := by
    clear e1 e2 h
    induction h' generalizing rs with
    | nil => cases d; rfl
    | cons x _ ih => cases d with
      | cons y ys => rw [nden_inj I y x, ih _ ys]
  rw [← this]; exact e2

/-- Save `a AND b`, load it in a session where `b` comes first. -/
example : (do
    let (s, p) ← run (init 3) [] [.var "a", .var "b", .bin .and 0 1]
    let file ← saveBDDs s [p.getD 2 ZERO]
    let (t, q) ← run (init 3) [] [.var "b", .var "a", .bin .and 1 0]
    let (r, _) ← loadBDDs t file
    some (decide (r = [q.getD 2 ZERO]))) = some true := by decide +kernel

/-! ### C43 bound variables -/

/-- C43.  A closed expression with quantifiers `!x. e`, `?x. e` evaluates, in every reachable state and
for every value of the counter, to the BDD of the function it means, provided that no name at a
quantifier ends in a digit and no free variable name starts with `%`. -/
theorem c43_binders_partial {s : S} {pool : List F} (hs : Reached s pool) (cnt : Nat) (e : QE) (hc : e.Closed 0)
    (hf : e.FreeOK) (hb : e.BinderOK) :
    ∃ f s' cnt', evalQ s cnt [] e = some (f, s', cnt') ∧ NDen s' f (fun η => e.sem [] η) ∧
      ∀ f0 G0, NDen s f0 G0 → NDen s' f0 G0 := by
  obtain ⟨f, s', c', e1, _, K, _, d⟩ := evalQ_spec e s cnt [] [] hs.inv .nil (by simp) hc hf hb
  exact ⟨f, s', c', e1, d, fun f0 G0 h0 => h0.keeps hs.inv K⟩

/-- `!x. ?y. x XOR y AND a` meets the conditions. -/
example : (QE.quant true "x" (.quant false "y" (.bin .xor (.bound 1) (.bin .and (.bound 0) (.var "a"))))).Closed 0 ∧
    (QE.quant true "x" (.quant false "y" (.bin .xor (.bound 1) (.bin .and (.bound 0) (.var "a"))))).FreeOK ∧
    (QE.quant true "x" (.quant false "y" (.bin .xor (.bound 1) (.bin .and (.bound 0) (.var "a"))))).BinderOK := by
  refine ⟨by simp [QE.Closed], by simp [QE.FreeOK], ?_⟩
  simp only [QE.BinderOK, and_true]
  constructor <;> intro c hc <;> simp at hc <;> subst hc <;> decide

/-- Nine quantifiers over a variable that does not occur. -/
def dummies : Nat → QE → QE
  | 0, e => e
  | n + 1, e => .quant false "y" (dummies n e)

/-- `!x1. ?y. ... ?y. ?x. x XOR x1` in a fresh session. -/
def captured : QE := .quant true "x1" (dummies 9 (.quant false "x" (.bin .xor (.bound 0) (.bound 10))))

/-- C43 fails when a name ends in a digit: the eleventh generated name `%x11` for `x` is the first one
for `x1`.  The expression is true for every assignment, but its value is the constant `F`. -/
theorem c43_violated : (∀ η, captured.sem [] η = true) ∧ (evalQ (init 3) 1 [] captured).map (·.1) = some ZERO := by
  constructor
  · intro η
    have h9 : ∀ n β, (QE.quant false "x" (.bin .xor (.bound 0) (.bound (n + 1)))).sem β η = true := by
      intro n β
      simp only [QE.sem, BinOp.sem, Bool.false_eq_true, if_false, List.getD_cons_zero, List.getD_cons_succ]
      cases β.getD n false <;> rfl
    have hd : ∀ n β, β.length + n = 10 →
        (dummies n (.quant false "x" (.bin .xor (.bound 0) (.bound 10)))).sem β η = true := by
      intro n
      induction n with
      | zero => intro β _; exact h9 9 β
      | succ n ih =>
        intro β hl
        simp only [dummies, QE.sem, Bool.false_eq_true, if_false]
        rw [ih (true :: β) (by simp only [List.length_cons]; omega)]; rfl
    simp only [captured, QE.sem, if_true]
    rw [hd 9 [true] rfl, hd 9 [false] rfl]; rfl
  · decide +kernel

/-! ### C42 pairs of variables, C44 requested order -/

/-- C42.  Without names ending in `_n_n`, every current-state variable is directly followed in the
variable order by its next-state copy, whatever reorderings have taken place. -/
theorem c42_pairs_partial {s : S} {pool : List F} (hs : ReachedN s pool) (v : Nat) (hv : v < s.nvars)
    (hn : ¬ EndsN (s.vname v)) :
    ∃ w, w < s.nvars ∧ s.vname w = nextName (s.vname v) ∧ s.ord w = s.ord v + 1 ∧ s.ord v % 2 = 0 := by
  have P := hs.pairs
  obtain ⟨k, rfl⟩ := P.even hv hn
  exact ⟨2 * k + 1, by have := P.pair.even; omega, (P.name k hv).1, (P.pair.pos k hv).2, (P.pair.pos k hv).1⟩

example : ∃ s pool, ReachedN s pool ∧ 2 < s.nvars ∧ ¬ EndsN (s.vname 2) := by
  obtain ⟨s, pool, e, _⟩ := hist_spec 4 sample (Or.inr sample_ok)
  refine ⟨s, pool, ⟨4, sample, sample_ok, e⟩, ?_⟩
  have : (run (init 4) [] sample).map (fun r => (decide (2 < r.1.nvars), r.1.vname 2)) = some (true, "b") := by
    decide +kernel
  rw [e] at this
  simp only [Option.map_some, Option.some.injEq, Prod.mk.injEq, decide_eq_true_eq] at this
  rw [this.2]
  exact ⟨this.1, by decide +kernel⟩

/-- C42 fails with such names: after `a_n_n` and `a` the variables are `a_n`, `a_n_n`, `a` in this
order. -/
theorem c42_violated : (run (init 4) [] [.var "a_n_n", .var "a"]).map
    (fun r => (List.range r.1.nvars).map r.1.vname) = some ["a_n", "a_n_n", "a"] := by decide +kernel

/-- C44.  `var_order names` with distinct current-state variables puts the variables at the first
positions, in the requested order, each followed by its next-state copy. -/
theorem c44_var_order_partial {s : S} {pool : List F} (hs : ReachedN s pool) {names : List String}
    (hn : ∀ n ∈ names, ¬ EndsN n) (hnd : names.Nodup) :
    ∃ s', varOrder s pool names = some s' ∧ (∀ f ∈ pool, ∀ G, NDen s f G → NDen s' f G) ∧
      ∀ (j : Nat) (n : String), names[j]? = some n →
        ∃ v, v + 1 < s'.nvars ∧ s'.vname v = n ∧ s'.vname (v + 1) = nextName n ∧
          s'.ord v = 2 * j ∧ s'.ord (v + 1) = 2 * j + 1 := by
  obtain ⟨lg, p, hp, e⟩ := hs.reached
  obtain ⟨s1, pool1, e1, I, h, _⟩ := hist_spec lg p hp
  rw [e] at e1; cases e1
  obtain ⟨s', e', _, h', _, ho⟩ := varOrder_spec I hs.pairs h hn
  refine ⟨s', e', ?_, ho hnd⟩
  intro f hf G hG
  obtain ⟨i, hi⟩ := List.mem_iff_getElem?.1 hf
  rcases forall₂_at h i with ⟨a, _⟩ | ⟨x, y, a, b, r⟩
  · rw [hi] at a; exact absurd a (by simp)
  · rw [hi] at a; cases a
    rcases forall₂_at h' i with ⟨a', _⟩ | ⟨x', y', a', b', r'⟩
    · rw [hi] at a'; exact absurd a' (by simp)
    · rw [hi] at a'; cases a'
      rw [b] at b'; cases b'
      rw [nden_det hG r]; exact r'

example : (∀ n ∈ ["b", "a"], ¬ EndsN n) ∧ ["b", "a"].Nodup := by decide +kernel

/-- C44 fails for the variable `_n` (the code moves a pair starting at an odd position and runs out of
the position table), and the name of a next-state variable makes the code print a warning with a
missing argument. -/
theorem c44_violated : run (init 4) [] [.varOrder ["_n"]] = none ∧ run (init 4) [] [.varOrder ["a_n"]] = none := by
  constructor <;> rw [← Option.isNone_iff_eq_none] <;> decide +kernel

end Voss.Bdd
