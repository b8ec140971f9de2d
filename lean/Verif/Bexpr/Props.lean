import Verif.Bexpr.Concrete
/-
The properties of and-inverter expressions (C24 to C28, C50, C51).
-/
namespace Voss.Bexpr

/-! ### C24: constructors denote the connectives -/

/-- C24: after any history of calls, with any answers of the solver that are not wrong, every expression held
denotes what the calls say, also when nodes were merged, reused after collections or substituted. -/
theorem c24_history {c : Cfg} (hc : RightAnswers c) (ops : List Op) (s : St) (hs : List Edge)
    (h : run c ops St.init [] = some (s, hs)) : Each (Means s) hs (specRun ops []) :=
  (run_spec hc ops inv_init (by trivial : Each (Means St.init) [] []) h).2

/-- C24: an expression denotes only one function. -/
theorem c24_unique (s : St) (e : Edge) (f g : Fn) (hf : Means s e f) (hg : Means s e g) : f = g := means_det hf hg

/-- C24 (partial: without garbage collections, or with merging switched off).  No call is undefined. -/
theorem c24_defined_partial {c : Cfg} (hc : RightAnswers c) (ops : List Op)
    (h : (∀ op ∈ ops, op.isCollect = false) ∨ c.satLimit = 0) : ∃ s hs, run c ops St.init [] = some (s, hs) :=
  run_total hc ops inv_init (.inr (by simp [St.init])) (by trivial : Each (Means St.init) [] []) h

/-- C24: a garbage collection keeps exactly the nodes that the kept expressions need; the others are free for
new nodes. -/
theorem c24_collect {c : Cfg} (hc : RightAnswers c) (ops : List Op) (s : St) (hs : List Edge)
    (h : run c ops St.init [] = some (s, hs)) (keep : List Nat) (j : Nat) (hj : s.live j) (h0 : j ≠ 0) :
    ((∃ i ∈ keep, Reach s (hget hs i).idx j) →
      (beClean s (keep.map (hget hs))).nd j = s.nd j ∧ j ∉ (beClean s (keep.map (hget hs))).freeL) ∧
    ((¬ ∃ i ∈ keep, Reach s (hget hs i).idx j) →
      ¬ (beClean s (keep.map (hget hs))).live j ∧ j ∈ (beClean s (keep.map (hget hs))).freeL) := by
  obtain ⟨hi, hm⟩ := run_spec hc ops inv_init (by trivial : Each (Means St.init) [] []) h
  have hl : ∀ e ∈ keep.map (hget hs), s.live e.idx := by
    intro e he
    obtain ⟨i, _, rfl⟩ := List.mem_map.1 he
    exact means_live (hget_means hi hm i)
  obtain ⟨_, hn, hf⟩ := beClean_spec hi hl
  have hmk := mem_markRoots hi (keep.map (hget hs)) j
  have hmk' : j ∈ markRoots s (keep.map (hget hs)) ↔ ∃ i ∈ keep, Reach s (hget hs i).idx j := by
    rw [hmk]
    constructor
    · rintro (h | ⟨e, he, hr⟩)
      · exact absurd h h0
      · obtain ⟨i, hi, rfl⟩ := List.mem_map.1 he
        exact ⟨i, hi, hr⟩
    · rintro ⟨i, hi, hr⟩
      exact .inr ⟨_, List.mem_map.2 ⟨i, hi, rfl⟩, hr⟩
  constructor
  · intro hr
    have := hmk'.2 hr
    exact ⟨by rw [hn, if_pos this], fun hx => ((hf j).1 hx).2 this⟩
  · intro hr
    have : j ∉ markRoots s (keep.map (hget hs)) := fun hx => hr (hmk'.1 hx)
    refine ⟨?_, (hf j).2 ⟨live_lt hj, this⟩⟩
    unfold St.live
    rw [hn, if_neg this]
    simp [emptyRec]

/-- Four variables whose conjunction, built in pairs, has the signature of the constant 1. -/
def clashOps : List Op :=
  [.var [97, 114, 101, 104, 81], .var [98, 117, 108, 86, 109], .var [99, 106, 114, 72, 79], .var [100, 68, 120, 65, 120],
   .and 3 2, .and 2 1, .collect [1, 0], .and 0 1]

/-- C24 is violated: after a garbage collection the constant is a candidate for merging, although it has no variable
in the solver, so a conjunction with the same signature reads outside the solver's arrays. -/
theorem c24_undefined : ∃ c : Cfg, RightAnswers c ∧ ∃ ops, run c ops St.init [] = none ∧
    ∃ s hs, run c (ops.filter fun op => !op.isCollect) St.init [] = some (s, hs) := by
  refine ⟨cfg0, cfg0_right, clashOps, by decide +kernel, ?_⟩
  exact c24_defined_partial cfg0_right _ (.inl fun op hop => by simpa using (List.mem_filter.1 hop).2)

-- the four variables, kept through a collection; and a merge: x AND (x AND y) is found to be x AND y
example : ∃ x, run cfg0 (clashOps.take 7) St.init [] = some x :=
  ⟨((run cfg0 (clashOps.take 7) St.init []).getD (St.init, [])), by decide +kernel⟩
example : ((run cfg0 [.var [97], .var [98], .var [99], .and 2 1, .and 0 1, .and 3 2, .and 4 0, .ite 0 1 2, .xor 0 4,
    .collect [0, 1, 2], .or 0 2] St.init []).map fun x => x.2.length) = some 4 := by decide +kernel

/-! ### C25: the SAT encoding -/

/-- C25: the clauses hold under an assignment of the solver's variables exactly as the expressions have their
values: every assignment that satisfies the clauses gives every expression its value for some values of its
variables, and all values of the variables are met. -/
theorem c25_encoding {c : Cfg} (hc : RightAnswers c) (ops : List Op) (s : St) (hs : List Edge)
    (h : run c ops St.init [] = some (s, hs)) :
    (∀ σ, Sat σ s.clauses [] → ∃ ρ, ∀ i, (hget hs i).idx ≠ 0 →
      (s.lit (hget hs i)).holds σ = fget (specRun ops []) i ρ) ∧
    ∀ ρ, ∃ σ, Sat σ s.clauses [] ∧ ∀ i, (hget hs i).idx ≠ 0 →
      (s.lit (hget hs i)).holds σ = fget (specRun ops []) i ρ := by
  obtain ⟨hi, hm⟩ := run_spec hc ops inv_init (by trivial : Each (Means St.init) [] []) h
  constructor
  · intro σ hσ
    exact ⟨envOf s σ, fun i h0 => means_value hi hσ (hget_means hi hm i) h0⟩
  · intro ρ
    obtain ⟨σ, h1, h2⟩ := hi.ext ρ
    exact ⟨σ, h1, fun i h0 => lit_value h2 (hget_means hi hm i) h0⟩

/-- C25: `T` from the unsatisfiability test means that the expression is constantly false; `F` means that it is not
or that the solver gave up. -/
theorem c25_unsat {c : Cfg} (hc : RightAnswers c) (ops : List Op) (s : St) (hs : List Edge)
    (h : run c ops St.init [] = some (s, hs)) (i : Nat) (s' : St) (b : Bool)
    (hb : bexprIsUnsat c s (hget hs i) = some (s', b)) :
    (b = true → ∀ ρ, fget (specRun ops []) i ρ = false) ∧
    (b = false → (∀ n cs as, c.solve n cs as ≠ .undef) → ∃ ρ, fget (specRun ops []) i ρ = true) := by
  obtain ⟨hi, hm⟩ := run_spec hc ops inv_init (by trivial : Each (Means St.init) [] []) h
  obtain ⟨_, h1, h2⟩ := bexprIsUnsat_spec hc hi (hget_means hi hm i) hb
  exact ⟨h1, fun hf hu => (h2 hf).resolve_right (hu _ _ _)⟩

/-- C25: the result of `bget_model` is right: no model exists, or the values returned make all expressions true
whatever the other variables are. -/
theorem c25_model {c : Cfg} (hc : RightAnswers c) (ops : List Op) (s : St) (hs : List Edge)
    (h : run c ops St.init [] = some (s, hs)) (is : List Nat) (s' : St) (r : ModelRes)
    (hr : bgetModel c s (is.map (hget hs)) = some (s', r)) : ModelOK (is.map (fget (specRun ops []))) r := by
  obtain ⟨hi, hm⟩ := run_spec hc ops inv_init (by trivial : Each (Means St.init) [] []) h
  refine (bgetModel_spec hc hi ?_ hr).2
  clear hr
  induction is with
  | nil => trivial
  | cons i is ih => exact ⟨hget_means hi hm i, ih⟩

-- an expression over three variables with a model, and an unsatisfiable one that is no constant
example : ((run cfg0 [.var [97], .var [98], .var [99], .xor 2 1, .ite 1 0 2] St.init []).bind fun x =>
    (bgetModel cfg0 x.1 [hget x.2 0, (hget x.2 1).not]).map fun y => match y.2 with
      | .list as => as.length
      | .timeout => 0) = some 3 := by decide +kernel
example : ((run { cfg0 with satLimit := 0 } [.var [97], .var [98], .xor 1 0, .xnor 2 1, .and 1 0] St.init []).bind fun x =>
    (bexprIsUnsat cfg0 x.1 (hget x.2 0)).map fun y => (hget x.2 0 == bF, y.2)) = some (false, true) := by decide +kernel

/-! ### C26: conversion to and from BDDs -/

theorem bddOK_init {den : Nat → Fn} {E : Env → Env} : BddOK den E St.init := by
  intro i b hb
  unfold St.nd St.init at hb
  cases i with
  | zero => cases hb
  | succ i => cases hb

/-- C26 (partial: all conversions of the history use the same substitution).  Every BDD denotes the function of its
expression after the substitution. -/
theorem c26_history_partial {c : Cfg} (hc : RightAnswers c) {o : BddOps} {den : Nat → Fn} (ho : BddRight o den)
    (sub : Name → Option Nat) (ops : List BOp) (s : St) (hs : List Edge) (bs : List Nat)
    (h : runB c o sub ops St.init [] [] = some (s, hs, bs)) :
    Each (fun b g => den b = g) bs (specRunB (bddEnv o den sub) ops [] []).2 :=
  (runB_spec hc ho ops inv_init bddOK_init (by trivial : Each (Means St.init) [] [])
    (by trivial : Each (fun b g => den b = g) [] []) h).2.2.2

/-- C26: after any such history the next conversion is defined as well. -/
theorem c26_defined {c : Cfg} (hc : RightAnswers c) {o : BddOps} {den : Nat → Fn} (ho : BddRight o den)
    (sub : Name → Option Nat) (ops : List BOp) (s : St) (hs : List Edge) (bs : List Nat)
    (h : runB c o sub ops St.init [] [] = some (s, hs, bs)) (i : Nat) :
    ∃ s' b, bexpr2bdd o sub s (hget hs i) = some (s', b) := by
  obtain ⟨hi, hok, hm, _⟩ := runB_spec hc ho ops inv_init bddOK_init (by trivial : Each (Means St.init) [] [])
    (by trivial : Each (fun b g => den b = g) [] []) h
  obtain ⟨s', b, h1, _⟩ := be2bdd_spec ho (sub := sub) ((s.nd (hget hs i).idx).sat + 1) hi hok
    (hget_means hi hm i) (by omega)
  exact ⟨s', b, h1⟩

/-- C26 is violated for histories with different substitutions: the second conversion gives the stored result of
the first. -/
theorem c26_stale {o : BddOps} {den : Nat → Fn} (ho : BddRight o den) (c : Cfg) :
    ¬ ∀ (ops : List Op) (s : St) (hs : List Edge), run c ops St.init [] = some (s, hs) →
      ∀ (sub sub' : Name → Option Nat) (s1 s2 : St) (b1 b2 : Nat), bexpr2bdd o sub s (hget hs 0) = some (s1, b1) →
        bexpr2bdd o sub' s1 (hget hs 0) = some (s2, b2) →
        ∀ ρ, den b2 ρ = fget (specRun ops []) 0 (bddEnv o den sub' ρ) := by
  intro h
  have h1 := h [.var [97]] _ _ rfl (fun _ => some o.one) (fun _ => some o.zero) _ _ _ _ rfl rfl (fun _ => false)
  have h2 : fget (specRun [.var [97]] []) 0 (bddEnv o den (fun _ => some o.zero) fun _ => false) = false :=
    ho.zero _
  rw [h2] at h1
  have h3 := ho.one fun _ => false
  exact absurd (h3.symm.trans h1) (by simp)

/-- C26: the expression made from a BDD denotes its function. -/
theorem c26_back {c : Cfg} (hc : RightAnswers c) {o : BddOps} {den : Nat → Fn} (ho : BddRight o den)
    {isNeg : Nat → Bool} {top : TopCof} {depth : Nat → Nat} (ht : CofRight o den top depth) (ops : List Op) (s : St)
    (hs : List Edge) (h : run c ops St.init [] = some (s, hs)) (f : Nat) (s' : St) (m : Memo) (e : Edge)
    (he : bdd2bexpr c o isNeg top (depth f + 1) s [] f = some (s', m, e)) :
    Means s' e (den f) ∧ Each (Means s') hs (specRun ops []) := by
  obtain ⟨hi, hm⟩ := run_spec hc ops inv_init (by trivial : Each (Means St.init) [] []) h
  obtain ⟨_, h2, _, h4⟩ := bdd2bexpr_spec hc ho ht _ hi (by intro p hp; cases hp) he
  exact ⟨h4, each_mono (fun _ _ hx => h2.means hx) hm⟩

/-- C26: it is defined in a fresh state, and then as long as no garbage was collected. -/
theorem c26_back_defined {c : Cfg} (hc : RightAnswers c) {o : BddOps} {den : Nat → Fn} (ho : BddRight o den)
    {isNeg : Nat → Bool} {top : TopCof} {depth : Nat → Nat} (ht : CofRight o den top depth) (f : Nat) :
    ∃ s' m e, bdd2bexpr c o isNeg top (depth f + 1) St.init [] f = some (s', m, e) := by
  obtain ⟨s', m, e, h, _⟩ := bdd2bexpr_total (isNeg := isNeg) hc ho ht (depth f + 1) inv_init
    (.inr (by simp [St.init])) (m := []) (by intro p hp; cases hp) (f := f) (by omega)
  exact ⟨s', m, e, h⟩

-- BDDs with the assumed properties; a conversion with a substitution, there and back
example : BddRight fmOps fmDen ∧ CofRight fmOps fmDen fmTop fmDepth := ⟨fm_right, fm_cof⟩
example : ∃ x, runB cfg0 fmOps (fun n => if n = [97] then some fmOps.one else none)
    [.op (.var [97]), .op (.var [98]), .op (.and 1 0), .conv 0, .op (.collect [0]), .conv 0] St.init [] [] = some x :=
  ⟨_, rfl⟩
example : ∃ s' m e, bdd2bexpr cfg0 fmOps (fun _ => false) fmTop (fmDepth (fmOps.and (fmOps.var [97]) (fmOps.var [98])) + 1)
    St.init [] (fmOps.and (fmOps.var [97]) (fmOps.var [98])) = some (s', m, e) :=
  c26_back_defined cfg0_right fm_right fm_cof _

/-! ### C27: substitution -/

/-- C27: `bsubstitute` fails exactly on lists with a repeated variable; otherwise every expression is composed with
all listed functions at once, and the expressions held keep their functions. -/
theorem c27_subst {c : Cfg} (hc : RightAnswers c) (ops : List Op) (s : St) (hs : List Edge)
    (h : run c ops St.init [] = some (s, hs)) (sub : List (Name × Nat)) (is : List Nat) (r : SubstRes)
    (hr : bsubstitute c s (sub.map fun p => (p.1, hget hs p.2)) (is.map (hget hs)) = some r) :
    if (sub.map (·.1)).Nodup then
      ∃ s' rs, r = .ok s' rs ∧ Each (Means s') hs (specRun ops []) ∧
        Each (Means s') rs (is.map fun i ρ => fget (specRun ops []) i
          (substEnv (sub.map fun p => (p.1, fget (specRun ops []) p.2)) ρ))
    else r = .fail := by
  obtain ⟨hi, hm⟩ := run_spec hc ops inv_init (by trivial : Each (Means St.init) [] []) h
  have h1 : Each (fun (p : Name × Edge) (q : Name × Fn) => p.1 = q.1 ∧ Means s p.2 q.2)
      (sub.map fun p => (p.1, hget hs p.2)) (sub.map fun p => (p.1, fget (specRun ops []) p.2)) := by
    clear hr
    induction sub with
    | nil => trivial
    | cons p ps ih => exact ⟨⟨rfl, hget_means hi hm p.2⟩, ih⟩
  have h2 : Each (Means s) (is.map (hget hs)) (is.map (fget (specRun ops []))) := by
    clear hr
    induction is with
    | nil => trivial
    | cons i is ih => exact ⟨hget_means hi hm i, ih⟩
  have hsp := bsubstitute_spec hc hi h1 h2 hr
  have hnames : (sub.map fun p => (p.1, hget hs p.2)).map (·.1) = sub.map (·.1) := by rw [List.map_map]; rfl
  rw [hnames] at hsp
  split at hsp
  · rename_i hnd
    rw [if_pos hnd]
    obtain ⟨s1, rs, rfl, i1, g1, q1⟩ := hsp
    refine ⟨s1, rs, rfl, each_mono (fun _ _ hx => g1.means hx) hm, ?_⟩
    rw [List.map_map] at q1
    exact q1
  · rename_i hnd
    rw [if_neg hnd]
    exact hsp

-- exchanging two variables, and a repeated variable
example : ((run cfg0 [.var [97], .var [98], .and 0 1, .or 2 0, .subst [([97], 2), ([98], 3)] [0, 1]] St.init []).map
    fun x => x.2.length) = some 6 := by decide +kernel
example : ((run cfg0 [.var [97], .var [98], .subst [([97], 0), ([97], 1)] [0]] St.init []).map
    fun x => x.2.length) = some 2 := by decide +kernel

/-! ### C28: saving and loading -/

/-- C28 (partial: names without white space that fit the buffer).  A file with fewer than 2^31 lines
can be loaded into any reached state, and gives expressions with the same functions in the same order; only a state
in which garbage was collected can make it undefined. -/
theorem c28_save_load_partial {c c' : Cfg} (hc : RightAnswers c) (hc' : RightAnswers c') (ops ops' : List Op)
    (s t : St) (hs ht : List Edge) (h : run c ops St.init [] = some (s, hs)) (h' : run c' ops' St.init [] = some (t, ht))
    (is : List Nat) (hn : ∀ i ∈ is, ∀ j n, Reach s (hget hs i).idx j → (s.nd j).node = .var n → NameOK n) :
    ∃ lines, saveLines s (is.map (hget hs)) = some lines ∧ ∃ bs, saveBexprs s (is.map (hget hs)) = some bs ∧
      (lines.length + 2 < 2 ^ 31 →
        (∃ t' rs, loadBexprs c' t bs = some (.ok t' rs) ∧
          Each (Means t') rs (is.map (fget (specRun ops []))) ∧ Each (Means t') ht (specRun ops' [])) ∨
        (loadBexprs c' t bs = none ∧ ∃ ch ∈ t.sigs, 0 ∈ ch)) := by
  obtain ⟨hi, hm⟩ := run_spec hc ops inv_init (by trivial : Each (Means St.init) [] []) h
  obtain ⟨it, hmt⟩ := run_spec hc' ops' inv_init (by trivial : Each (Means St.init) [] []) h'
  have h2 : Each (Means s) (is.map (hget hs)) (is.map (fget (specRun ops []))) := by
    clear hn
    induction is with
    | nil => trivial
    | cons i is ih => exact ⟨hget_means hi hm i, ih⟩
  obtain ⟨lines, h3, bs, h4, h5⟩ := save_load hc' hi it h2 (by
    intro e he j n
    obtain ⟨i, hi', rfl⟩ := List.mem_map.1 he
    exact hn i hi' j n)
  refine ⟨lines, h3, bs, h4, fun hl => ?_⟩
  rcases h5 hl with ⟨t', rs, a, _, b, d⟩ | ⟨a, b⟩
  · exact .inl ⟨t', rs, a, d, each_mono (fun _ _ hx => b.means hx) hmt⟩
  · refine .inr ⟨a, ?_⟩
    unfold Safe at b
    refine Classical.byContradiction fun hx => b (.inr fun ch hch h0 => hx ⟨ch, hch, h0⟩)

/-- C28 is violated for names with white space: of the saved variables `x v y` and `z` the second comes back as
`y`. -/
theorem c28_blank : ¬ ∀ c : Cfg, RightAnswers c → ∀ (ops : List Op) (s : St) (hs : List Edge),
    run c ops St.init [] = some (s, hs) → ∀ (is : List Nat) (bs : Bytes), saveBexprs s (is.map (hget hs)) = some bs →
    ∀ t' rs, loadBexprs c St.init bs = some (.ok t' rs) → Each (Means t') rs (is.map (fget (specRun ops []))) := by
  intro h
  have h1 := h cfg0 cfg0_right [.var [120, 32, 118, 32, 121], .var [122]] _ _ rfl [1, 0] _ rfl _ _ rfl
  obtain ⟨_, ⟨g, hg, hf⟩, _⟩ := h1
  have hd : g = fun ρ : Env => ρ [121] := den_det hg (.var (by decide +kernel))
  have := congrFun hf fun n => n == [121]
  rw [hd] at this
  exact absurd this (by decide +kernel)

/-- C28 is violated for a file that holds no saved expressions: loading succeeds with the empty list. -/
theorem c28_header (c : Cfg) (s : St) : loadBexprs c s [72, 101, 108, 108, 111] = some (.ok s []) := rfl

-- three roots that share nodes, with negations and constants; loaded into a state with other nodes
example : NameOK [97] ∧ NameOK [98, 95, 49] := by
  refine ⟨⟨by simp, by decide, by decide⟩, by simp, by decide, by decide⟩
example : ((run cfg0 [.var [97], .var [98], .and 1 0, .or 2 1, .xor 0 1, .const false] St.init []).bind fun x =>
    (saveBexprs x.1 ([1, 0, 2].map (hget x.2))).bind fun bs =>
    (run cfg0 [.var [98], .var [99], .and 0 1] St.init []).bind fun y =>
    (loadBexprs cfg0 y.1 bs).map fun r => match r with
      | .ok _ rs => rs.length
      | .fail => 0) = some 3 := by decide +kernel

/-! ### C50: the conditional -/

/-- What an expression with conditionals denotes. -/
def ExMeans (s : St) : Ex → Fn → Prop
  | .leaf e, f => Means s e f
  | .ite x a b, f => ∃ fx fa fb, ExMeans s x fx ∧ ExMeans s a fa ∧ ExMeans s b fb ∧
      f = fun ρ => if fx ρ then fa ρ else fb ρ

theorem exMeans_grow {s s' : St} (hg : Grow s s') : ∀ {x : Ex} {f : Fn}, ExMeans s x f → ExMeans s' x f := by
  intro x
  induction x with
  | leaf e => intro f h; exact hg.means h
  | ite x a b ih1 ih2 ih3 =>
    rintro f ⟨fx, fa, fb, h1, h2, h3, rfl⟩
    exact ⟨fx, fa, fb, ih1 h1, ih2 h2, ih3 h3, rfl⟩

/-- C50 (partial: no conditional that is still to be evaluated in a branch).  The result denotes the conditional. -/
theorem c50_flat_partial {c : Cfg} (hc : RightAnswers c) (x : Ex) (hx : x.flat = true) : ∀ (s s' : St) (cond cond' e : Edge)
    (f : Fn), Inv s → ExMeans s x f → evalEx c x s cond = some (s', cond', e) →
    Inv s' ∧ Grow s s' ∧ Means s' e f := by
  induction x with
  | leaf e => intro s s' cond cond' e' f hi hm h; cases h; exact ⟨hi, Grow.refl s, hm⟩
  | ite x a b ih _ _ =>
    cases a with
    | ite _ _ _ => cases b <;> simp [Ex.flat] at hx
    | leaf a =>
      cases b with
      | ite _ _ _ => simp [Ex.flat] at hx
      | leaf b =>
        intro s s' cond cond' e f hi hm h
        obtain ⟨fx, fa, fb, h1, h2, h3, rfl⟩ := hm
        simp only [evalEx, Option.bind_eq_bind] at h
        cases he : evalEx c x s cond with
        | none => rw [he] at h; cases h
        | some y =>
          obtain ⟨s1, c1, v⟩ := y
          obtain ⟨i1, g1, m1⟩ := ih hx s s1 cond c1 v fx hi h1 he
          rw [he] at h
          simp only [Option.bind_some] at h
          have h2' : Means s1 a fa := g1.means h2
          have h3' : Means s1 b fb := g1.means h3
          split at h
          · rename_i hv; subst hv; cases h
            refine ⟨i1, g1, ?_⟩
            have : (fun ρ => if fx ρ then fa ρ else fb ρ) = fa := by
              funext ρ; rw [means_true i1 m1]; simp
            rw [this]; exact h2'
          split at h
          · rename_i hv; subst hv; cases h
            refine ⟨i1, g1, ?_⟩
            have : (fun ρ => if fx ρ then fa ρ else fb ρ) = fb := by
              funext ρ; rw [means_false i1 m1]; simp
            rw [this]; exact h3'
          cases h4 : beAnd c s1 v a with
          | none => rw [h4] at h; cases h
          | some y =>
            obtain ⟨s2, p⟩ := y
            obtain ⟨i2, g2, m2⟩ := beAnd_spec hc i1 m1 h2' h4
            rw [h4] at h
            simp only [Option.bind_some] at h
            cases h5 : beAnd c s2 v.not b with
            | none => rw [h5] at h; cases h
            | some y =>
              obtain ⟨s3, q⟩ := y
              obtain ⟨i3, g3, m3⟩ := beAnd_spec hc i2 (means_not (g2.means m1)) (g2.means h3') h5
              rw [h5] at h
              simp only [Option.bind_some] at h
              cases h6 : beOr c s3 p q with
              | none => rw [h6] at h; cases h
              | some y =>
                obtain ⟨s4, r⟩ := y
                obtain ⟨i4, g4, m4⟩ := beOr_spec hc i3 (g3.means m2) m3 h6
                rw [h6] at h
                cases h
                refine ⟨i4, ((g1.trans g2).trans g3).trans g4, ?_⟩
                have : (fun ρ => if fx ρ then fa ρ else fb ρ) = fun ρ => (fx ρ && fa ρ) || (!fx ρ && fb ρ) := by
                  funext ρ; cases fx ρ <;> simp
                rw [this]; exact m4

/-- C50 is violated: the inner condition replaces the outer one.  `IF a THEN (IF b THEN 1 ELSE 0) ELSE 0` comes out as
`b`. -/
theorem c50_nested : ¬ ∀ c : Cfg, RightAnswers c → ∀ (ops : List Op) (s : St) (hs : List Edge),
    run c ops St.init [] = some (s, hs) → ∀ (x : Ex) (s' : St) (cond' e : Edge) (f : Fn), ExMeans s x f →
    evalEx c x s bF = some (s', cond', e) → Means s' e f := by
  intro h
  have hi := (run_spec cfg0_right [.var [97], .var [98]] inv_init (by trivial : Each (Means St.init) [] [])
    (s' := (beVar (beVar St.init [97]).1 [98]).1) rfl).1
  have ha : Means (beVar (beVar St.init [97]).1 [98]).1 ⟨false, 1⟩ fun ρ => ρ [97] :=
    ⟨_, .var (n := [97]) (by decide +kernel), by simp⟩
  have hb : Means (beVar (beVar St.init [97]).1 [98]).1 ⟨false, 2⟩ fun ρ => ρ [98] :=
    ⟨_, .var (n := [98]) (by decide +kernel), by simp⟩
  have h1 := h cfg0 cfg0_right [.var [97], .var [98]] _ _ rfl
    (.ite (.leaf ⟨false, 1⟩) (.ite (.leaf ⟨false, 2⟩) (.leaf bT) (.leaf bF)) (.leaf bF)) _ _ _
    (fun ρ => if ρ [97] then (if ρ [98] then true else false) else false)
    ⟨fun ρ => ρ [97], fun ρ => if ρ [98] then true else false, fun _ => false, ha,
      ⟨fun ρ => ρ [98], fun _ => true, fun _ => false, hb, means_one hi, means_zero hi, rfl⟩, means_zero hi, rfl⟩ rfl
  obtain ⟨g, hg, hf⟩ := h1
  have hd : g = fun ρ : Env => ρ [98] := den_det hg (.var (by decide +kernel))
  have := congrFun hf fun n => n == [98]
  rw [hd] at this
  exact absurd this (by decide +kernel)

example : (Ex.ite (.ite (.leaf ⟨false, 1⟩) (.leaf ⟨false, 2⟩) (.leaf bF)) (.leaf ⟨true, 2⟩) (.leaf bT)).flat = true := rfl

/-! ### C51: change detection -/

/-- C51 (partial: expressions with different signatures).  Unequal expressions are reported as different. -/
theorem c51_signature_partial (s : St) (a b : Edge) (h : a ≠ b)
    (hs : (s.nd a.idx).sig ≠ (s.nd b.idx).sig ∨ a = b.not) : beNeq s a b = true := by
  unfold beNeq
  rw [if_neg h]
  rcases hs with hs | hs
  · split
    · rfl
    · simpa using hs
  · rw [if_pos hs]

/-- C51: equal expressions are never reported as different. -/
theorem c51_same (s : St) (a : Edge) : beNeq s a a = false := by simp [beNeq]

/-- Both conjunctions of the four variables have the same signature. -/
def sameSigOps : List Op :=
  [.var [97], .var [98], .var [120], .var [121], .nand 3 1, .nand 3 1, .and 1 0, .nand 6 5, .nand 5 4, .and 1 0]

/-- C51 is violated: the signature of a conjunction does not change when the inner operands are exchanged, so
`(a x)' (b y)'` and `(a b)' (x y)'` are reported as equal. -/
theorem c51_missed : ¬ ∀ c : Cfg, RightAnswers c → ∀ (ops : List Op) (s : St) (hs : List Edge),
    run c ops St.init [] = some (s, hs) → ∀ i j, fget (specRun ops []) i ≠ fget (specRun ops []) j →
    beNeq s (hget hs i) (hget hs j) = true := by
  intro h
  have hd : ((run cfg0 sameSigOps St.init []).map fun x => beNeq x.1 (hget x.2 0) (hget x.2 3)) = some false := by
    decide +kernel
  cases hr : run cfg0 sameSigOps St.init [] with
  | none => rw [hr] at hd; cases hd
  | some x =>
    rw [hr] at hd
    have h1 := h cfg0 cfg0_right sameSigOps x.1 x.2 hr 0 3 (by
      intro he
      exact absurd (congrFun he fun n => n == [97] || n == [120]) (by decide +kernel))
    rw [Option.map_some, h1] at hd
    cases hd

example : beNeq St.init bT bF = true := rfl

end Voss.Bexpr
