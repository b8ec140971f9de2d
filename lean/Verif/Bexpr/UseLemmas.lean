import Verif.Bexpr.GcLemmas
/- Substitution, conversion to and from BDDs, queries. -/
namespace Voss.Bexpr

/-! ### Substitution -/

/-- `E` gives every variable the value of what is substituted for it. -/
def SubOK (s : St) (sub : Name → Option Edge) (E : Env → Env) : Prop :=
  ∀ n, (∀ e, sub n = some e → Means s e (fun ρ => E ρ n)) ∧ (sub n = none → ∀ ρ, E ρ n = ρ n)

def MemoOK (s : St) (E : Env → Env) (m : Memo) : Prop :=
  ∀ p ∈ m, ∃ f, Den s p.1 f ∧ Means s p.2 (fun ρ => f (E ρ))

theorem SubOK.grow {s s' : St} {sub : Name → Option Edge} {E : Env → Env} (h : SubOK s sub E) (hg : Grow s s') :
    SubOK s' sub E :=
  fun n => ⟨fun e he => hg.means ((h n).1 e he), (h n).2⟩

theorem MemoOK.grow {s s' : St} {E : Env → Env} {m : Memo} (h : MemoOK s E m) (hg : Grow s s') : MemoOK s' E m := by
  intro p hp
  obtain ⟨f, h1, h2⟩ := h p hp
  exact ⟨f, hg.den h1, hg.means h2⟩

theorem memo_find {s : St} (hi : Inv s) {E : Env → Env} {m : Memo} (h : MemoOK s E m) {i : Nat} {r : Edge}
    (hf : m.find s i = some r) {f : Fn} (hd : Den s i f) : Means s r (fun ρ => f (E ρ)) := by
  unfold Memo.find at hf
  rw [Option.map_eq_some_iff] at hf
  obtain ⟨p, hp, rfl⟩ := hf
  have h1 := List.find?_some hp
  obtain ⟨g, hg, hm⟩ := h p (List.mem_of_find?_eq_some hp)
  have : p.1 = i := hi.inj _ _ (den_live hg) (by simpa using h1)
  rw [this] at hg
  rw [den_det hd hg]
  exact hm

theorem beSubst_spec {c : Cfg} (hc : RightAnswers c) {sub : Name → Option Edge} {E : Env → Env} :
    ∀ fuel {s s' : St} {m m' : Memo} {e r : Edge} {f : Fn}, Inv s → SubOK s sub E → MemoOK s E m → Means s e f →
    beSubst c sub fuel s m e = some (s', m', r) →
    Inv s' ∧ Grow s s' ∧ MemoOK s' E m' ∧ Means s' r (fun ρ => f (E ρ)) := by
  intro fuel
  induction fuel with
  | zero => intro s s' m m' e r f _ _ _ _ h; cases h
  | succ fuel ih =>
    intro s s' m m' e r f hi hs hm he h
    simp only [beSubst] at h
    split at h
    · rename_i hcst
      cases h
      refine ⟨hi, Grow.refl s, hm, ?_⟩
      rcases hcst with rfl | rfl
      · have : (fun ρ => f (E ρ)) = f := by funext ρ; rw [means_true hi he, means_true hi he]
        rw [this]; exact he
      · have : (fun ρ => f (E ρ)) = f := by funext ρ; rw [means_false hi he, means_false hi he]
        rw [this]; exact he
    · obtain ⟨g, hg, rfl⟩ := he
      cases hfd : m.find s e.idx with
      | some q =>
        rw [hfd] at h
        cases h
        exact ⟨hi, Grow.refl s, hm, means_xorNeg (memo_find hi hm hfd hg)⟩
      | none =>
        rw [hfd] at h
        simp only at h
        cases hg with
        | one h1 => rw [h1] at h; cases h
        | @var _ n h1 =>
          rw [h1] at h
          simp only at h
          cases hsn : sub n with
          | some q =>
            rw [hsn] at h
            cases h
            exact ⟨hi, Grow.refl s, hm, means_xorNeg ((hs n).1 q hsn)⟩
          | none =>
            rw [hsn] at h
            cases h
            refine ⟨hi, Grow.refl s, hm, _, .var h1, ?_⟩
            funext ρ; simp only [(hs n).2 hsn ρ]
        | @and _ l r0 fl fr h1 hl hr =>
          rw [h1] at h
          simp only [Option.bind_eq_bind] at h
          have hml : Means s l (fun ρ => fl ρ ^^ l.neg) := ⟨fl, hl, rfl⟩
          have hmr : Means s r0 (fun ρ => fr ρ ^^ r0.neg) := ⟨fr, hr, rfl⟩
          cases h2 : beSubst c sub fuel s m l with
          | none => rw [h2] at h; cases h
          | some x =>
            obtain ⟨s1, m1, nl⟩ := x
            rw [h2] at h
            simp only [Option.bind_some] at h
            obtain ⟨i1, g1, o1, q1⟩ := ih hi hs hm hml h2
            cases h3 : beSubst c sub fuel s1 m1 r0 with
            | none => rw [h3] at h; cases h
            | some y =>
              obtain ⟨s2, m2, nr⟩ := y
              rw [h3] at h
              simp only [Option.bind_some] at h
              obtain ⟨i2, g2, o2, q2⟩ := ih i1 (hs.grow g1) o1 (g1.means hmr) h3
              have g12 := g1.trans g2
              have hden : Den s2 e.idx (fun ρ => (fl ρ ^^ l.neg) && (fr ρ ^^ r0.neg)) := g12.den (.and h1 hl hr)
              have hq1 := g2.means q1
              split at h
              · rename_i hsame
                obtain ⟨rfl, rfl⟩ := hsame
                cases h
                have a1 := means_det (g12.means hml) hq1
                have a2 := means_det (g12.means hmr) q2
                have hself : Means s' ⟨false, e.idx⟩
                    (fun ρ => (fl (E ρ) ^^ l.neg) && (fr (E ρ) ^^ r0.neg)) := by
                  refine ⟨_, hden, ?_⟩
                  funext ρ
                  have b1 := congrFun a1 ρ
                  have b2 := congrFun a2 ρ
                  rw [← b1, ← b2]; simp
                refine ⟨i2, g12, ?_, means_xorNeg hself⟩
                intro p hp
                rcases List.mem_cons.1 hp with rfl | hp
                · exact ⟨_, hden, hself⟩
                · exact o2 p hp
              · cases h4 : beAnd c s2 nl nr with
                | none => rw [h4] at h; cases h
                | some z =>
                  obtain ⟨s3, res⟩ := z
                  rw [h4] at h
                  simp only [Option.bind_some] at h
                  cases h
                  obtain ⟨i3, g3, q3⟩ := beAnd_spec hc i2 hq1 q2 h4
                  refine ⟨i3, g12.trans g3, ?_, means_xorNeg q3⟩
                  intro p hp
                  rcases List.mem_cons.1 hp with rfl | hp
                  · exact ⟨_, g3.den hden, q3⟩
                  · exact (o2.grow g3) p hp

theorem each_mono {α β : Type} {R S : α → β → Prop} (h : ∀ a b, R a b → S a b) : ∀ {as : List α} {bs : List β},
    Each R as bs → Each S as bs
  | [], [], _ => trivial
  | _ :: _, _ :: _, ⟨h1, h2⟩ => ⟨h _ _ h1, each_mono h h2⟩
  | [], _ :: _, h1 => h1.elim
  | _ :: _, [], h1 => h1.elim

theorem each_append {α β : Type} {R : α → β → Prop} : ∀ {as as' : List α} {bs bs' : List β},
    Each R as bs → Each R as' bs' → Each R (as ++ as') (bs ++ bs')
  | [], _, [], _, _, h => h
  | _ :: _, _, _ :: _, _, ⟨h1, h2⟩, h => ⟨h1, each_append h2 h⟩
  | [], _, _ :: _, _, h1, _ => h1.elim
  | _ :: _, _, [], _, h1, _ => h1.elim

theorem each_get {α β : Type} {R : α → β → Prop} : ∀ {as : List α} {bs : List β}, Each R as bs → ∀ {a0 b0},
    R a0 b0 → ∀ i : Nat, R ((as[i]?).getD a0) ((bs[i]?).getD b0)
  | [], [], _, _, _, h0, i => by simpa using h0
  | a :: as, b :: bs, ⟨h1, h2⟩, _, _, h0, i => by
    cases i with
    | zero => simpa using h1
    | succ i => simpa using each_get h2 h0 i
  | [], _ :: _, h1, _, _, _, _ => h1.elim
  | _ :: _, [], h1, _, _, _, _ => h1.elim

theorem beSubstList_spec {c : Cfg} (hc : RightAnswers c) {sub : Name → Option Edge} {E : Env → Env}
    (es : List Edge) : ∀ {s s' : St} {m : Memo} {rs : List Edge} {fs : List Fn}, Inv s → SubOK s sub E →
    MemoOK s E m → Each (Means s) es fs → beSubstList c sub s m es = some (s', rs) →
    Inv s' ∧ Grow s s' ∧ Each (Means s') rs (fs.map fun f ρ => f (E ρ)) := by
  induction es with
  | nil =>
    intro s s' m rs fs hi hs hm he h
    cases h
    cases fs with
    | nil => exact ⟨hi, Grow.refl s, trivial⟩
    | cons _ _ => exact he.elim
  | cons e es ih =>
    intro s s' m rs fs hi hs hm he h
    cases fs with
    | nil => exact he.elim
    | cons f fs =>
      obtain ⟨h1, h2⟩ := he
      simp only [beSubstList, Option.bind_eq_bind] at h
      cases h3 : beSubst c sub ((s.nd e.idx).sat + 1) s m e with
      | none => rw [h3] at h; cases h
      | some x =>
        obtain ⟨s1, m1, r⟩ := x
        rw [h3] at h
        simp only [Option.bind_some] at h
        obtain ⟨i1, g1, o1, q1⟩ := beSubst_spec hc _ hi hs hm h1 h3
        cases h4 : beSubstList c sub s1 m1 es with
        | none => rw [h4] at h; cases h
        | some y =>
          obtain ⟨s2, rs'⟩ := y
          rw [h4] at h
          simp only [Option.bind_some] at h
          cases h
          obtain ⟨i2, g2, q2⟩ := ih i1 (hs.grow g1) o1 (each_mono (fun _ _ hx => g1.means hx) h2) h4
          exact ⟨i2, g1.trans g2, g2.means q1, q2⟩

theorem substTbl_spec : ∀ (ps t : List (Name × Edge)),
    substTbl ps t = if (ps.map (·.1)).Nodup ∧ ∀ p ∈ ps, ∀ q ∈ t, q.1 ≠ p.1 then some (ps.reverse ++ t) else none := by
  intro ps
  induction ps with
  | nil => intro t; simp [substTbl]
  | cons p ps ih =>
    obtain ⟨n, e⟩ := p
    intro t
    simp only [substTbl]
    by_cases ha : t.any (fun p => p.1 == n) = true
    · rw [if_pos ha, if_neg]
      rintro ⟨_, h2⟩
      obtain ⟨q, hq, hqe⟩ := List.any_eq_true.1 ha
      exact h2 (n, e) (by simp) q hq (by simpa using hqe)
    · rw [if_neg ha, ih]
      have hnot : ∀ q ∈ t, q.1 ≠ n := by
        intro q hq hqe
        exact ha (List.any_eq_true.2 ⟨q, hq, by simpa using hqe⟩)
      have hiff : ((ps.map (·.1)).Nodup ∧ ∀ p ∈ ps, ∀ q ∈ (n, e) :: t, q.1 ≠ p.1) ↔
          ((((n, e) :: ps).map (·.1)).Nodup ∧ ∀ p ∈ (n, e) :: ps, ∀ q ∈ t, q.1 ≠ p.1) := by
        simp only [List.map_cons, List.nodup_cons, List.mem_map, not_exists, not_and]
        constructor
        · rintro ⟨h1, h2⟩
          refine ⟨⟨fun p hp he => h2 p hp (n, e) (by simp) he.symm, h1⟩, ?_⟩
          intro p hp q hq
          rcases List.mem_cons.1 hp with rfl | hp
          · exact hnot q hq
          · exact h2 p hp q (by simp [hq])
        · rintro ⟨⟨h1, h2⟩, h3⟩
          refine ⟨h2, fun p hp q hq => ?_⟩
          rcases List.mem_cons.1 hq with rfl | hq
          · exact fun he => h1 p hp he.symm
          · exact h3 p (by simp [hp]) q hq
      simp only [hiff, List.reverse_cons, List.append_assoc, List.cons_append, List.nil_append]

theorem find_reverse {β : Type} : ∀ (ps : List (Name × β)), (ps.map (·.1)).Nodup → ∀ n,
    ps.reverse.find? (fun p => p.1 == n) = ps.find? (fun p => p.1 == n) := by
  intro ps
  induction ps with
  | nil => intro _ n; rfl
  | cons p ps ih =>
    intro h n
    simp only [List.map_cons, List.nodup_cons] at h
    rw [List.reverse_cons, List.find?_append, ih h.2]
    simp only [List.find?_cons, List.find?_nil]
    by_cases hp : p.1 = n
    · have : ps.find? (fun p => p.1 == n) = none := by
        rw [List.find?_eq_none]
        intro q hq hqe
        refine h.1 (List.mem_map.2 ⟨q, hq, ?_⟩)
        rw [hp]; simpa using hqe
      rw [this]; simp [hp]
    · have : (p.1 == n) = false := by simpa using hp
      simp [this]

theorem subOK_reverse {s : St} {sub : List (Name × Edge)} {subF : List (Name × Fn)}
    (hsub : Each (fun p q => p.1 = q.1 ∧ Means s p.2 q.2) sub subF) (hnd : (sub.map (·.1)).Nodup) :
    SubOK s (tblFind sub.reverse) (substEnv subF) := by
  intro n
  unfold tblFind substEnv
  rw [find_reverse sub hnd]
  have : ∀ (sub : List (Name × Edge)) (subF : List (Name × Fn)),
      Each (fun p q => p.1 = q.1 ∧ Means s p.2 q.2) sub subF →
      (∃ p q, sub.find? (fun p => p.1 == n) = some p ∧ subF.find? (fun p => p.1 == n) = some q ∧ Means s p.2 q.2) ∨
      (sub.find? (fun p => p.1 == n) = none ∧ subF.find? (fun p => p.1 == n) = none) := by
    intro sub
    induction sub with
    | nil => intro subF h; cases subF with
      | nil => exact .inr ⟨rfl, rfl⟩
      | cons _ _ => exact h.elim
    | cons p ps ih =>
      intro subF h
      cases subF with
      | nil => exact h.elim
      | cons q qs =>
        obtain ⟨⟨h1, h2⟩, h3⟩ := h
        simp only [List.find?_cons]
        by_cases hp : p.1 = n
        · left
          refine ⟨p, q, by simp [hp], by simp [← h1, hp], h2⟩
        · have e1 : (p.1 == n) = false := by simpa using hp
          have e2 : (q.1 == n) = false := by rw [← h1]; exact e1
          rw [e1, e2]
          exact ih qs h3
  rcases this sub subF hsub with ⟨p, q, h1, h2, h3⟩ | ⟨h1, h2⟩
  · rw [h1, h2]
    refine ⟨fun e he => ?_, fun he => (by cases he)⟩
    cases he
    exact h3
  · rw [h1, h2]
    exact ⟨fun e he => (by cases he), fun _ ρ => rfl⟩

theorem substTbl_subOK {s : St} {sub : List (Name × Edge)} {subF : List (Name × Fn)} {t : List (Name × Edge)}
    (hsub : Each (fun p q => p.1 = q.1 ∧ Means s p.2 q.2) sub subF) (ht : substTbl sub [] = some t) :
    SubOK s (tblFind t) (substEnv subF) := by
  rw [substTbl_spec] at ht
  split at ht
  · rename_i h
    simp only [List.append_nil, Option.some.injEq] at ht
    subst ht
    exact subOK_reverse hsub h.1
  · cases ht

/-- The whole of `bsubstitute`. -/
theorem bsubstitute_spec {c : Cfg} (hc : RightAnswers c) {s : St} (hi : Inv s) {sub : List (Name × Edge)}
    {subF : List (Name × Fn)} (hsub : Each (fun p q => p.1 = q.1 ∧ Means s p.2 q.2) sub subF) {es : List Edge}
    {fs : List Fn} (hes : Each (Means s) es fs) {r : SubstRes} (h : bsubstitute c s sub es = some r) :
    if (sub.map (·.1)).Nodup then
      ∃ s' rs, r = .ok s' rs ∧ Inv s' ∧ Grow s s' ∧ Each (Means s') rs (fs.map fun f ρ => f (substEnv subF ρ))
    else r = .fail := by
  unfold bsubstitute at h
  rw [substTbl_spec] at h
  by_cases hnd : (sub.map (·.1)).Nodup
  · rw [if_pos hnd]
    rw [if_pos ⟨hnd, by simp⟩] at h
    simp only [List.append_nil, Option.bind_eq_bind] at h
    have hok : SubOK s (tblFind sub.reverse) (substEnv subF) := subOK_reverse hsub hnd
    cases h1 : beSubstList c (tblFind sub.reverse) s [] es with
    | none => rw [h1] at h; cases h
    | some x =>
      obtain ⟨s', rs⟩ := x
      rw [h1] at h
      simp only [Option.bind_some] at h
      cases h
      obtain ⟨a, b, d⟩ := beSubstList_spec hc es hi hok (by intro p hp; simp at hp) hes h1
      exact ⟨s', rs, rfl, a, b, d⟩
  · rw [if_neg hnd]
    rw [if_neg (fun hh => hnd hh.1)] at h
    simp only [Option.some.injEq] at h
    exact h.symm

/-! ### The encoding -/

/-- The values of the variables in an assignment of the solver. -/
def envOf (s : St) (σ : Nat → Bool) : Env := fun n =>
  match findUniq s (.var n) with
  | some i => σ (s.nd i).sat
  | none => false

theorem envOf_var {s : St} (h : Inv s) (σ : Nat → Bool) {i : Nat} {n : Name} (hd : (s.nd i).node = .var n) :
    envOf s σ n = σ (s.nd i).sat := by
  unfold envOf
  cases hf : findUniq s (.var n) with
  | none => exact absurd hd (findUniq_none h (by simp) (by simp) hf i)
  | some j =>
    have := h.inj i j (by unfold St.live; rw [hd]; simp) (by rw [hd, (findUniq_some hf).2])
    rw [this]

theorem den_value {s : St} (h : Inv s) {σ : Nat → Bool} (hσ : Sat σ s.clauses []) {i : Nat} {f : Fn}
    (hd : Den s i f) : i ≠ 0 → σ (s.nd i).sat = f (envOf s σ) := by
  induction hd with
  | one h1 => intro h0; exact absurd (h.oneOnly _ h1) h0
  | var h1 => intro _; simp only [envOf_var h σ h1]
  | and h1 _ _ ih1 ih2 =>
    intro _
    obtain ⟨⟨_, a, _⟩, _, b, _⟩ := h.kids _ _ _ h1
    rw [andClauses_iff (h.andCls _ _ _ h1) hσ, holds_lit, holds_lit, ih1 a, ih2 b]

/-- Literal values in any assignment satisfying the clauses. -/
theorem means_value {s : St} (h : Inv s) {σ : Nat → Bool} (hσ : Sat σ s.clauses []) {e : Edge} {f : Fn}
    (hm : Means s e f) (h0 : e.idx ≠ 0) : (s.lit e).holds σ = f (envOf s σ) := by
  obtain ⟨g, hg, rfl⟩ := hm
  rw [holds_lit, den_value h hσ hg h0]

theorem findModel_some {c : Cfg} {s s' : St} {as : List SLit} {a : Ans} (h : findModel c s as = some (s', a)) :
    Asked s s' ∧ a = c.solve s.queries s.clauses as := by
  unfold findModel at h
  split at h
  · cases h
  · simp only [ask, Option.some.injEq, Prod.mk.injEq] at h
    exact ⟨⟨_, h.1.symm⟩, h.2.symm⟩

theorem findModel_ne {c : Cfg} {s : St} (h : Inv s) {es : List Edge} (hes : ∀ e ∈ es, s.live e.idx ∧ e.idx ≠ 0) :
    findModel c s (es.map s.lit) ≠ none := by
  unfold findModel
  rw [if_neg]
  · simp
  · intro ha
    obtain ⟨a, ha, h0⟩ := List.any_eq_true.1 ha
    obtain ⟨e, he, rfl⟩ := List.mem_map.1 ha
    have := (h.satRange _ (hes e he).1 (hes e he).2).1
    have h0' : (s.nd e.idx).sat = 0 := by simpa [St.lit] using h0
    omega

theorem bexprIsUnsat_spec {c : Cfg} (hc : RightAnswers c) {s s' : St} (h : Inv s) {e : Edge} {f : Fn}
    (hm : Means s e f) {b : Bool} (he : bexprIsUnsat c s e = some (s', b)) :
    Asked s s' ∧ (b = true → ∀ ρ, f ρ = false) ∧
      (b = false → (∃ ρ, f ρ = true) ∨ c.solve s.queries s.clauses [s.lit e] = .undef) := by
  unfold bexprIsUnsat at he
  split at he
  · rename_i h1; subst h1; cases he
    exact ⟨Asked.refl s, fun _ => means_false h hm, by simp⟩
  rename_i h1
  split at he
  · rename_i h2; subst h2; cases he
    exact ⟨Asked.refl s, by simp, fun _ => .inl ⟨fun _ => false, means_true h hm _⟩⟩
  rename_i h2
  have h0 : e.idx ≠ 0 := fun h0 => by
    rcases edge_const h0 with h | h
    · exact h2 h
    · exact h1 h
  simp only [Option.bind_eq_bind] at he
  cases hf : findModel c s [s.lit e] with
  | none => rw [hf] at he; cases he
  | some x =>
    obtain ⟨s1, a⟩ := x
    rw [hf] at he
    simp only [Option.bind_some] at he
    obtain ⟨ha, hans⟩ := findModel_some hf
    cases a with
    | unsat =>
      cases he
      refine ⟨ha, fun _ ρ => ?_, by simp⟩
      cases hv : f ρ with
      | false => rfl
      | true =>
        exfalso
        obtain ⟨σ, t1, t2⟩ := h.ext ρ
        exact hc.unsat _ _ _ hans.symm ⟨σ, t1.1, by
          intro a ha
          simp only [List.mem_singleton] at ha
          subst ha
          rw [lit_value t2 hm h0, hv]⟩
    | sat σ =>
      cases he
      refine ⟨ha, by simp, fun _ => .inl ⟨envOf s σ, ?_⟩⟩
      have := hc.sat _ _ _ _ hans.symm
      rw [← means_value h ⟨this.1, by simp⟩ hm h0]
      exact this.2 _ (by simp)
    | undef =>
      cases he
      exact ⟨ha, by simp, fun _ => .inr hans.symm⟩

/-! ### Models -/

/-- A function depends only on the variables that can be reached. -/
theorem den_depends {s : St} {i : Nat} {f : Fn} (hd : Den s i f) {ρ ρ' : Env} :
    (∀ x n, Reach s i x → (s.nd x).node = .var n → ρ n = ρ' n) → f ρ = f ρ' := by
  induction hd with
  | one _ => intro _; rfl
  | var h1 => intro h; exact h _ _ (.refl _) h1
  | and h1 _ _ ih1 ih2 =>
    intro h
    simp only [ih1 fun x n hr hn => h x n (.left h1 hr) hn, ih2 fun x n hr hn => h x n (.right h1 hr) hn]

theorem satDepend_spec {s : St} (h : Inv s) : ∀ fuel i m vs, (s.nd i).sat < fuel →
    (∀ v ∈ vs, ∃ n, (s.nd v).node = .var n) → vs.Nodup →
    (∀ x ∈ m, x ∈ (satDepend s fuel i (m, vs)).1) ∧ (∀ x ∈ vs, x ∈ (satDepend s fuel i (m, vs)).2) ∧
    (satDepend s fuel i (m, vs)).2.Nodup ∧
    (∀ v ∈ (satDepend s fuel i (m, vs)).2, ∃ n, (s.nd v).node = .var n) ∧
    (i ≠ 0 → i ∈ (satDepend s fuel i (m, vs)).1) ∧
    ∀ x ∈ (satDepend s fuel i (m, vs)).1, x ∈ m ∨
      ((∀ l r, (s.nd x).node = .and l r → l.idx ∈ (satDepend s fuel i (m, vs)).1 ∧ r.idx ∈ (satDepend s fuel i (m, vs)).1) ∧
       ∀ n, (s.nd x).node = .var n → x ∈ (satDepend s fuel i (m, vs)).2) := by
  intro fuel
  induction fuel with
  | zero => intro i m vs hf; omega
  | succ fuel ih =>
    intro i m vs hf hvs hnd
    simp only [satDepend]
    split
    · rename_i hi
      refine ⟨fun x hx => hx, fun x hx => hx, hnd, hvs, fun h0 => ?_, fun x hx => .inl hx⟩
      rcases hi with hi | hi
      · exact absurd hi h0
      · exact hi
    · rename_i hi
      cases hd : (s.nd i).node with
      | var n =>
        simp only
        have key : ∀ ws : List Nat, ws = (if vs.any (fun j => (s.nd j).node == .var n) then vs else i :: vs) →
            (∀ x ∈ vs, x ∈ ws) ∧ ws.Nodup ∧ (∀ v ∈ ws, ∃ n, (s.nd v).node = .var n) ∧ i ∈ ws := by
          intro ws hws
          by_cases ha : vs.any (fun j => (s.nd j).node == .var n) = true
          · rw [if_pos ha] at hws
            subst hws
            refine ⟨fun x hx => hx, hnd, hvs, ?_⟩
            obtain ⟨j, hj, hje⟩ := List.any_eq_true.1 ha
            have : i = j := h.inj i j (by unfold St.live; rw [hd]; simp) (by rw [hd]; exact (by simpa using hje : _ = _).symm)
            rw [this]; exact hj
          · rw [if_neg ha] at hws
            subst hws
            refine ⟨fun x hx => by simp [hx], List.nodup_cons.2 ⟨fun hc => ha ?_, hnd⟩, ?_, by simp⟩
            · exact List.any_eq_true.2 ⟨i, hc, by simp [hd]⟩
            · intro v hv
              rcases List.mem_cons.1 hv with rfl | hv
              · exact ⟨n, hd⟩
              · exact hvs v hv
        obtain ⟨k1, k2, k3, k4⟩ := key _ rfl
        refine ⟨fun x hx => by simp [hx], k1, k2, k3, fun _ => by simp, fun x hx => ?_⟩
        rcases List.mem_cons.1 hx with rfl | hx
        · exact .inr ⟨fun l r he => (by rw [hd] at he; cases he), fun _ _ => k4⟩
        · exact .inl hx
      | and l r =>
        simp only
        obtain ⟨⟨_, l0, k1⟩, _, r0, k2⟩ := h.kids i l r hd
        obtain ⟨a1, a2, a3, a4, a5, a6⟩ := ih l.idx (i :: m) vs (by omega) hvs hnd
        obtain ⟨m1, vs1, hmv⟩ : ∃ m1 vs1, satDepend s fuel l.idx (i :: m, vs) = (m1, vs1) := ⟨_, _, rfl⟩
        rw [hmv] at a1 a2 a3 a4 a5 a6 ⊢
        obtain ⟨b1, b2, b3, b4, b5, b6⟩ := ih r.idx m1 vs1 (by omega) a4 a3
        refine ⟨fun x hx => b1 x (a1 x (by simp [hx])), fun x hx => b2 x (a2 x hx), b3, b4,
          fun _ => b1 i (a1 i (by simp)), fun x hx => ?_⟩
        rcases b6 x hx with hx | hx
        · rcases a6 x hx with hx | ⟨c1, c2⟩
          · rcases List.mem_cons.1 hx with rfl | hx
            · refine .inr ⟨fun l' r' he => ?_, fun n he => (by rw [hd] at he; cases he)⟩
              rw [hd] at he
              cases he
              exact ⟨b1 _ (a5 l0), b5 r0⟩
            · exact .inl hx
          · exact .inr ⟨fun l' r' he => ⟨b1 _ (c1 l' r' he).1, b1 _ (c1 l' r' he).2⟩, fun n he => b2 _ (c2 n he)⟩
        · exact .inr hx
      | free =>
        simp only
        refine ⟨fun x hx => by simp [hx], fun x hx => hx, hnd, hvs, fun _ => by simp, fun x hx => ?_⟩
        rcases List.mem_cons.1 hx with rfl | hx
        · exact .inr ⟨fun l r he => (by rw [hd] at he; cases he), fun n he => (by rw [hd] at he; cases he)⟩
        · exact .inl hx
      | one =>
        simp only
        refine ⟨fun x hx => by simp [hx], fun x hx => hx, hnd, hvs, fun _ => by simp, fun x hx => ?_⟩
        rcases List.mem_cons.1 hx with rfl | hx
        · exact .inr ⟨fun l r he => (by rw [hd] at he; cases he), fun n he => (by rw [hd] at he; cases he)⟩
        · exact .inl hx

/-- All variables of the expressions are found, each once. -/
theorem modelVars_spec {s : St} (h : Inv s) (es : List Edge) :
    (modelVars s es).Nodup ∧ (∀ v ∈ modelVars s es, ∃ n, (s.nd v).node = .var n) ∧
    ∀ e ∈ es, ∀ x n, Reach s e.idx x → (s.nd x).node = .var n → x ∈ modelVars s es := by
  have key : ∀ (es : List Edge) (m vs : List Nat), (∀ v ∈ vs, ∃ n, (s.nd v).node = .var n) → vs.Nodup →
      (∀ x ∈ m, (∀ l r, (s.nd x).node = .and l r → l.idx ∈ m ∧ r.idx ∈ m) ∧ ∀ n, (s.nd x).node = .var n → x ∈ vs) →
      ∃ m' vs', es.foldl (fun m e => satDepend s ((s.nd e.idx).sat + 1) e.idx m) (m, vs) = (m', vs') ∧
        vs'.Nodup ∧ (∀ v ∈ vs', ∃ n, (s.nd v).node = .var n) ∧ (∀ x ∈ m, x ∈ m') ∧
        (∀ e ∈ es, e.idx ≠ 0 → e.idx ∈ m') ∧
        ∀ x ∈ m', (∀ l r, (s.nd x).node = .and l r → l.idx ∈ m' ∧ r.idx ∈ m') ∧ ∀ n, (s.nd x).node = .var n → x ∈ vs' := by
    intro es
    induction es with
    | nil => intro m vs hv hn hcl; exact ⟨m, vs, rfl, hn, hv, fun x hx => hx, by simp, hcl⟩
    | cons e es ih =>
      intro m vs hv hn hcl
      obtain ⟨a1, a2, a3, a4, a5, a6⟩ := satDepend_spec h ((s.nd e.idx).sat + 1) e.idx m vs (by omega) hv hn
      obtain ⟨m1, vs1, hmv⟩ : ∃ m1 vs1, satDepend s ((s.nd e.idx).sat + 1) e.idx (m, vs) = (m1, vs1) := ⟨_, _, rfl⟩
      rw [hmv] at a1 a2 a3 a4 a5 a6
      obtain ⟨m', vs', b1, b2, b3, b4, b5, b6⟩ := ih m1 vs1 a4 a3 (by
        intro x hx
        rcases a6 x hx with hx | hx
        · obtain ⟨c1, c2⟩ := hcl x hx
          exact ⟨fun l r hd => ⟨a1 _ (c1 l r hd).1, a1 _ (c1 l r hd).2⟩, fun n hd => a2 _ (c2 n hd)⟩
        · exact hx)
      refine ⟨m', vs', by rw [List.foldl_cons, hmv]; exact b1, b2, b3, fun x hx => b4 x (a1 x hx), ?_, b6⟩
      intro e' he' h0
      rcases List.mem_cons.1 he' with rfl | he'
      · exact b4 _ (a5 h0)
      · exact b5 e' he' h0
  obtain ⟨m', vs', b1, b2, b3, _, b5, b6⟩ := key es [] [] (by simp) (by simp) (by simp)
  have hmv : modelVars s es = vs' := by unfold modelVars; rw [b1]
  rw [hmv]
  refine ⟨b2, b3, fun e he x n hr hx => ?_⟩
  have hcl : ∀ i j, Reach s i j → i ∈ m' → j ∈ m' := by
    intro i j hr
    induction hr with
    | refl => exact id
    | left h1 _ ih => intro hi; exact ih ((b6 _ hi).1 _ _ h1).1
    | right h1 _ ih => intro hi; exact ih ((b6 _ hi).1 _ _ h1).2
  by_cases h0 : e.idx = 0
  · exfalso
    rw [h0] at hr
    cases hr with
    | refl => rw [h.root.1] at hx; cases hx
    | left h1 _ => rw [h.root.1] at h1; cases h1
    | right h1 _ => rw [h.root.1] at h1; cases h1
  · exact (b6 x (hcl _ _ hr (b5 e he h0))).2 n hx

/-- Every expression that is not constant contains a variable. -/
theorem reach_var {s : St} (h : Inv s) {i : Nat} {f : Fn} (hd : Den s i f) : i ≠ 0 →
    ∃ x n, Reach s i x ∧ (s.nd x).node = .var n := by
  induction hd with
  | one h1 => intro h0; exact absurd (h.oneOnly _ h1) h0
  | var h1 => intro _; exact ⟨_, _, .refl _, h1⟩
  | and h1 _ _ ih1 _ =>
    intro _
    obtain ⟨x, n, hr, hn⟩ := ih1 (h.kids _ _ _ h1).1.2.1
    exact ⟨x, n, .left h1 hr, hn⟩

theorem bgetModel_spec {c : Cfg} (hc : RightAnswers c) {s s' : St} (h : Inv s) {es : List Edge} {fs : List Fn}
    (hm : Each (Means s) es fs) {r : ModelRes} (hr : bgetModel c s es = some (s', r)) :
    Asked s s' ∧ ModelOK fs r := by
  have hlive : ∀ e ∈ es, ∃ f ∈ fs, Means s e f := by
    clear hr
    induction es generalizing fs with
    | nil => simp
    | cons e es ih =>
      cases fs with
      | nil => exact hm.elim
      | cons f fs =>
        intro e' he'
        rcases List.mem_cons.1 he' with rfl | he'
        · exact ⟨f, by simp, hm.1⟩
        · obtain ⟨f', h1, h2⟩ := ih hm.2 e' he'
          exact ⟨f', by simp [h1], h2⟩
  have hback : ∀ f ∈ fs, ∃ e ∈ es, Means s e f := by
    clear hr hlive
    induction es generalizing fs with
    | nil => cases fs with
      | nil => simp
      | cons _ _ => exact hm.elim
    | cons e es ih =>
      cases fs with
      | nil => exact hm.elim
      | cons f fs =>
        intro f' hf'
        rcases List.mem_cons.1 hf' with rfl | hf'
        · exact ⟨e, by simp, hm.1⟩
        · obtain ⟨e', h1, h2⟩ := ih hm.2 f' hf'
          exact ⟨e', by simp [h1], h2⟩
  unfold bgetModel at hr
  split at hr
  · rename_i h1
    cases hr
    refine ⟨Asked.refl s, fun ρ => ?_⟩
    obtain ⟨f, hf, hmf⟩ := hlive bF h1
    exact ⟨f, hf, means_false h hmf ρ⟩
  rename_i hnF
  simp only at hr
  split at hr
  · rename_i hnil
    cases hr
    refine ⟨Asked.refl s, by simp, fun ρ _ f hf => ?_⟩
    obtain ⟨e, he, hme⟩ := hback f hf
    have : e = bT := by
      rw [List.map_eq_nil_iff, List.filter_eq_nil_iff] at hnil
      simpa using hnil e he
    subst this
    exact means_true h hme ρ
  rename_i hnn
  have hfil : ∀ e ∈ es, e ≠ bT → e.idx ≠ 0 := by
    intro e he hne h0
    rcases edge_const h0 with h1 | h1
    · exact hne h1
    · exact hnF (h1 ▸ he)
  simp only [Option.bind_eq_bind] at hr
  cases hf : findModel c s ((es.filter (fun e => e != bT)).map s.lit) with
  | none => rw [hf] at hr; cases hr
  | some x =>
    obtain ⟨s1, a⟩ := x
    rw [hf] at hr
    simp only [Option.bind_some] at hr
    obtain ⟨ha, hans⟩ := findModel_some hf
    cases a with
    | undef => cases hr; exact ⟨ha, trivial⟩
    | unsat =>
      cases hr
      refine ⟨ha, fun ρ => ?_⟩
      by_cases hall : ∀ f ∈ fs, f ρ = true
      · exfalso
        obtain ⟨σ, t1, t2⟩ := h.ext ρ
        refine hc.unsat _ _ _ hans.symm ⟨σ, t1.1, fun a ha => ?_⟩
        obtain ⟨e, he, rfl⟩ := List.mem_map.1 ha
        rw [List.mem_filter] at he
        obtain ⟨f, hf, hmf⟩ := hlive e he.1
        rw [lit_value t2 hmf (hfil e he.1 (by simpa using he.2)), hall f hf]
      · simp only [Classical.not_forall] at hall
        obtain ⟨f, hf, hv⟩ := hall
        exact ⟨f, hf, by simpa using hv⟩
    | sat σ =>
      simp only [Option.some.injEq, Prod.mk.injEq] at hr
      obtain ⟨rfl, rfl⟩ := hr
      refine ⟨ha, ?_⟩
      have hsat := hc.sat _ _ _ _ hans.symm
      have hσ : Sat σ s.clauses [] := ⟨hsat.1, by simp⟩
      obtain ⟨v1, v2, v3⟩ := modelVars_spec h es
      generalize hvs : modelVars s es = vs at v1 v2 v3
      have hmain : ∀ as : List (Name × Bool), as = vs.filterMap (modelPair s σ) → (as.map (·.1)).Nodup ∧ (∀ ρ : Env, (∀ p ∈ as, ρ p.1 = p.2) → ∀ f ∈ fs, f ρ = true) := by
        intro as has
        have hmem : ∀ i n, i ∈ vs → (s.nd i).node = .var n → (n, σ (s.nd i).sat) ∈ as := by
          intro i n hi hn
          rw [has, List.mem_filterMap]
          exact ⟨i, hi, by unfold modelPair; rw [hn]⟩
        refine ⟨?_, fun ρ hρ f hf => ?_⟩
        · subst has
          have hpair : ∀ i n, (s.nd i).node = .var n → modelPair s σ i = some (n, σ (s.nd i).sat) := by
            intro i n hn; unfold modelPair; rw [hn]
          clear hmem v3 hvs
          induction vs with
          | nil => simp
          | cons v vs ih =>
            obtain ⟨n, hn⟩ := v2 v (by simp)
            have hv := List.nodup_cons.1 v1
            have ih' := ih hv.2 (fun w hw => v2 w (by simp [hw]))
            simp only [List.filterMap_cons, hpair v n hn, List.map_cons, List.nodup_cons]
            refine ⟨fun hc' => ?_, ih'⟩
            obtain ⟨p, hp, hpe⟩ := List.mem_map.1 hc'
            obtain ⟨w, hw, hwe⟩ := List.mem_filterMap.1 hp
            obtain ⟨n', hn'⟩ := v2 w (by simp [hw])
            rw [hpair w n' hn'] at hwe
            simp only [Option.some.injEq] at hwe
            subst hwe
            simp only at hpe
            subst hpe
            have : v = w := h.inj v w (by unfold St.live; rw [hn]; simp) (by rw [hn, hn'])
            subst this
            exact hv.1 hw
        · obtain ⟨e, he, hme⟩ := hback f hf
          by_cases heT : e = bT
          · subst heT; exact means_true h hme ρ
          · have h0 := hfil e he heT
            have hv : f (envOf s σ) = true := by
              rw [← means_value h hσ hme h0]
              exact hsat.2 _ (List.mem_map.2 ⟨e, List.mem_filter.2 ⟨he, by simpa using heT⟩, rfl⟩)
            obtain ⟨g, hg, rfl⟩ := hme
            simp only at hv ⊢
            rw [← hv]
            congr 1
            refine den_depends hg fun x n hr hn => ?_
            rw [hρ _ (hmem x n (v3 e he x n hr hn) hn), envOf_var h σ hn]
      have hne : vs.filterMap (modelPair s σ) ≠ [] := by
        obtain ⟨e, he⟩ : ∃ e, e ∈ es.filter (fun e => e != bT) := by
          cases hfl : es.filter (fun e => e != bT) with
          | nil => rw [hfl] at hnn; exact absurd rfl hnn
          | cons e _ => exact ⟨e, by simp⟩
        rw [List.mem_filter] at he
        obtain ⟨f, _, g, hg, _⟩ := hlive e he.1
        obtain ⟨x, n, hr, hn⟩ := reach_var h hg (hfil e he.1 (by simpa using he.2))
        have hx := v3 e he.1 x n hr hn
        intro hnil
        have : (n, σ (s.nd x).sat) ∈ vs.filterMap (modelPair s σ) :=
          List.mem_filterMap.2 ⟨x, hx, by unfold modelPair; rw [hn]⟩
        rw [hnil] at this
        simp at this
      have := hmain _ rfl
      revert this hne
      generalize vs.filterMap (modelPair s σ) = as
      intro hne this
      cases as with
      | nil => exact absurd rfl hne
      | cons a as => exact this

end Voss.Bexpr
