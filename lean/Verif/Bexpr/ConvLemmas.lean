import Verif.Bexpr.UseLemmas
/- Conversion to and from BDDs; histories; when the calls are defined. -/
namespace Voss.Bexpr

/-- The BDDs stored in the nodes are those for the substitution `E`. -/
def BddOK (den : Nat → Fn) (E : Env → Env) (s : St) : Prop :=
  ∀ i b, (s.nd i).bdd = some b → ∃ f, Den s i f ∧ ∀ ρ, den b ρ = f (E ρ)

theorem BddOK.grow {den : Nat → Fn} {E : Env → Env} {s s' : St} (h : BddOK den E s) (hg : Grow s s') :
    BddOK den E s' := by
  intro i b hb
  rw [hg.2 i b hb] at hb
  obtain ⟨f, h1, h2⟩ := h i b hb
  exact ⟨f, hg.den h1, h2⟩

theorem BddOK.clean {den : Nat → Fn} {E : Env → Env} {s : St} (h : BddOK den E s) (hi : Inv s) {roots : List Edge}
    (hr : ∀ e ∈ roots, s.live e.idx) : BddOK den E (beClean s roots) := by
  intro i b hb
  have hnd := (beClean_spec hi hr).2.1
  have hb' := hb
  rw [hnd] at hb'
  split at hb'
  · rename_i hm
    obtain ⟨f, h1, h2⟩ := h i b hb'
    refine ⟨f, ?_, h2⟩
    have : ∀ i f, Den s i f → i ∈ markRoots s roots → Den (beClean s roots) i f := by
      intro i f hd
      induction hd with
      | one h1 => intro hm; exact .one (by rw [hnd, if_pos hm]; exact h1)
      | var h1 => intro hm; exact .var (by rw [hnd, if_pos hm]; exact h1)
      | and h1 _ _ ih1 ih2 =>
        intro hm
        have := markRoots_kids hi roots hm h1
        exact .and (by rw [hnd, if_pos hm]; exact h1) (ih1 this.1) (ih2 this.2)
    exact this i f h1 hm
  · simp [emptyRec] at hb'

/-- Storing a BDD in a node changes nothing else. -/
theorem nd_store (s : St) (i b : Nat) (hl : i < s.heap.length) (j : Nat) :
    St.nd { s with heap := s.heap.set i { s.nd i with bdd := some b } } j =
      if j = i then { s.nd i with bdd := some b } else s.nd j := by
  unfold St.nd
  by_cases hj : j = i
  · subst hj; simp [hl]
  · simp [hj, Ne.symm hj]

/-- `s'` differs from `s` only in stored BDDs. -/
structure Stored (s s' : St) : Prop where
  node : ∀ i, (s'.nd i).node = (s.nd i).node ∧ (s'.nd i).sat = (s.nd i).sat ∧ (s'.nd i).sig = (s.nd i).sig ∧
    (s'.nd i).height = (s.nd i).height
  dead : ∀ i, ¬ s.live i → s'.nd i = s.nd i
  rest : s'.uniq = s.uniq ∧ s'.sigs = s.sigs ∧ s'.freeL = s.freeL ∧ s'.nvars = s.nvars ∧ s'.clauses = s.clauses ∧
    s'.queries = s.queries ∧ s'.heap.length = s.heap.length

theorem Stored.refl (s : St) : Stored s s := ⟨fun _ => ⟨rfl, rfl, rfl, rfl⟩, fun _ _ => rfl, by simp⟩

theorem Stored.live {s s' : St} (h : Stored s s') (i : Nat) : s'.live i ↔ s.live i := by
  unfold St.live; rw [(h.node i).1]

theorem Stored.trans {a b c : St} (h : Stored a b) (h' : Stored b c) : Stored a c := by
  refine ⟨fun i => ?_, fun i hi => ?_, ?_⟩
  · rw [(h'.node i).1, (h'.node i).2.1, (h'.node i).2.2.1, (h'.node i).2.2.2]; exact h.node i
  · rw [h'.dead i fun hl => hi ((h.live i).1 hl), h.dead i hi]
  · obtain ⟨a1, a2, a3, a4, a5, a6, a7⟩ := h.rest
    obtain ⟨b1, b2, b3, b4, b5, b6, b7⟩ := h'.rest
    exact ⟨b1.trans a1, b2.trans a2, b3.trans a3, b4.trans a4, b5.trans a5, b6.trans a6, b7.trans a7⟩

theorem Stored.den {s s' : St} (h : Stored s s') {i : Nat} {f : Fn} : Den s' i f ↔ Den s i f :=
  ⟨den_mono fun i _ => ((h.node i).1).symm, den_mono fun i _ => (h.node i).1⟩

theorem Stored.means {s s' : St} (h : Stored s s') {e : Edge} {f : Fn} : Means s' e f ↔ Means s e f := by
  unfold Means; simp only [h.den]

theorem Stored.inv {s s' : St} (h : Stored s s') (hi : Inv s) : Inv s' := by
  obtain ⟨r1, r2, r3, r4, r5, r6, r7⟩ := h.rest
  have hn : ∀ i, (s'.nd i).node = (s.nd i).node := fun i => (h.node i).1
  have hs : ∀ i, (s'.nd i).sat = (s.nd i).sat := fun i => (h.node i).2.1
  have hg : ∀ i, (s'.nd i).sig = (s.nd i).sig := fun i => (h.node i).2.2.1
  refine ⟨?_, ?_, ?_, ?_, ?_, ?_, ?_, ?_, ?_, ?_, ?_, ?_, ?_⟩
  · rw [hn, hs, hg]; exact hi.root
  · intro i; rw [hn]; exact hi.oneOnly i
  · intro i; rw [r1, h.live]; exact hi.uniq i
  · rw [r1]; exact hi.nodup
  · intro i j; rw [h.live, hn, hn]; exact hi.inj i j
  · intro i l r; rw [hn, h.live, h.live, hs, hs, hs]; exact hi.kids i l r
  · intro i; rw [h.live, hs, r4]; exact hi.satRange i
  · rw [r3, r7]; exact ⟨hi.freeOk.1, fun i hm => ⟨(hi.freeOk.2 i hm).1, fun hl => (hi.freeOk.2 i hm).2 ((h.live i).1 hl)⟩⟩
  · intro i hl
    have hl' : ¬ s.live i := fun hh => hl ((h.live i).2 hh)
    rw [h.dead i hl']; exact hi.empty i hl'
  · intro ch hch k hk
    rw [r2] at hch
    obtain ⟨a, b⟩ := hi.chains ch hch k hk
    exact ⟨(h.live k).2 a, fun k' hk' => by rw [hg, hg]; exact b k' hk'⟩
  · rw [r4, r5]; exact hi.cls
  · intro i l r hd
    rw [hn] at hd
    have := hi.andCls i l r hd
    rw [r5, hs]
    unfold St.lit at this ⊢
    rw [hs, hs]; exact this
  · intro ρ
    obtain ⟨σ, a, b⟩ := hi.ext ρ
    exact ⟨σ, by rw [r5]; exact a, fun i f hf h0 => by rw [hs]; exact b i f (h.den.1 hf) h0⟩

theorem be2bdd_spec {o : BddOps} {den : Nat → Fn} (ho : BddRight o den) {sub : Name → Option Nat} :
    ∀ fuel {s : St} {e : Edge} {f : Fn}, Inv s → BddOK den (bddEnv o den sub) s → Means s e f →
    (s.nd e.idx).sat < fuel →
    ∃ s' b, be2bdd o sub fuel s e = some (s', b) ∧ Stored s s' ∧ BddOK den (bddEnv o den sub) s' ∧
      ∀ ρ, den b ρ = f (bddEnv o den sub ρ) := by
  intro fuel
  induction fuel with
  | zero => intro s e f _ _ _ hf; omega
  | succ fuel ih =>
    intro s e f hi hok hm hf
    simp only [be2bdd]
    split
    · rename_i h1; subst h1
      exact ⟨s, _, rfl, Stored.refl s, hok, fun ρ => by rw [ho.zero, means_false hi hm]⟩
    rename_i h1
    split
    · rename_i h2; subst h2
      exact ⟨s, _, rfl, Stored.refl s, hok, fun ρ => by rw [ho.one, means_true hi hm]⟩
    rename_i h2
    obtain ⟨g, hg, rfl⟩ := hm
    cases hb : (s.nd e.idx).bdd with
    | some b =>
      refine ⟨s, _, rfl, Stored.refl s, hok, fun ρ => ?_⟩
      obtain ⟨f', hf', hv⟩ := hok _ _ hb
      rw [den_det hg hf']
      cases e.neg
      · simp [hv]
      · simp [ho.not, hv]
    | none =>
      simp only [Option.bind_eq_bind]
      have fin : ∀ (s1 : St) (b : Nat), Inv s1 → Stored s s1 → BddOK den (bddEnv o den sub) s1 →
          (∀ ρ, den b ρ = g (bddEnv o den sub ρ)) →
          ∃ s' b', some (({ s1 with heap := s1.heap.set e.idx { s1.nd e.idx with bdd := some b } } : St),
              if e.neg then o.not b else b) = some (s', b') ∧ Stored s s' ∧
            BddOK den (bddEnv o den sub) s' ∧ ∀ ρ, den b' ρ = (g (bddEnv o den sub ρ) ^^ e.neg) := by
        intro s1 b i1 hst hok1 hv
        have hlt : e.idx < s1.heap.length := live_lt ((hst.live _).2 (den_live hg))
        have hnd := nd_store s1 e.idx b hlt
        generalize hs' : ({ s1 with heap := s1.heap.set e.idx { s1.nd e.idx with bdd := some b } } : St) = s' at hnd
        have hst' : Stored s1 s' := by
          refine ⟨fun i => ?_, fun i hl => ?_, ?_⟩
          · rw [hnd]; split
            · rename_i he; subst he; exact ⟨rfl, rfl, rfl, rfl⟩
            · exact ⟨rfl, rfl, rfl, rfl⟩
          · rw [hnd, if_neg]
            intro he; subst he; exact hl ((hst.live _).2 (den_live hg))
          · subst hs'; simp
        refine ⟨s', _, rfl, hst.trans hst', ?_, fun ρ => ?_⟩
        · intro i x hx
          rw [hnd] at hx
          split at hx
          · rename_i he; subst he
            simp only [Option.some.injEq] at hx
            subst hx
            exact ⟨g, hst'.den.2 (hst.den.2 hg), hv⟩
          · obtain ⟨f', a, a'⟩ := hok1 i x hx
            exact ⟨f', hst'.den.2 a, a'⟩
        · cases e.neg
          · simp [hv]
          · simp [ho.not, hv]
      cases hg with
      | one h3 =>
        have := hi.oneOnly _ h3
        rcases edge_const this with h | h
        · exact absurd h h2
        · exact absurd h h1
      | @var _ n h3 =>
        rw [h3]
        simp only [Option.bind_some]
        exact fin s _ hi (Stored.refl s) hok fun ρ => rfl
      | @and _ l r fl fr h3 hl hr =>
        rw [h3]
        obtain ⟨⟨_, _, k1⟩, _, _, k2⟩ := hi.kids _ _ _ h3
        obtain ⟨s1, a, e1, st1, ok1, v1⟩ := ih hi hok (⟨fl, hl, rfl⟩ : Means s l _) (by omega)
        obtain ⟨s2, b, e2, st2, ok2, v2⟩ := ih (st1.inv hi) ok1 (st1.means.2 (⟨fr, hr, rfl⟩ : Means s r _))
          (by rw [(st1.node _).2.1]; omega)
        simp only [e1, e2, Option.bind_some]
        exact fin s2 _ (st2.inv (st1.inv hi)) (st1.trans st2) ok2 fun ρ => by rw [ho.and, v1, v2]

/-! ### From BDDs -/

def MemoB (den : Nat → Fn) (s : St) (m : Memo) : Prop := ∀ p ∈ m, Means s p.2 (den p.1)

theorem bdd2bexpr_spec {c : Cfg} (hc : RightAnswers c) {o : BddOps} {den : Nat → Fn} (ho : BddRight o den)
    {isNeg : Nat → Bool} {top : TopCof} {depth : Nat → Nat} (ht : CofRight o den top depth) :
    ∀ fuel {s s' : St} {m m' : Memo} {f : Nat} {e : Edge}, Inv s → MemoB den s m →
    bdd2bexpr c o isNeg top fuel s m f = some (s', m', e) →
    Inv s' ∧ Grow s s' ∧ MemoB den s' m' ∧ Means s' e (den f) := by
  intro fuel
  induction fuel with
  | zero => intro s s' m m' f e _ _ h; cases h
  | succ fuel ih =>
    intro s s' m m' f e hi hm h
    simp only [bdd2bexpr] at h
    split at h
    · rename_i h1; subst h1; cases h
      refine ⟨hi, Grow.refl s, hm, ?_⟩
      rw [show den o.one = fun _ => true from funext ho.one]; exact means_one hi
    split at h
    · rename_i h1; subst h1; cases h
      refine ⟨hi, Grow.refl s, hm, ?_⟩
      rw [show den o.zero = fun _ => false from funext ho.zero]; exact means_zero hi
    have hpos : den f = fun ρ => den (if isNeg f = true then o.not f else f) ρ ^^ isNeg f := by
      funext ρ
      cases isNeg f
      · simp
      · simp [ho.not]
    rw [hpos]
    generalize (if isNeg f = true then o.not f else f) = f' at h
    generalize isNeg f = neg at h
    cases hfd : (m.find? fun p => p.1 == f').map (·.2) with
    | some r =>
      rw [hfd] at h
      cases h
      refine ⟨hi, Grow.refl s, hm, means_xorNeg ?_⟩
      rw [Option.map_eq_some_iff] at hfd
      obtain ⟨p, hp, rfl⟩ := hfd
      have h1 := List.find?_some hp
      have : p.1 = f' := by simpa using h1
      rw [← this]
      exact hm p (List.mem_of_find?_eq_some hp)
    | none =>
      rw [hfd] at h
      simp only at h
      cases htp : top f' with
      | none => rw [htp] at h; cases h
      | some x =>
        obtain ⟨v, hi', lo⟩ := x
        rw [htp] at h
        simp only [Option.bind_eq_bind] at h
        obtain ⟨i1, g1, q1⟩ := beVar_spec hi v
        obtain ⟨s1, x1, hx1⟩ : ∃ s1 x1, beVar s v = (s1, x1) := ⟨_, _, rfl⟩
        rw [hx1] at h i1 g1 q1
        simp only at h i1 g1 q1
        cases h2 : bdd2bexpr c o isNeg top fuel s1 m hi' with
        | none => rw [h2] at h; cases h
        | some y =>
          obtain ⟨s2, m2, eh⟩ := y
          rw [h2] at h
          simp only [Option.bind_some] at h
          obtain ⟨i2, g2, o2, q2⟩ := ih i1 (fun p hp => g1.means (hm p hp)) h2
          cases h3 : bdd2bexpr c o isNeg top fuel s2 m2 lo with
          | none => rw [h3] at h; cases h
          | some z =>
            obtain ⟨s3, m3, el⟩ := z
            rw [h3] at h
            simp only [Option.bind_some] at h
            obtain ⟨i3, g3, o3, q3⟩ := ih i2 o2 h3
            cases h4 : beIte c s3 x1 eh el with
            | none => rw [h4] at h; cases h
            | some w =>
              obtain ⟨s4, r⟩ := w
              rw [h4] at h
              simp only [Option.bind_some] at h
              obtain ⟨i4, g4, q4⟩ := beIte_spec hc i3 (g3.means (g2.means q1)) (g3.means q2) q3 h4
              have hden : den f' = fun ρ => if ρ v then den hi' ρ else den lo ρ := by
                funext ρ; exact ht.cof f' v hi' lo htp ρ
              rw [← hden] at q4
              simp only [Option.some.injEq, Prod.mk.injEq] at h
              obtain ⟨rfl, rfl, rfl⟩ := h
              refine ⟨i4, ((g1.trans g2).trans g3).trans g4, ?_, means_xorNeg q4⟩
              intro p hp
              rcases List.mem_cons.1 hp with rfl | hp
              · exact q4
              · exact g4.means (o3 p hp)

/-! ### Histories -/

theorem hget_means {s : St} (hi : Inv s) {hs : List Edge} {fs : List Fn} (h : Each (Means s) hs fs) (i : Nat) :
    Means s (hget hs i) (fget fs i) := each_get h (means_zero hi) i

/-- One call: the invariant, and every handle means what it should.  `P` is any further property of states
that is kept when nodes are added and by collections. -/
theorem step_spec {c : Cfg} (hc : RightAnswers c) {P : St → Prop} (hP : ∀ s s', Grow s s' → P s → P s')
    (hPc : ∀ s roots, Inv s → (∀ e ∈ roots, s.live e.idx) → P s → P (beClean s roots))
    {s s' : St} {hs hs' : List Edge} {fs : List Fn} (hi : Inv s) (hp : P s) (hm : Each (Means s) hs fs) {op : Op}
    (h : step c s hs op = some (s', hs')) : Inv s' ∧ P s' ∧ Each (Means s') hs' (specStep fs op) := by
  have fin : ∀ {s1 : St} {e : Edge} {f : Fn}, Inv s1 ∧ Grow s s1 ∧ Means s1 e f →
      Inv s1 ∧ P s1 ∧ Each (Means s1) (e :: hs) (f :: fs) := fun ⟨a, b, d⟩ =>
    ⟨a, hP _ _ b hp, d, each_mono (fun _ _ hx => b.means hx) hm⟩
  have g := fun i => hget_means hi hm i
  have map2 : ∀ {x : Option (St × Edge)} {f : Fn}, x.map (push hs) = some (s', hs') →
      (∀ s1 e, x = some (s1, e) → Inv s1 ∧ Grow s s1 ∧ Means s1 e f) →
      Inv s' ∧ P s' ∧ Each (Means s') hs' (f :: fs) := by
    intro x f hx hf
    rw [Option.map_eq_some_iff] at hx
    obtain ⟨⟨s1, e⟩, h1, h2⟩ := hx
    cases h2
    exact fin (hf s1 e h1)
  cases op with
  | const b =>
    cases h
    refine fin ⟨hi, Grow.refl s, ?_⟩
    cases b
    · exact means_zero hi
    · exact means_one hi
  | var n =>
    simp only [step, push, Option.some.injEq, Prod.mk.injEq] at h
    obtain ⟨rfl, rfl⟩ := h
    exact fin (beVar_spec hi n)
  | not i =>
    cases h
    exact fin ⟨hi, Grow.refl s, means_not (g i)⟩
  | and i j => exact map2 h fun s1 e he => beAnd_spec hc hi (g i) (g j) he
  | or i j => exact map2 h fun s1 e he => beOr_spec hc hi (g i) (g j) he
  | nand i j => exact map2 h fun s1 e he => beNand_spec hc hi (g i) (g j) he
  | nor i j => exact map2 h fun s1 e he => beNor_spec hc hi (g i) (g j) he
  | xor i j => exact map2 h fun s1 e he => beXor_spec hc hi (g i) (g j) he
  | xnor i j => exact map2 h fun s1 e he => beXnor_spec hc hi (g i) (g j) he
  | ite i j k => exact map2 h fun s1 e he => beIte_spec hc hi (g i) (g j) (g k) he
  | subst sub is =>
    simp only [step] at h
    have h1 : Each (fun (p : Name × Edge) (q : Name × Fn) => p.1 = q.1 ∧ Means s p.2 q.2)
        (sub.map fun p => (p.1, hget hs p.2)) (sub.map fun p => (p.1, fget fs p.2)) := by
      clear h
      induction sub with
      | nil => trivial
      | cons p ps ih => exact ⟨⟨rfl, g p.2⟩, ih⟩
    have h2 : Each (Means s) (is.map (hget hs)) (is.map (fget fs)) := by
      clear h
      induction is with
      | nil => trivial
      | cons i is ih => exact ⟨g i, ih⟩
    cases hb : bsubstitute c s (sub.map fun p => (p.1, hget hs p.2)) (is.map (hget hs)) with
    | none => rw [hb] at h; cases h
    | some r =>
      rw [hb] at h
      have hsp := bsubstitute_spec hc hi h1 h2 hb
      have hnames : (sub.map fun p => (p.1, hget hs p.2)).map (·.1) = sub.map (·.1) := by
        rw [List.map_map]; rfl
      rw [hnames] at hsp
      simp only [specStep]
      split at hsp
      · rename_i hnd
        rw [if_pos hnd]
        obtain ⟨s1, rs, rfl, i1, g1, q1⟩ := hsp
        simp only [Option.some.injEq, Prod.mk.injEq] at h
        obtain ⟨rfl, rfl⟩ := h
        refine ⟨i1, hP _ _ g1 hp, each_append ?_ (each_mono (fun _ _ hx => g1.means hx) hm)⟩
        rw [List.map_map] at q1
        exact q1
      · rename_i hnd
        rw [if_neg hnd]
        subst hsp
        cases h
        exact ⟨hi, hp, hm⟩
  | isUnsat i =>
    simp only [step] at h
    rw [Option.map_eq_some_iff] at h
    obtain ⟨⟨s1, b⟩, h1, h2⟩ := h
    cases h2
    have ha := (bexprIsUnsat_spec hc hi (g i) h1).1
    exact ⟨ha.inv hi, hP _ _ ha.grow hp, each_mono (fun _ _ hx => ha.grow.means hx) hm⟩
  | collect keep =>
    simp only [step, Option.some.injEq, Prod.mk.injEq] at h
    obtain ⟨rfl, rfl⟩ := h
    have hl : ∀ e ∈ keep.map (hget hs), s.live e.idx := by
      intro e he
      obtain ⟨i, _, rfl⟩ := List.mem_map.1 he
      exact means_live (g i)
    refine ⟨(beClean_spec hi hl).1, hPc s _ hi hl hp, ?_⟩
    have : ∀ l : List Nat, (∀ i ∈ l, i ∈ keep) → Each (Means (beClean s (keep.map (hget hs)))) (l.map (hget hs)) (l.map (fget fs)) := by
      intro l
      induction l with
      | nil => intro _; trivial
      | cons i is ih =>
        intro hk
        refine ⟨beClean_means hi hl (List.mem_map.2 ⟨i, hk i (by simp), rfl⟩) (g i), ih fun j hj => hk j (by simp [hj])⟩
    exact this keep fun _ h => h

theorem run_spec {c : Cfg} (hc : RightAnswers c) (ops : List Op) : ∀ {s s' : St} {hs hs' : List Edge} {fs : List Fn},
    Inv s → Each (Means s) hs fs → run c ops s hs = some (s', hs') → Inv s' ∧ Each (Means s') hs' (specRun ops fs) := by
  induction ops with
  | nil => intro s s' hs hs' fs hi hm h; cases h; exact ⟨hi, hm⟩
  | cons op ops ih =>
    intro s s' hs hs' fs hi hm h
    simp only [run, Option.bind_eq_bind] at h
    cases h1 : step c s hs op with
    | none => rw [h1] at h; cases h
    | some x =>
      obtain ⟨s1, hs1⟩ := x
      rw [h1] at h
      simp only [Option.bind_some] at h
      obtain ⟨i1, _, q1⟩ := step_spec hc (P := fun _ => True) (fun _ _ _ _ => trivial) (fun _ _ _ _ _ => trivial) hi
        trivial hm h1
      exact ih i1 q1 h

theorem runB_spec {c : Cfg} (hc : RightAnswers c) {o : BddOps} {den : Nat → Fn} (ho : BddRight o den)
    {sub : Name → Option Nat} (ops : List BOp) : ∀ {s s' : St} {hs hs' : List Edge} {bs bs' : List Nat}
    {fs gs : List Fn}, Inv s → BddOK den (bddEnv o den sub) s → Each (Means s) hs fs →
    Each (fun b g => den b = g) bs gs → runB c o sub ops s hs bs = some (s', hs', bs') →
    Inv s' ∧ BddOK den (bddEnv o den sub) s' ∧ Each (Means s') hs' (specRunB (bddEnv o den sub) ops fs gs).1 ∧
      Each (fun b g => den b = g) bs' (specRunB (bddEnv o den sub) ops fs gs).2 := by
  induction ops with
  | nil => intro s s' hs hs' bs bs' fs gs hi hok hm hb h; cases h; exact ⟨hi, hok, hm, hb⟩
  | cons op ops ih =>
    intro s s' hs hs' bs bs' fs gs hi hok hm hb h
    cases op with
    | op x =>
      simp only [runB, Option.bind_eq_bind] at h
      cases h1 : step c s hs x with
      | none => rw [h1] at h; cases h
      | some y =>
        obtain ⟨s1, hs1⟩ := y
        rw [h1] at h
        simp only [Option.bind_some] at h
        obtain ⟨i1, ok1, q1⟩ := step_spec hc (P := BddOK den (bddEnv o den sub)) (fun _ _ hg hx => hx.grow hg)
          (fun _ _ a b d => d.clean a b) hi hok hm h1
        exact ih i1 ok1 q1 hb h
    | conv i =>
      simp only [runB, Option.bind_eq_bind] at h
      obtain ⟨s1, b, e1, st, ok1, v⟩ := be2bdd_spec ho ((s.nd (hget hs i).idx).sat + 1) hi hok (hget_means hi hm i)
        (by omega)
      unfold bexpr2bdd at h
      rw [e1] at h
      simp only [Option.bind_some] at h
      exact ih (bs := b :: bs) (st.inv hi) ok1 (each_mono (fun _ _ hx => st.means.2 hx) hm) ⟨funext v, hb⟩ h

/-! ### Definedness -/

/-- No query can involve the constant: merging is switched off, or the constant is in no chain. -/
def Safe (c : Cfg) (s : St) : Prop := c.satLimit = 0 ∨ ∀ ch ∈ s.sigs, 0 ∉ ch

theorem satAndIsSame_total {c : Cfg} {s : St} {l r k : SLit} (h : c.satLimit = 0 ∨ (l.var ≠ 0 ∧ r.var ≠ 0 ∧ k.var ≠ 0)) :
    ∃ s' b, satAndIsSame c s l r k = some (s', b) ∧ Asked s s' := by
  unfold satAndIsSame
  split
  · exact ⟨s, false, rfl, Asked.refl s⟩
  rename_i h0
  rcases h with h | ⟨h1, h2, h3⟩
  · exact absurd h h0
  rw [if_neg (fun h : l.var = 0 ∨ r.var = 0 ∨ k.var = 0 => h.elim h1 fun h => h.elim h2 h3)]
  simp only [ask]
  cases c.solve s.queries s.clauses [l, r, k.not] with
  | sat σ => exact ⟨_, _, rfl, ⟨_, rfl⟩⟩
  | undef => exact ⟨_, _, rfl, ⟨_, rfl⟩⟩
  | unsat =>
    simp only
    cases c.solve (s.queries + 1) s.clauses [l.not, k] with
    | sat σ => exact ⟨_, _, rfl, ⟨_, rfl⟩⟩
    | undef => exact ⟨_, _, rfl, ⟨_, rfl⟩⟩
    | unsat =>
      simp only
      cases c.solve (s.queries + 1 + 1) s.clauses [r.not, k] with
      | sat σ => exact ⟨_, _, rfl, ⟨_, rfl⟩⟩
      | undef => exact ⟨_, _, rfl, ⟨_, rfl⟩⟩
      | unsat => exact ⟨_, _, rfl, ⟨_, rfl⟩⟩

theorem tryMerge_total {c : Cfg} {l r : Edge} (ks : List Nat) : ∀ {s : St}, Inv s →
    (c.satLimit = 0 ∨ ((∀ k ∈ ks, s.live k ∧ k ≠ 0) ∧ (s.live l.idx ∧ l.idx ≠ 0) ∧ (s.live r.idx ∧ r.idx ≠ 0))) →
    ∃ s' m, tryMerge c s l r ks = some (s', m) ∧ Asked s s' := by
  induction ks with
  | nil => intro s _ _; exact ⟨s, none, rfl, Asked.refl s⟩
  | cons k ks ih =>
    intro s hi h
    simp only [tryMerge, Option.bind_eq_bind]
    obtain ⟨s1, b, h1, ha⟩ := satAndIsSame_total (c := c) (s := s) (l := s.lit l) (r := s.lit r)
      (k := s.lit ⟨false, k⟩) (by
        rcases h with h | ⟨h1, h2, h3⟩
        · exact .inl h
        · have a := (hi.satRange _ h2.1 h2.2).1
          have b := (hi.satRange _ h3.1 h3.2).1
          have d := (hi.satRange _ (h1 k (by simp)).1 (h1 k (by simp)).2).1
          right
          simp only [St.lit]
          omega)
    rw [h1]
    simp only [Option.bind_some]
    cases b with
    | true => exact ⟨s1, some k, rfl, ha⟩
    | false =>
      simp only [Bool.false_eq_true, if_false]
      obtain ⟨s2, m, h2, hb⟩ := ih (s := s1) (ha.inv hi) (by
        rcases h with h | ⟨h1, h2, h3⟩
        · exact .inl h
        · right
          unfold St.live
          simp only [ha.nd]
          exact ⟨fun k' hk' => h1 k' (by simp [hk']), h2, h3⟩)
      exact ⟨s2, m, h2, ha.trans hb⟩

/-- A conjunction is defined whenever no query involves the constant; in particular when the signature of the
new node is not that of the constant. -/
theorem findInsertAnd_total {c : Cfg} {s : St} {l r : Edge} {ht : Nat} (hi : Inv s) (hl : s.live l.idx)
    (hr : s.live r.idx) (hl0 : l.idx ≠ 0) (hr0 : r.idx ≠ 0)
    (h : Safe c s ∨ andSig s l r ≠ BitVec.allOnes 64) : ∃ s' e, findInsertAnd c s l r ht = some (s', e) := by
  unfold findInsertAnd
  cases findUniq s (.and l r) with
  | some i => exact ⟨_, _, rfl⟩
  | none =>
    simp only [Option.bind_eq_bind]
    obtain ⟨s1, m, h1, _⟩ := tryMerge_total (c := c) (l := l) (r := r) (findChain s (andSig s l r)) hi (by
      by_cases h0 : c.satLimit = 0
      · exact .inl h0
      · right
        refine ⟨fun k hk => ?_, ⟨hl, hl0⟩, hr, hr0⟩
        obtain ⟨ch, hch, hkc, k0, hk0, hsig⟩ := findChain_mem hk
        refine ⟨(hi.chains ch hch k hkc).1, fun hz => ?_⟩
        subst hz
        rcases h with (h | h) | h
        · exact h0 h
        · exact h ch hch hkc
        · have := (hi.chains ch hch 0 hkc).2 k0 hk0
          rw [hsig, hi.root.2.2] at this
          exact h this)
    rw [h1]
    simp only [Option.bind_some]
    cases m with
    | some k => exact ⟨_, _, rfl⟩
    | none => exact ⟨_, _, rfl⟩

end Voss.Bexpr
