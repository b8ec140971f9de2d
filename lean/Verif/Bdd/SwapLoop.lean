import Verif.Bdd.SwapStep
/-
The swap of two adjacent variables.
-/
namespace Voss.Bdd

variable {x y : Nat} {s : S}

theorem isVar_true {v i : Nat} (hT : s.tbl 0 = none) :
    isVar s v i = true ↔ ∃ m, s.tbl i = some m ∧ m.var = v := by
  unfold isVar
  cases h : s.tbl i with
  | none => simp
  | some m =>
    have h0 : i ≠ 0 := by rintro rfl; rw [hT] at h; exact absurd h (by simp)
    simp [h0]

theorem Low.mem {j : Nat} (h : Low s y j) : j = 0 ∨ ∃ m, s.tbl j = some m := by
  rcases h with h | ⟨m, e, _⟩
  · exact Or.inl h
  · exact Or.inr ⟨m, e⟩

theorem MInv.low_not_y (h : MInv x y s) {j : Nat} (hl : Low s y j) : isVar s y j = false := by
  rw [Bool.eq_false_iff]
  intro hc
  rw [isVar_true h.T.tbl0] at hc
  obtain ⟨m, e, hm⟩ := hc
  rcases hl with rfl | ⟨m', e', hm'⟩
  · exact h.ne0 e rfl
  · rw [e] at e'; cases e'
    exact (h.low_var hm').2 hm

theorem MInv.low_of_not (h : MInv x y s) {j : Nat} (hs : Son s y y j) (hn : isVar s y j = false) :
    Low s y j := by
  rcases hs with hs | ⟨m, e, hm, _⟩
  · exact hs
  · have := (isVar_true h.T.tbl0 (v := y) (i := j)).2 ⟨m, e, hm⟩
    rw [hn] at this; exact absurd this (by simp)

/-- The cofactors with respect to `y` of a son of a node for `x`. -/
theorem MInv.cofsAt_spec (h : MInv x y s) {f : F} {g : BFun} (hs : Son s y y f.idx)
    (d : Denotes s f g) : ∃ a b ga gb, cofsAt s y f = some (a, b) ∧ Low s y a.idx ∧ Low s y b.idx ∧
      Denotes s a ga ∧ Denotes s b gb ∧ (g = fun ρ => if ρ y then ga ρ else gb ρ) ∧
      (a.neg = f.neg) ∧ (isVar s y f.idx = true → a ≠ b) := by
  unfold cofsAt
  by_cases hv : isVar s y f.idx = true
  · rw [if_pos hv]
    obtain ⟨m, e, hm⟩ := (isVar_true h.T.tbl0).1 hv
    have hlow : Low s y m.lson ∧ Low s y m.rson.idx := by
      rcases hs with hs | ⟨m', e', _, a, b⟩
      · rw [h.low_not_y hs] at hv; exact absurd hv (by simp)
      · rw [e] at e'; cases e'; exact ⟨a, b⟩
    obtain ⟨gl, gr, dl, dr, hg⟩ := d.split e (h.ne0 e)
    refine ⟨(sons f m).1, (sons f m).2, gl, gr, by rw [e]; rfl, ?_, ?_, dl, dr, ?_, ?_, ?_⟩
    · rw [(sons_idx f m).1]; exact hlow.1
    · rw [(sons_idx f m).2]; exact hlow.2
    · rw [hg, hm]
    · simp [sons, F.xneg_neg]
    · intro _ hc
      refine h.reduced _ _ e ?_
      simp only [sons] at hc
      rw [← xneg_xneg f.neg (⟨false, m.lson⟩ : F), hc, xneg_xneg]
  · rw [if_neg hv]
    have hl := h.low_of_not hs (by simpa using hv)
    exact ⟨f, f, g, g, rfl, hl, hl, d, d, by simp, rfl, fun hc => absurd hc hv⟩

/-- The state after a node for `x` has been turned into a node for `y`. -/
def conv (s : S) (i y : Nat) (nl nr : F) : S :=
  { s with tbl := upd s.tbl i (some ⟨y, nl.idx, nr⟩), ref := incRef (incRef s.ref nl.idx) nr.idx }

theorem MInv.conv (h : MInv x y s) {ext pend : Nat → Nat} (hR : RI s ext pend) {i : Nat} {n : Node}
    (e : s.tbl i = some n) (hx : n.var = x) (hun : ¬ (Low s y n.lson ∧ Low s y n.rson.idx))
    {nl nr : F} {gl gr g : BFun} (dl : Denotes s nl gl) (dr : Denotes s nr gr) (hneg : nl.neg = false)
    (sl : Son s y x nl.idx) (sr : Son s y x nr.idx) (hne : nl ≠ nr) (dg : Den s.tbl i g)
    (hg : g = fun ρ => if ρ y then gl ρ else gr ρ) :
    MInv x y (Bdd.conv s i y nl nr) ∧
    RI (Bdd.conv s i y nl nr) ext (fun j => pend j + one n.rson.idx j + one n.lson j) ∧
    (∀ j g, Den s.tbl j g → Den (Bdd.conv s i y nl nr).tbl j g) ∧
    (∀ j, Low s y j → Low (Bdd.conv s i y nl nr) y j) := by
  have hi0 := h.ne0 e
  have lowi : ∀ j, Low s y j → j ≠ i := by
    intro j hj hji
    subst hji
    rcases hj with hj | ⟨m, em, hm⟩
    · exact hi0 hj
    · rw [e] at em; cases em
      exact (h.low_var hm).1 hx
  have soni : ∀ v j, (v = x ∨ v = y) → Son s y v j → j ≠ i := by
    intro v j hv hj hji
    subst hji
    rcases hj with hj | ⟨m, em, hm, a, b⟩
    · exact lowi _ hj rfl
    · rw [e] at em; cases em; exact hun ⟨a, b⟩
  have lowsons : ∀ j m, s.tbl j = some m → s.ord y < s.ord m.var →
      Low s y m.lson ∧ Low s y m.rson.idx := by
    intro j m em hm
    obtain ⟨a, b⟩ := h.low_var hm
    obtain ⟨c, d⟩ := h.other j m em a b
    have aux : ∀ k, Below s m.var k → Low s y k := by
      intro k hk
      rcases hk with hk | ⟨m', e', h'⟩
      · exact Or.inl hk
      · exact Or.inr ⟨m', e', by omega⟩
    exact ⟨aux _ c, aux _ d⟩
  generalize hs' : Bdd.conv s i y nl nr = s'
  have ht : s'.tbl = upd s.tbl i (some ⟨y, nl.idx, nr⟩) := by rw [← hs']; rfl
  have ho : s'.ord = s.ord := by rw [← hs']; rfl
  have hn : s'.nvars = s.nvars := by rw [← hs']; rfl
  have hl : s'.live = s.live := by rw [← hs']; rfl
  have hf : s'.free = s.free := by rw [← hs']; rfl
  have hz : s'.size = s.size := by rw [← hs']; rfl
  have hr : s'.ref = incRef (incRef s.ref nl.idx) nr.idx := by rw [← hs']; rfl
  have told : ∀ j, j ≠ i → s'.tbl j = s.tbl j := by intro j hj; rw [ht, upd_ne _ _ hj]
  have ti : s'.tbl i = some ⟨y, nl.idx, nr⟩ := by rw [ht, upd_same]
  have hlow : ∀ j, Low s y j → Low s' y j := by
    intro j hj
    have := lowi j hj
    rcases hj with hj | ⟨m, em, hm⟩
    · exact Or.inl hj
    · exact Or.inr ⟨m, by rw [told j this]; exact em, by rw [ho]; exact hm⟩
  have hson : ∀ v j, (v = x ∨ v = y) → Son s y v j → Son s' y v j := by
    intro v j hv hj
    have := soni v j hv hj
    rcases hj with hj | ⟨m, em, hm, a, b⟩
    · exact Or.inl (hlow j hj)
    · exact Or.inr ⟨m, by rw [told j this]; exact em, hm, hlow _ a, hlow _ b⟩
  -- low nodes keep their denotation
  have denLow : ∀ j g, Den s.tbl j g → Low s y j → Den s'.tbl j g := by
    intro j g d
    induction d with
    | zero => intro _; exact Den.zero
    | @node j m gl gr h0 em _ _ ihl ihr =>
      intro hj
      have hji := lowi j hj
      rcases hj with hj | ⟨m', em', hm⟩
      · exact absurd hj h0
      · rw [em] at em'; cases em'
        obtain ⟨a, b⟩ := lowsons j m em hm
        exact Den.node h0 (by rw [told j hji]; exact em) (ihl a) (ihr b)
  have denSon : ∀ j g, Den s.tbl j g → Son s y x j → Den s'.tbl j g := by
    intro j g d hj
    have hji := soni x j (Or.inl rfl) hj
    rcases hj with hj | ⟨m, em, hm, a, b⟩
    · exact denLow j g d hj
    · cases d with
      | zero => exact Den.zero
      | node h0 em' dl dr =>
        rw [em] at em'; cases em'
        exact Den.node h0 (by rw [told j hji]; exact em) (denLow _ _ dl a) (denLow _ _ dr b)
  have deni : Den s'.tbl i g := by
    obtain ⟨l0, dl0, el⟩ := dl
    obtain ⟨r0, dr0, er⟩ := dr
    have := Den.node (t := s'.tbl) hi0 ti (denSon _ _ dl0 sl) (denSon _ _ dr0 sr)
    have heq : g = (fun ρ => if ρ y = true then l0 ρ else nr.neg ^^ r0 ρ) := by
      rw [hg, el, er]
      funext ρ
      simp [hneg]
    rw [heq]; exact this
  have hden : ∀ j g, Den s.tbl j g → Den s'.tbl j g := by
    intro j g' d
    induction d with
    | zero => exact Den.zero
    | @node j m gl gr h0 em dl' dr' ihl ihr =>
      by_cases hji : j = i
      · subst hji
        have := (Den.node h0 em dl' dr').det dg
        rw [this]; exact deni
      · exact Den.node h0 (by rw [told j hji]; exact em) ihl ihr
  have hcase : ∀ j m, s'.tbl j = some m → (j = i ∧ m = ⟨y, nl.idx, nr⟩) ∨ (j ≠ i ∧ s.tbl j = some m) := by
    intro j m em
    by_cases hji : j = i
    · subst hji; rw [ti] at em; cases em; exact Or.inl ⟨rfl, rfl⟩
    · rw [told j hji] at em; exact Or.inr ⟨hji, em⟩
  have hlive : ∀ j m, s'.tbl j = some m → ∃ m', s.tbl j = some m' := by
    intro j m em
    rcases hcase j m em with ⟨rfl, _⟩ | ⟨_, em⟩
    · exact ⟨n, e⟩
    · exact ⟨m, em⟩
  have hden' : ∀ j m, s'.tbl j = some m → ∃ g, Den s'.tbl j g ∧ Den s.tbl j g := by
    intro j m em
    obtain ⟨m', em'⟩ := hlive j m em
    obtain ⟨g, hg⟩ := h.den j m' em'
    exact ⟨g, hden j g hg, hg⟩
  have back : ∀ j g, Den s'.tbl j g → Den s.tbl j g := by
    intro j g d
    by_cases h0 : j = 0
    · subst h0
      rw [d.det Den.zero]; exact Den.zero
    · obtain ⟨m, em⟩ : ∃ m, s'.tbl j = some m := by
        cases d with
        | zero => exact absurd rfl h0
        | node _ em _ _ => exact ⟨_, em⟩
      obtain ⟨g', a, b⟩ := hden' j m em
      rw [d.det a]; exact b
  have hcanon : ∀ p q g, Den s'.tbl p g → Den s'.tbl q g → p = q :=
    fun p q g dp dq => h.canon p q g (back p g dp) (back q g dq)
  refine ⟨⟨⟨?_, ?_, ?_, ?_, ?_, ?_, ?_, ?_⟩, ?_, ?_, ?_, ?_, ?_, ?_, ?_, ?_, hcanon, ?_, ?_, ?_⟩, ?_, hden, hlow⟩
  · rw [told 0 (Ne.symm hi0)]; exact h.T.tbl0
  · intro j
    rw [hl]
    by_cases hji : j = i
    · subst hji; rw [ti, h.T.live_iff, e]; simp
    · rw [told j hji]; exact h.T.live_iff j
  · rw [hl]; exact h.T.live_nodup
  · rw [hl, hz]; exact h.T.live_lt
  · intro j hj
    rw [hf] at hj
    obtain ⟨a, b, c⟩ := h.T.free_ok j hj
    refine ⟨a, by rw [hz]; exact b, ?_⟩
    have hji : j ≠ i := by rintro rfl; rw [e] at c; exact absurd c (by simp)
    rw [told j hji]; exact c
  · rw [hf]; exact h.T.free_nodup
  · rw [hz]; exact h.T.size_pos
  · intro p q m ep eq
    obtain ⟨g', a, _⟩ := hden' p m ep
    refine hcanon p q g' a ?_
    cases a with
    | zero =>
      exfalso
      have : (0 : Nat) ≠ i := Ne.symm hi0
      rw [told 0 this, h.T.tbl0] at ep; exact absurd ep (by simp)
    | node h0 ep' d1 d2 =>
      rw [ep] at ep'; cases ep'
      refine Den.node ?_ eq d1 d2
      rintro rfl
      rw [told 0 (Ne.symm hi0), h.T.tbl0] at eq; exact absurd eq (by simp)
  · intro j m em
    rw [hn]
    rcases hcase j m em with ⟨_, rfl⟩ | ⟨_, em⟩
    · exact h.ylt
    · exact h.var_lt j m em
  · intro j m em
    rcases hcase j m em with ⟨_, rfl⟩ | ⟨_, em⟩
    · simp only
      intro hc
      apply hne
      rw [← hc]
      exact F.ext' hneg rfl
    · exact h.reduced j m em
  · rw [hn, ho]; exact h.ord_inj
  · rw [hn, ho]; exact h.ord_lt
  · rw [hn]; exact h.xlt
  · rw [hn]; exact h.ylt
  · rw [ho]; exact h.xy
  · intro j m em
    obtain ⟨g', a, _⟩ := hden' j m em
    exact ⟨g', a⟩
  · intro j m em hv
    rcases hcase j m em with ⟨_, rfl⟩ | ⟨_, em⟩
    · exact absurd hv.symm h.ne
    · obtain ⟨a, b⟩ := h.sonX j m em hv
      exact ⟨hson y _ (Or.inr rfl) a, hson y _ (Or.inr rfl) b⟩
  · intro j m em hv
    rcases hcase j m em with ⟨_, rfl⟩ | ⟨_, em⟩
    · exact ⟨hson x _ (Or.inl rfl) sl, hson x _ (Or.inl rfl) sr⟩
    · obtain ⟨a, b⟩ := h.sonY j m em hv
      exact ⟨hson x _ (Or.inl rfl) a, hson x _ (Or.inl rfl) b⟩
  · intro j m em h1 h2
    rcases hcase j m em with ⟨_, rfl⟩ | ⟨_, em⟩
    · exact absurd rfl h2
    · obtain ⟨a, b⟩ := h.other j m em h1 h2
      have aux : ∀ k, Below s m.var k → Below s' m.var k := by
        intro k hk
        rcases hk with hk | ⟨m', e', h'⟩
        · exact Or.inl hk
        · by_cases hki : k = i
          · subst hki
            rw [e] at e'; cases e'
            refine Or.inr ⟨_, ti, ?_⟩
            rw [ho]
            simp only
            rw [hx] at h'
            have := h.xy
            omega
          · exact Or.inr ⟨m', by rw [told k hki]; exact e', by rw [ho]; exact h'⟩
      exact ⟨aux _ a, aux _ b⟩
  · -- reference counts
    have hil : i < s.size := h.T.live_lt i ((h.T.live_iff i).2 (by rw [e]; rfl))
    have hld : ∀ j, load s' ext (fun j => pend j + one n.rson.idx j + one n.lson j) j =
        load s ext pend j + one nl.idx j + one nr.idx j := by
      intro j
      have h1 := pc_upd s.tbl hil (some ⟨y, nl.idx, nr⟩) j
      rw [e, ed_some, ed_some] at h1
      simp only [load, ht, hz]
      simp only at h1
      omega
    refine ⟨?_, ?_, ?_⟩
    · intro j m em
      obtain ⟨m', em'⟩ := hlive j m em
      rw [hld, hr]
      exact incRef_cover (incRef_le _ _ _ (hR.le j)) (incRef_cover (hR.le j) (hR.live j m' em'))
    · intro j hj em
      have hji : j ≠ i := by rintro rfl; rw [ti] at em; exact absurd em (by simp)
      rw [told j hji] at em
      rw [hld, hR.dead j hj em]
      have aux : ∀ k, Son s y x k → one k j = 0 := by
        intro k hk
        apply one_ne
        rintro rfl
        rcases hk with hk | ⟨m, em', _⟩
        · rcases hk.mem with h0 | ⟨m, em'⟩
          · exact hj h0
          · rw [em] at em'; exact absurd em' (by simp)
        · rw [em] at em'; exact absurd em' (by simp)
      rw [aux _ sl, aux _ sr]
    · intro j
      rw [hr]
      exact incRef_le _ _ _ (incRef_le _ _ _ (hR.le j))

/-- What a step of the swap leaves unchanged. -/
structure Kept (ext : Nat → Nat) (s s' : S) : Prop where
  den : ∀ j g, Den s.tbl j g → (0 < ext j ∨ s.ref j = maxRef) → Den s'.tbl j g
  max : ∀ j n, s.tbl j = some n → s.ref j = maxRef → s'.ref j = maxRef ∧ ∃ n', s'.tbl j = some n'
  nvars : s'.nvars = s.nvars
  vname : s'.vname = s.vname
  vars : s'.vars = s.vars

theorem Kept.refl (ext : Nat → Nat) (s : S) : Kept ext s s :=
  ⟨fun _ _ h _ => h, fun _ n e h => ⟨h, n, e⟩, rfl, rfl, rfl⟩

theorem Kept.trans {ext : Nat → Nat} {a b c : S} (h : Kept ext a b) (h' : Kept ext b c) : Kept ext a c := by
  refine ⟨?_, ?_, h'.nvars.trans h.nvars, h'.vname.trans h.vname, h'.vars.trans h.vars⟩
  · intro j g d hj
    have d1 := h.den j g d hj
    by_cases h0 : j = 0
    · subst h0; rw [d.det Den.zero]; exact Den.zero
    refine h'.den j g d1 ?_
    rcases hj with hj | hj
    · exact Or.inl hj
    · right
      cases d with
      | zero => exact absurd rfl h0
      | node _ e _ _ => exact (h.max j _ e hj).1
  · intro j n e hr
    obtain ⟨hr', m, em⟩ := h.max j n e hr
    exact h'.max j m em hr'

end Voss.Bdd
