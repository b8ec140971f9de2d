import Verif.Bdd.DecLemmas
/-
One step of the swap of two adjacent variables.
-/
namespace Voss.Bdd

variable {x y : Nat} {s : S}

theorem incRef_cases (r : Nat → Nat) (k j : Nat) (hle : r j ≤ maxRef) :
    (incRef r k j = maxRef ∧ (r j = maxRef ∨ k = j)) ∨
    (r j < maxRef ∧ incRef r k j = r j + one k j) := by
  unfold incRef
  by_cases hk : k = j
  · subst hk
    rw [one_same]
    split
    · next h => right; rw [upd_same]; exact ⟨h, rfl⟩
    · next h => left; exact ⟨by omega, Or.inr rfl⟩
  · rw [one_ne hk]
    have e : (if r k < maxRef then upd r k (r k + 1) else r) j = r j := by
      split
      · rw [upd_ne _ _ (Ne.symm hk)]
      · rfl
    rw [e]
    rcases Nat.lt_or_ge (r j) maxRef with h | h
    · exact Or.inr ⟨h, rfl⟩
    · exact Or.inl ⟨by omega, Or.inl (by omega)⟩

theorem incRef_le (r : Nat → Nat) (k j : Nat) (hle : r j ≤ maxRef) : incRef r k j ≤ maxRef := by
  rcases incRef_cases r k j hle with ⟨h, _⟩ | ⟨h, h'⟩
  · omega
  · rw [h']; unfold one; split <;> omega

theorem incRef_ge (r : Nat → Nat) (k j : Nat) (hle : r j ≤ maxRef) : r j ≤ incRef r k j := by
  rcases incRef_cases r k j hle with ⟨h, _⟩ | ⟨h, h'⟩ <;> omega

theorem incRef_pos (r : Nat → Nat) (k : Nat) (hle : r k ≤ maxRef) : 1 ≤ incRef r k k := by
  rcases incRef_cases r k k hle with ⟨h, _⟩ | ⟨h, h'⟩
  · rw [h]; decide
  · rw [h', one_same]; omega

theorem incRef_cover {r : Nat → Nat} {k j L : Nat} (hle : r j ≤ maxRef) (h : r j = maxRef ∨ L ≤ r j) :
    incRef r k j = maxRef ∨ L + one k j ≤ incRef r k j := by
  rcases incRef_cases r k j hle with ⟨h1, _⟩ | ⟨h1, h2⟩
  · exact Or.inl h1
  · right; omega

/-- Effect of inserting nodes for `x`. -/
structure Grew (x y : Nat) (s s' : S) (f : F) : Prop where
  ext : Ext s s'
  old : ∀ j n, s'.tbl j = some n →
    s.tbl j = some n ∨ (j = f.idx ∧ n.var = x ∧ Low s' y n.lson ∧ Low s' y n.rson.idx)
  ref : ∀ j n, s.tbl j = some n → s.ref j ≤ s'.ref j

theorem Low.ext {s s' : S} (hE : Ext s s') {j : Nat} (h : Low s y j) : Low s' y j := by
  rcases h with h | ⟨m, e, h⟩
  · exact Or.inl h
  · exact Or.inr ⟨m, hE.tbl _ _ e, by rw [hE.ord]; exact h⟩

theorem Below.ext' {s s' : S} (hE : Ext s s') {v j : Nat} (h : Below s v j) : Below s' v j := by
  rcases h with h | ⟨m, e, h⟩
  · exact Or.inl h
  · exact Or.inr ⟨m, hE.tbl _ _ e, by rw [hE.ord]; exact h⟩

theorem Son.ext {s s' : S} (hE : Ext s s') {v j : Nat} (h : Son s y v j) : Son s' y v j := by
  rcases h with h | ⟨m, e, hm, a, b⟩
  · exact Or.inl (h.ext hE)
  · exact Or.inr ⟨m, hE.tbl _ _ e, hm, a.ext hE, b.ext hE⟩

theorem MInv.insert (h : MInv x y s) {ext pend : Nat → Nat} (hR : RI s ext pend) {a c : F}
    {ga gc : BFun} (la : Low s y a.idx) (lc : Low s y c.idx) (da : Denotes s a ga)
    (dc : Denotes s c gc) :
    ∃ f s', findInsert s x a c = some (f, s') ∧ MInv x y s' ∧ RI s' ext pend ∧ Grew x y s s' f ∧
      Denotes s' f (fun ρ => if ρ x then ga ρ else gc ρ) ∧ f.neg = a.neg ∧ Son s' y x f.idx := by
  by_cases hac : a = c
  · subst hac
    refine ⟨a, s, by simp [findInsert], h, hR, ⟨Ext.refl s, fun j n e => Or.inl e, fun _ _ _ => le_rfl⟩,
      ?_, rfl, Or.inl la⟩
    have := da.det dc
    subst this
    simpa using da
  obtain ⟨i, s', e, hT, h0, ht, hE, hc, hA⟩ := findInsert_T h.T x hac
  have hden : Denotes s' ⟨a.neg, i⟩ (fun ρ => if ρ x then ga ρ else gc ρ) := by
    have := denotes_node (s := s') (f := ⟨a.neg, i⟩) (gl := ga) (gr := gc) h0 ht
      (by simp only [sons]; rw [← xneg_self_neg, xneg_xneg]; exact da.ext hE)
      (by simp only [sons]; rw [xneg_xneg]; exact dc.ext hE)
    exact this
  have hson : Son s' y x i :=
    Or.inr ⟨_, ht, rfl, la.ext hE, by simp only [F.xneg_idx]; exact lc.ext hE⟩
  rcases hA with rfl | hA
  · exact ⟨_, _, e, h, hR, ⟨Ext.refl _, fun j n e => Or.inl e, fun _ _ _ => le_rfl⟩, hden, rfl, hson⟩
  -- a new node
  have hcase : ∀ j m, s'.tbl j = some m →
      (j = i ∧ m = ⟨x, a.idx, F.xneg a.neg c⟩) ∨ (j ≠ i ∧ s.tbl j = some m) := by
    intro j m ej
    rw [hA.tbl] at ej
    by_cases hj : j = i
    · subst hj; rw [upd_same] at ej; cases ej; exact Or.inl ⟨rfl, rfl⟩
    · rw [upd_ne _ _ hj] at ej; exact Or.inr ⟨hj, ej⟩
  have lowlive : ∀ j, Low s y j → j ≠ i := by
    intro j hj hji
    subst hji
    rcases hj with hj | ⟨m, em, _⟩
    · exact h0 hj
    · rw [hA.fresh] at em; exact absurd em (by simp)
  have hai := lowlive _ la
  have hci := lowlive _ lc
  -- the denotation of the new node
  obtain ⟨g0, dg0, eg0⟩ := hden
  have hg0 : ¬ NoDep g0 x := by
    intro hn
    apply hac
    obtain ⟨a0, da0, ea⟩ := da
    obtain ⟨c0, dc0, ec⟩ := dc
    have na := (h.low_noDep la da0).1
    have nc := (h.low_noDep lc dc0).1
    refine h.canonF (g := ga) ⟨a0, da0, ea⟩ ?_
    refine ⟨c0, dc0, ?_⟩
    rw [← ec]
    funext ρ
    have e1 := congrFun eg0 (set1 ρ x true)
    have e2 := congrFun eg0 (set1 ρ x false)
    simp only [set1_same, if_true, Bool.false_eq_true, if_false] at e1 e2
    rw [hn] at e1 e2
    rw [ea] at e1 ⊢
    rw [ec] at e2 ⊢
    simp only [na ρ true] at e1
    simp only [nc ρ false] at e2
    exact e1.trans e2.symm
  have hg0y : NoDep g0 y := by
    obtain ⟨a0, da0, ea⟩ := da
    obtain ⟨c0, dc0, ec⟩ := dc
    have na := (h.low_noDep la da0).2
    have nc := (h.low_noDep lc dc0).2
    intro ρ b
    have e1 := congrFun eg0 (set1 ρ y b)
    have e2 := congrFun eg0 ρ
    simp only [set1_ne _ _ h.ne] at e1
    rw [ea, ec] at e1 e2
    simp only [na ρ b, nc ρ b] at e1 e2
    rw [e2] at e1
    cases hneg : a.neg <;> simp_all
  have hcanon : ∀ p q g, Den s'.tbl p g → Den s'.tbl q g → p = q := by
    -- old nodes keep their meaning
    have back : ∀ p g, p ≠ i → Den s'.tbl p g → (p = 0 ∨ ∃ m, s.tbl p = some m) → Den s.tbl p g := by
      intro p g hp d hl
      rcases hl with rfl | ⟨m, em⟩
      · have := d.det Den.zero; rw [this]; exact Den.zero
      · obtain ⟨g', hg'⟩ := h.den p m em
        have := hg'.mono hE.tbl
        rw [d.det this]; exact hg'
    have liveOf : ∀ p g, p ≠ i → Den s'.tbl p g → (p = 0 ∨ ∃ m, s.tbl p = some m) := by
      intro p g hp d
      cases d with
      | zero => exact Or.inl rfl
      | node _ e _ _ =>
        rcases hcase _ _ e with ⟨a, _⟩ | ⟨_, b⟩
        · exact absurd a hp
        · exact Or.inr ⟨_, b⟩
    -- no old node denotes the new function
    have fresh : ∀ p, p ≠ i → ¬ Den s'.tbl p g0 := by
      intro p hp d
      have dp := back p g0 hp d (liveOf p g0 hp d)
      rcases liveOf p g0 hp d with rfl | ⟨m, em⟩
      · have := dp.det Den.zero
        subst this
        exact hg0 (fun _ _ => rfl)
      · by_cases hmx : m.var = x
        · -- same node
          obtain ⟨s1, s2⟩ := h.sonX p m em hmx
          have dF : Denotes s ⟨a.neg, p⟩ (fun ρ => if ρ x then ga ρ else gc ρ) := ⟨g0, dp, eg0⟩
          obtain ⟨gl, gr, dl, dr, hg⟩ := dF.split em (h.ne0 em)
          rw [hmx] at hg
          have nl : NoDep gl x := by
            obtain ⟨l0, dl0, rfl⟩ := dl
            rw [(sons_idx _ m).1] at dl0
            have := h.son_noDep (Or.inr ⟨rfl, rfl⟩) s1 dl0
            intro ρ b; simp only [this ρ b]
          have nr : NoDep gr x := by
            obtain ⟨l0, dl0, rfl⟩ := dr
            rw [(sons_idx _ m).2] at dl0
            have := h.son_noDep (Or.inr ⟨rfl, rfl⟩) s2 dl0
            intro ρ b; simp only [this ρ b]
          have na : NoDep ga x := by
            obtain ⟨l0, dl0, rfl⟩ := da
            have := (h.low_noDep la dl0).1
            intro ρ b; simp only [this ρ b]
          have nc : NoDep gc x := by
            obtain ⟨l0, dl0, rfl⟩ := dc
            have := (h.low_noDep lc dl0).1
            intro ρ b; simp only [this ρ b]
          have el : gl = ga := by
            funext ρ
            have := congrFun hg (set1 ρ x true)
            simp only [set1_same, if_true, na ρ true, nl ρ true] at this
            exact this.symm
          have er : gr = gc := by
            funext ρ
            have := congrFun hg (set1 ρ x false)
            simp only [set1_same, Bool.false_eq_true, if_false, nc ρ false, nr ρ false] at this
            exact this.symm
          subst el; subst er
          have e1 := h.canonF dl da
          have e2 := h.canonF dr dc
          have hm : m = ⟨x, a.idx, F.xneg a.neg c⟩ := by
            have c1 : m.lson = a.idx := by rw [← e1, (sons_idx _ m).1]
            have c2 : m.rson = F.xneg a.neg c := by
              rw [← e2]; simp only [sons]; rw [xneg_xneg]
            cases m
            simp only at hmx c1 c2
            subst hmx c1 c2
            rfl
          rw [hm] at em
          have := hE.tbl _ _ em
          exact hp (hT.uniq _ _ _ this ht)
        · by_cases hmy : m.var = y
          · exact h.dep_var em dp (by rw [hmy]; exact hg0y)
          · -- support
            have hvm := h.var_lt _ _ em
            have hof := h.onlyFrom dp
            rw [mlev_some em, if_neg (by tauto)] at hof
            rcases Nat.lt_or_ge (s.ord x) (s.ord m.var) with hlt | hge
            · exact hg0 (hof.noDep hlt)
            · have hne : s.ord m.var ≠ s.ord x := fun e => hmx (h.ord_inj _ _ hvm h.xlt e)
              have hlt : s.ord m.var < s.ord x := by omega
              refine h.dep_var em dp ?_
              -- the new function does not look at earlier variables
              obtain ⟨a0, da0, ea⟩ := da
              obtain ⟨c0, dc0, ec⟩ := dc
              have hxy := h.xy
              have na := (h.onlyFrom da0).noDep (v := m.var) (by have := h.mlev_low la; omega)
              have nc := (h.onlyFrom dc0).noDep (v := m.var) (by have := h.mlev_low lc; omega)
              intro ρ b
              have e1 := congrFun eg0 (set1 ρ m.var b)
              have e2 := congrFun eg0 ρ
              simp only [set1_ne _ _ (Ne.symm hmx)] at e1
              rw [ea, ec] at e1 e2
              simp only [na ρ b, nc ρ b] at e1 e2
              rw [e2] at e1
              cases hneg : a.neg <;> simp_all
    intro p q g dp dq
    by_cases hp : p = i
    · by_cases hq : q = i
      · rw [hp, hq]
      · subst hp
        have := dp.det dg0
        subst this
        exact absurd dq (fresh q hq)
    · by_cases hq : q = i
      · subst hq
        have := dq.det dg0
        subst this
        exact absurd dp (fresh p hp)
      · exact h.canon p q g (back p g hp dp (liveOf p g hp dp)) (back q g hq dq (liveOf q g hq dq))
  have hM' : MInv x y s' := by
    refine ⟨hT, ?_, ?_, ?_, ?_, ?_, ?_, ?_, ?_, hcanon, ?_, ?_, ?_⟩
    · intro j m ej
      rw [hA.nvars]
      rcases hcase j m ej with ⟨_, rfl⟩ | ⟨_, ej⟩
      · exact h.xlt
      · exact h.var_lt _ _ ej
    · intro j m ej
      rcases hcase j m ej with ⟨_, rfl⟩ | ⟨_, ej⟩
      · simp only
        intro hc'
        rw [← xneg_self_neg] at hc'
        apply hac
        rw [← xneg_xneg a.neg a, hc', xneg_xneg]
      · exact h.reduced _ _ ej
    · rw [hA.ord, hA.nvars]; exact h.ord_inj
    · rw [hA.ord, hA.nvars]; exact h.ord_lt
    · rw [hA.nvars]; exact h.xlt
    · rw [hA.nvars]; exact h.ylt
    · rw [hA.ord]; exact h.xy
    · intro j m ej
      rcases hcase j m ej with ⟨rfl, _⟩ | ⟨_, ej⟩
      · exact ⟨g0, dg0⟩
      · obtain ⟨g, hg⟩ := h.den j m ej
        exact ⟨g, hg.mono hE.tbl⟩
    · intro j m ej hv
      rcases hcase j m ej with ⟨_, rfl⟩ | ⟨_, ej⟩
      · exact ⟨Or.inl (la.ext hE), Or.inl (by simp only [F.xneg_idx]; exact lc.ext hE)⟩
      · exact ⟨(h.sonX j m ej hv).1.ext hE, (h.sonX j m ej hv).2.ext hE⟩
    · intro j m ej hv
      rcases hcase j m ej with ⟨_, rfl⟩ | ⟨_, ej⟩
      · exact absurd hv h.ne
      · exact ⟨(h.sonY j m ej hv).1.ext hE, (h.sonY j m ej hv).2.ext hE⟩
    · intro j m ej h1 h2
      rcases hcase j m ej with ⟨_, rfl⟩ | ⟨_, ej⟩
      · exact absurd rfl h1
      · exact ⟨(h.other j m ej h1 h2).1.ext' hE, (h.other j m ej h1 h2).2.ext' hE⟩
  -- reference counts
  have hil : i < s'.size := hT.live_lt i ((hT.live_iff i).2 (by rw [ht]; rfl))
  have hld : ∀ j, load s' ext pend j = load s ext pend j + one a.idx j + one c.idx j := by
    intro j
    simp only [load]
    have h1 := pc_upd s.tbl hil (some ⟨x, a.idx, F.xneg a.neg c⟩) j
    rw [hA.fresh, ed_some] at h1
    have hz : ed none j = 0 := rfl
    simp only [hz, F.xneg_idx] at h1
    have h2 : pc s.tbl s'.size j = pc s.tbl s.size j := by
      apply pc_mono hA.size
      intro p hp
      by_contra hc'
      have := h.T.live_lt p ((h.T.live_iff p).2 (Option.isSome_iff_ne_none.2 hc'))
      omega
    rw [hA.tbl]
    omega
  have hr0 : ∀ j, upd s.ref i 0 j ≤ maxRef := by
    intro j
    by_cases hj : j = i
    · subst hj; rw [upd_same]; omega
    · rw [upd_ne _ _ hj]; exact hR.le j
  have href : s'.ref = incRef (incRef (upd s.ref i 0) a.idx) c.idx := by
    rw [hA.ref]; simp only [F.xneg_idx]
  have hR' : RI s' ext pend := by
    refine ⟨?_, ?_, ?_⟩
    · intro j m ej
      rw [hld, href]
      apply incRef_cover (incRef_le _ _ _ (hr0 j))
      apply incRef_cover (hr0 j)
      rcases hcase j m ej with ⟨hji, _⟩ | ⟨hji, ej⟩
      · subst hji
        right
        rw [hR.dead j h0 hA.fresh]; omega
      · rw [upd_ne _ _ hji]; exact hR.live j m ej
    · intro j hj ej
      rw [hld]
      have hji : j ≠ i := by rintro rfl; rw [ht] at ej; exact absurd ej (by simp)
      have ej' : s.tbl j = none := by rw [hA.tbl, upd_ne _ _ hji] at ej; exact ej
      rw [hR.dead j hj ej']
      have aux : ∀ k, Low s y k → one k j = 0 := by
        intro k hk
        apply one_ne
        rintro rfl
        rcases hk with hk | ⟨m, em, _⟩
        · exact hj hk
        · rw [ej'] at em; exact absurd em (by simp)
      rw [aux _ la, aux _ lc]
    · intro j
      rw [href]
      exact incRef_le _ _ _ (incRef_le _ _ _ (hr0 j))
  refine ⟨_, s', e, hM', hR', ⟨hE, ?_, ?_⟩, ⟨g0, dg0, eg0⟩, rfl, hson⟩
  · intro j m ej
    rcases hcase j m ej with ⟨hji, rfl⟩ | ⟨_, ej⟩
    · right
      exact ⟨hji, rfl, la.ext hE, by simp only [F.xneg_idx]; exact lc.ext hE⟩
    · exact Or.inl ej
  · intro j m ej
    have hji : j ≠ i := by rintro rfl; rw [hA.fresh] at ej; exact absurd ej (by simp)
    rw [href]
    have h1 := incRef_ge (upd s.ref i 0) a.idx j (hr0 j)
    have h2 := incRef_ge (incRef (upd s.ref i 0) a.idx) c.idx j (incRef_le _ _ _ (hr0 j))
    have h3 : upd s.ref i 0 j = s.ref j := upd_ne _ _ hji
    omega

end Voss.Bdd
