import Verif.Bdd.SwapLoop
/-
Moving one node, and all nodes, in the swap of two adjacent variables.
-/
namespace Voss.Bdd

variable {x y : Nat} {s : S}

/-- Both sons lie below `y`. -/
def Settled (s : S) (y : Nat) (n : Node) : Prop := Low s y n.lson ∧ Low s y n.rson.idx

theorem MInv.lowF_noDep (h : MInv x y s) {f : F} (hl : Low s y f.idx) {g : BFun} (d : Denotes s f g) :
    NoDep g x := by
  obtain ⟨g0, d0, rfl⟩ := d
  have := (h.low_noDep hl d0).1
  intro ρ b
  simp only [this ρ b]

/-- The properties of a state in the middle of a swap. -/
structure Mid (x y : Nat) (ext : Nat → Nat) (s : S) : Prop where
  M : MInv x y s
  R : RI s ext (fun _ => 0)
  P : ∀ j n, s.tbl j = some n → 1 ≤ s.ref j

/-- Releasing references keeps whatever is referred to. -/
theorem kept_of_shr {ext pend : Nat → Nat} {s s' : S} (h : MInv x y s') (hR : RI s' ext pend)
    (hS : Shr x s s') {j : Nat} {g : BFun} (d : Den s.tbl j g) (hj : 0 < ext j ∨ 0 < pend j ∨ s.ref j = maxRef) :
    Den s'.tbl j g := by
  refine den_of_sub hS.tbl h.den d ?_
  by_cases h0 : j = 0
  · exact Or.inl h0
  right
  by_contra hc
  have hn : s'.tbl j = none := by
    cases e : s'.tbl j with
    | none => rfl
    | some m => exact absurd ⟨m, e⟩ hc
  have hl := hR.dead j h0 hn
  unfold load at hl
  rcases hj with hj | hj | hj
  · omega
  · omega
  · cases d with
    | zero => exact h0 rfl
    | node _ e _ _ => exact hc ⟨_, (hS.pin _ _ e hj).1⟩

theorem swapNode_spec {ext : Nat → Nat} (hm : Mid x y ext s) {i : Nat} {n : Node}
    (e : s.tbl i = some n) (hx : n.var = x) :
    ∃ s', swapNode x y s i = some s' ∧ Mid x y ext s' ∧ Kept ext s s' ∧ s'.ord = s.ord ∧
      (∀ j m, s.tbl j = some m → m.var = x → j ≠ i → s'.tbl j = some m) ∧
      (∀ j m, s'.tbl j = some m → m.var = x → ¬ Settled s' y m → j ≠ i ∧ s.tbl j = some m ∧
        ¬ Settled s y m) := by
  obtain ⟨h, hR, hP⟩ := hm
  obtain ⟨sl, sr⟩ := h.sonX i n e hx
  have hi0 := h.ne0 e
  have hpos := hP i n e
  unfold swapNode
  rw [e]
  simp only [Option.bind_eq_bind, Option.bind_some]
  rw [if_neg (show ¬ s.ref i = 0 by omega)]
  by_cases hno : isVar s y n.lson = false ∧ isVar s y n.rson.idx = false
  · rw [if_pos hno]
    refine ⟨s, rfl, ⟨h, hR, hP⟩, Kept.refl ext s, rfl, fun j m ej _ _ => ej, ?_⟩
    intro j m ej hv hun
    refine ⟨?_, ej, hun⟩
    rintro rfl
    rw [e] at ej; cases ej
    exact hun ⟨h.low_of_not sl hno.1, h.low_of_not sr hno.2⟩
  rw [if_neg hno]
  -- meaning of the node
  obtain ⟨gi, di⟩ := h.den i n e
  obtain ⟨gl, gr, dl, dr, hgi⟩ := (show Denotes s ⟨false, i⟩ gi from ⟨gi, di, by funext ρ; simp⟩).split e hi0
  have hsl : (sons ⟨false, i⟩ n).1 = ⟨false, n.lson⟩ := by simp [sons, F.xneg]
  have hsr : (sons ⟨false, i⟩ n).2 = n.rson := by simp [sons, F.xneg]
  rw [hsl] at dl
  rw [hsr] at dr
  rw [hx] at hgi
  obtain ⟨a, b, ga, gb, e1, la, lb, da, db, hgl, hneg, hab⟩ := h.cofsAt_spec (f := ⟨false, n.lson⟩) sl dl
  obtain ⟨c, d, gc, gd, e2, lc, ld, dc, dd, hgr, _, hcd⟩ := h.cofsAt_spec (f := n.rson) sr dr
  simp only [e1, e2, Option.bind_some]
  obtain ⟨nl, s1, e3, h1, R1, G1, dnl, nneg, snl⟩ := h.insert hR la lc da dc
  simp only [e3, Option.bind_some]
  obtain ⟨nr, s2, e4, h2, R2, G2, dnr, _, snr⟩ :=
    h1.insert R1 (lb.ext G1.ext) (ld.ext G1.ext) (db.ext G1.ext) (dd.ext G1.ext)
  simp only [e4, Option.bind_some]
  have dnl2 := dnl.ext G2.ext
  have hne : nl ≠ nr := by
    intro hc
    subst hc
    have heq := dnl2.det dnr
    have na := h.lowF_noDep la da
    have nb := h.lowF_noDep lb db
    have nc := h.lowF_noDep lc dc
    have nd := h.lowF_noDep ld dd
    have e1' : ga = gb := by
      funext ρ
      have := congrFun heq (set1 ρ x true)
      simp only [set1_same, if_true, na ρ true, nb ρ true] at this
      exact this
    have e2' : gc = gd := by
      funext ρ
      have := congrFun heq (set1 ρ x false)
      simp only [set1_same, Bool.false_eq_true, if_false, nc ρ false, nd ρ false] at this
      exact this
    subst e1' e2'
    apply hno
    constructor
    · rw [Bool.eq_false_iff]; intro hv
      exact hab hv (h.canonF da db)
    · rw [Bool.eq_false_iff]; intro hv
      exact hcd hv (h.canonF dc dd)
  rw [if_neg hne]
  have hE : ∀ j m, s.tbl j = some m → s2.tbl j = some m := fun j m ej => G2.ext.tbl _ _ (G1.ext.tbl _ _ ej)
  have eti := hE i n e
  have hun2 : ¬ (Low s2 y n.lson ∧ Low s2 y n.rson.idx) := by
    rintro ⟨q1, q2⟩
    apply hno
    have aux : ∀ k, Low s2 y k → isVar s y k = false := by
      intro k hk
      rw [Bool.eq_false_iff]
      intro hc
      obtain ⟨m, em, hmv⟩ := (isVar_true h.T.tbl0).1 hc
      have := h2.low_not_y hk
      rw [(isVar_true h2.T.tbl0).2 ⟨m, hE k m em, hmv⟩] at this
      exact absurd this (by simp)
    exact ⟨aux _ q1, aux _ q2⟩
  have di2 : Den s2.tbl i gi := di.mono hE
  have hgi' : gi = fun ρ => if ρ y then (if ρ x then ga ρ else gc ρ) else (if ρ x then gb ρ else gd ρ) := by
    rw [hgi, hgl, hgr]
    funext ρ
    by_cases h1 : ρ x = true <;> by_cases h2 : ρ y = true <;> simp [h1, h2]
  obtain ⟨h3, R3, D3, L3⟩ := h2.conv R2 eti hx hun2 dnl2 dnr (by rw [nneg, hneg]) (snl.ext G2.ext) snr hne
    di2 hgi'
  generalize hs3 : conv s2 i y nl nr = s3 at h3 R3 D3 L3
  have hs3' : ({ s2 with
      tbl := upd s2.tbl i (some ⟨y, nl.idx, nr⟩)
      ref := incRef (incRef s2.ref nl.idx) nr.idx } : S) = s3 := hs3
  simp only [hs3']
  have t3 : s3.tbl = upd s2.tbl i (some ⟨y, nl.idx, nr⟩) := by rw [← hs3]; rfl
  have r3 : s3.ref = incRef (incRef s2.ref nl.idx) nr.idx := by rw [← hs3]; rfl
  have o3 : s3.ord = s.ord := by rw [← G1.ext.ord, ← G2.ext.ord, ← hs3]; rfl
  have v3 : s3.nvars = s.nvars := by rw [← G1.ext.nvars, ← G2.ext.nvars, ← hs3]; rfl
  have n3 : s3.vname = s.vname := by rw [← G1.ext.vname, ← G2.ext.vname, ← hs3]; rfl
  have w3 : s3.vars = s.vars := by rw [← G1.ext.vars, ← G2.ext.vars, ← hs3]; rfl
  have ge23 : ∀ j, s2.ref j ≤ s3.ref j := by
    intro j
    rw [r3]
    exact (incRef_ge _ _ _ (R2.le j)).trans (incRef_ge _ _ _ (incRef_le _ _ _ (R2.le j)))
  have ge3 : ∀ j m, s.tbl j = some m → s.ref j ≤ s3.ref j := fun j m ej =>
    (G1.ref j m ej).trans ((G2.ref j m (G1.ext.tbl _ _ ej)).trans (ge23 j))
  have live3 : ∀ j m, s2.tbl j = some m → ∃ m', s3.tbl j = some m' := by
    intro j m ej
    rw [t3]
    by_cases hji : j = i
    · subst hji; exact ⟨_, upd_same _ _ _⟩
    · exact ⟨m, by rw [upd_ne _ _ hji]; exact ej⟩
  have P3 : ∀ j m, s3.tbl j = some m → 1 ≤ s3.ref j := by
    intro j m ej
    have : ∃ m', s2.tbl j = some m' := by
      by_cases hji : j = i
      · subst hji; exact ⟨n, eti⟩
      · rw [t3, upd_ne _ _ hji] at ej; exact ⟨m, ej⟩
    obtain ⟨m', ej'⟩ := this
    rcases G2.old j m' ej' with ej1 | ⟨hj, _⟩
    · rcases G1.old j m' ej1 with ej0 | ⟨hj, _⟩
      · exact (hP j m' ej0).trans (ge3 j m' ej0)
      · subst hj
        rw [r3]
        exact (incRef_pos _ _ (R2.le _)).trans (incRef_ge _ _ _ (incRef_le _ _ _ (R2.le _)))
    · subst hj
      rw [r3]
      exact incRef_pos _ _ (incRef_le _ _ _ (R2.le _))
  -- releasing the old sons
  obtain ⟨gl0, dl0, _⟩ := dl
  obtain ⟨gr0, dr0, _⟩ := dr
  have nl0 : NoDep gl0 x := h.son_noDep (Or.inr ⟨rfl, rfl⟩) sl dl0
  have nr0 : NoDep gr0 x := h.son_noDep (Or.inr ⟨rfl, rfl⟩) sr dr0
  have dl3 : Den s3.tbl n.lson gl0 := D3 _ _ (dl0.mono hE)
  have dr3 : Den s3.tbl n.rson.idx gr0 := D3 _ _ (dr0.mono hE)
  obtain ⟨s4, e5, h4, R4, P4, S4⟩ := decRef2_spec (x := x) (y := y) ext s3.fuel s3 n.lson
    (fun j => 0 + one n.rson.idx j) gl0 h3 R3 P3 dl3 nl0 (by unfold S.fuel; omega)
  rw [decRef_eq e5]
  simp only [Option.bind_some]
  have dr4 : Den s4.tbl n.rson.idx gr0 :=
    kept_of_shr h4 R4 S4 dr3 (Or.inr (Or.inl (by beta_reduce; rw [one_same]; omega)))
  obtain ⟨s5, e6, h5, R5, P5, S5⟩ := decRef2_spec (x := x) (y := y) ext s4.fuel s4 n.rson.idx
    (fun _ => 0) gr0 h4 R4 P4 dr4 nr0 (by unfold S.fuel; omega)
  have S35 := S4.trans S5
  refine ⟨s5, decRef_eq e6, ⟨h5, R5, P5⟩, ⟨?_, ?_, ?_, ?_, ?_⟩, ?_, ?_, ?_⟩
  · intro j g dj hj
    have dj3 := D3 j g (dj.mono hE)
    by_cases h0 : j = 0
    · subst h0; rw [dj.det Den.zero]; exact Den.zero
    refine kept_of_shr h5 R5 S35 dj3 ?_
    rcases hj with hj | hj
    · exact Or.inl hj
    · right; right
      cases dj with
      | zero => exact absurd rfl h0
      | node _ ej _ _ =>
        have := ge3 _ _ ej
        have := R3.le j
        omega
  · intro j m ej hr
    obtain ⟨m', ej'⟩ := live3 j m (hE j m ej)
    have hr3 : s3.ref j = maxRef := by
      have := ge3 j m ej
      have := R3.le j
      omega
    obtain ⟨q1, q2⟩ := S35.pin j m' ej' hr3
    exact ⟨q2, m', q1⟩
  · rw [S35.nvars, v3]
  · rw [S35.vname, n3]
  · rw [S35.vars, w3]
  · rw [S35.ord, o3]
  · intro j m ej hv hji
    refine S35.keepX j m ?_ hv
    rw [t3, upd_ne _ _ hji]
    exact hE j m ej
  · intro j m ej hv hun
    have ej3 := S35.tbl j m ej
    have hji : j ≠ i := by
      rintro rfl
      rw [t3, upd_same] at ej3
      cases ej3
      exact h.ne hv.symm
    have hun3 : ¬ Settled s3 y m := by
      rintro ⟨q1, q2⟩
      apply hun
      obtain ⟨w1, w2⟩ := h5.sonX j m ej hv
      have aux : ∀ k, Low s3 y k → isVar s5 y k = false := by
        intro k hk
        rw [Bool.eq_false_iff]
        intro hc
        obtain ⟨m', em, hmv⟩ := (isVar_true h5.T.tbl0).1 hc
        have := h3.low_not_y hk
        rw [(isVar_true h3.T.tbl0).2 ⟨m', S35.tbl k m' em, hmv⟩] at this
        exact absurd this (by simp)
      exact ⟨h5.low_of_not w1 (aux _ q1), h5.low_of_not w2 (aux _ q2)⟩
    have hun2 : ¬ Settled s2 y m := fun ⟨q1, q2⟩ => hun3 ⟨L3 _ q1, L3 _ q2⟩
    have ej2 : s2.tbl j = some m := by rw [t3, upd_ne _ _ hji] at ej3; exact ej3
    have ej1 : s1.tbl j = some m := by
      rcases G2.old j m ej2 with q | ⟨_, _, q1, q2⟩
      · exact q
      · exact absurd ⟨q1, q2⟩ hun2
    have hun1 : ¬ Settled s1 y m := fun ⟨q1, q2⟩ => hun2 ⟨q1.ext G2.ext, q2.ext G2.ext⟩
    have ej0 : s.tbl j = some m := by
      rcases G1.old j m ej1 with q | ⟨_, _, q1, q2⟩
      · exact q
      · exact absurd ⟨q1, q2⟩ hun1
    exact ⟨hji, ej0, fun ⟨q1, q2⟩ => hun1 ⟨q1.ext G1.ext, q2.ext G1.ext⟩⟩

theorem swapNodes_spec {ext : Nat → Nat} : ∀ (l : List Nat) (s : S), Mid x y ext s → l.Nodup →
    (∀ i ∈ l, ∃ n, s.tbl i = some n ∧ n.var = x) →
    (∀ j m, s.tbl j = some m → m.var = x → ¬ Settled s y m → j ∈ l) →
    ∃ s', swapNodes x y s l = some s' ∧ Mid x y ext s' ∧ Kept ext s s' ∧ s'.ord = s.ord ∧
      (∀ j m, s'.tbl j = some m → m.var = x → Settled s' y m)
  | [], s, hm, _, _, hall => by
    refine ⟨s, rfl, hm, Kept.refl ext s, rfl, ?_⟩
    intro j m ej hv
    by_contra hc
    exact absurd (hall j m ej hv hc) (by simp)
  | i :: l, s, hm, hnd, hl, hall => by
    obtain ⟨n, e, hx⟩ := hl i (by simp)
    obtain ⟨s1, e1, hm1, K1, o1, keep1, un1⟩ := swapNode_spec hm e hx
    obtain ⟨hni, hnd'⟩ := List.nodup_cons.1 hnd
    obtain ⟨s2, e2, hm2, K2, o2, un2⟩ := swapNodes_spec l s1 hm1 hnd' (by
      intro j hj
      obtain ⟨m, ej, hv⟩ := hl j (by simp [hj])
      exact ⟨m, keep1 j m ej hv (by rintro rfl; exact hni hj), hv⟩) (by
      intro j m ej hv hun
      obtain ⟨q1, q2, q3⟩ := un1 j m ej hv hun
      have := hall j m q2 hv q3
      rcases List.mem_cons.1 this with h | h
      · exact absurd h q1
      · exact h)
    refine ⟨s2, ?_, hm2, K1.trans K2, o2.trans o1, un2⟩
    simp only [swapNodes, e1, Option.bind_eq_bind, Option.bind_some]
    exact e2

end Voss.Bdd
