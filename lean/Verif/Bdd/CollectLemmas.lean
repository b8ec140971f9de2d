import Verif.Bdd.ReorderLemmas
/-
A garbage collection as a whole.
-/
namespace Voss.Bdd

theorem bump_le {rf : Nat → Nat} (h : ∀ j, rf j ≤ maxRef) (i j : Nat) : bump rf i j ≤ maxRef := by
  unfold bump
  split
  · next hc =>
    by_cases hj : j = i
    · subst hj; rw [upd_same]; have := h j; omega
    · rw [upd_ne _ _ hj]; exact h j
  · exact h j

theorem gcMark_le {s : S} : ∀ (fuel : Nat) (m m' : MR) (i : Nat), gcMark fuel s m i = some m' →
    (∀ p, m.rf p ≤ maxRef) → ∀ p, m'.rf p ≤ maxRef := by
  intro fuel
  induction fuel with
  | zero => intro m m' i h; simp [gcMark] at h
  | succ fuel ih =>
    intro m m' i h hp
    unfold gcMark at h
    split at h
    · cases h; exact hp
    · split at h
      · cases h; exact bump_le hp i
      · simp only [Option.bind_eq_bind] at h
        rw [Option.bind_eq_some_iff] at h
        obtain ⟨n, _, h⟩ := h
        rw [Option.bind_eq_some_iff] at h
        obtain ⟨m1, h1, h2⟩ := h
        exact ih _ _ _ h2 (ih _ _ _ h1 (bump_le hp i))

theorem markList_le {s : S} : ∀ (fs : List F) (m m' : MR), markList s m fs = some m' →
    (∀ p, m.rf p ≤ maxRef) → ∀ p, m'.rf p ≤ maxRef := by
  intro fs
  induction fs with
  | nil => intro m m' h; cases h; exact fun h => h
  | cons f fs ih =>
    intro m m' h hp
    unfold markList at h
    simp only [Option.bind_eq_bind] at h
    rw [Option.bind_eq_some_iff] at h
    obtain ⟨m1, h1, h2⟩ := h
    exact ih _ _ h2 (gcMark_le _ _ _ _ h1 hp)

theorem markVars_le : ∀ (vs : List (String × F)) (m : MR), (∀ p, m.rf p ≤ maxRef) →
    ∀ p, (markVars m vs).rf p ≤ maxRef := by
  intro vs
  induction vs with
  | nil => intro m h; exact h
  | cons x vs ih =>
    intro m h
    refine ih _ ?_
    intro p
    by_cases hp : p = x.2.idx
    · subst hp; simp
    · simp only [upd_ne _ _ hp]; exact h p

theorem markPhase_le {s : S} {roots prot : List F} {m : MR} (h : markPhase s roots prot = some m) :
    ∀ p, m.rf p ≤ maxRef := by
  unfold markPhase at h
  simp only [Option.bind_eq_bind] at h
  rw [Option.bind_eq_some_iff] at h
  obtain ⟨m1, h1, h⟩ := h
  rw [Option.bind_eq_some_iff] at h
  obtain ⟨m2, h2, h⟩ := h
  simp only [Option.some.injEq] at h
  subst h
  have a1 := markList_le _ _ _ h1 (by intro p; simp [resetRefs])
  have a2 := markList_le _ _ _ h2 (markVars_le _ _ a1)
  intro p
  by_cases hp : p = 0
  · subst hp; simp [maxRef]
  · simp only [upd_ne _ _ hp]; exact a2 p

theorem sweep_rs {s : S} (hI : Inv s) {ext : Nat → Nat} {m : MR} (hm : GI0 s ext m)
    (hle : ∀ p, m.rf p ≤ maxRef) : RS ext (sweep s m) (revTable (sweep s m)) := by
  have h1 := sweep_sinv hI.str hm
  obtain ⟨l, r⟩ := revTable_spec h1
  have hact : (sweep s m).tbl = act s m := rfl
  refine ⟨h1, ⟨?_, ?_, hle⟩, ?_, sweep_vinv hI.vars hm, ?_, l, r⟩
  · intro j n e
    have h0 := idx_ne_zero h1 e
    exact hm.cnt j h0
  · intro j h0 e
    have hnm : m.mark j ≠ true := by
      intro hc
      obtain ⟨n, en⟩ := hm.live j h0 hc
      simp [sweep, hc, en] at e
    have he : ext j = 0 := by
      by_contra hc
      exact hnm (hm.roots j h0 (by omega))
    have hp : pc (act s m) s.size j = 0 := by
      unfold pc
      apply Finset.sum_eq_zero
      intro p _
      unfold act
      split
      · next hmp =>
        cases ep : s.tbl p with
        | none => rfl
        | some n =>
          have hp0 := idx_ne_zero hI.str ep
          obtain ⟨a, b⟩ := hm.clos p n hp0 hmp ep
          have h1' : n.lson ≠ j := by rintro rfl; exact a.elim (fun h => h0 h) hnm
          have h2' : n.rson.idx ≠ j := by rintro rfl; exact b.elim (fun h => h0 h) hnm
          show ed (some n) j = 0; rw [ed_some, one_ne h1', one_ne h2']
      · rfl
    show pc (act s m) s.size j + ext j + 0 = 0
    omega
  · intro j n e
    have h0 := idx_ne_zero h1 e
    exact (hm.pos j h0).1 (sweep_tbl e).1
  · intro name f hx
    exact (hm.vars (name, f) hx).2

theorem erase_inv {ext : Nat → Nat} {s : S} {rev : List Nat} (h : RS ext s rev) : Inv (eraseCache s) := by
  have h1 := h.I
  have h2 := h.V
  refine ⟨⟨h1.tbl0, h1.live_iff, h1.live_nodup, h1.live_lt, h1.free_ok, h1.free_nodup,
      h1.size_pos, h1.uniq, h1.var_lt, h1.below_l, h1.below_r, h1.reduced, h1.ord_inj, h1.ord_lt⟩, ?_,
      ⟨h2.var_ok, h2.var_all, h2.name_inj⟩⟩
  intro e he
  simp [eraseCache] at he

/-- When a plan for a collection can be carried out. -/
def Plan.OK (s : S) : Plan → Prop
  | .keep => True
  | .sift _ => s.nvars % 2 = 0
  | .user vs => Paired s ∧ Pairs vs ∧ ∀ v ∈ vs, v < s.nvars

/-- What every garbage collection, with or without reordering, guarantees. -/
theorem gc_spec {s : S} (hI : Inv s) (roots prot : List F)
    (hr : ∀ f ∈ roots, ∃ g, Denotes s f g) (hp : ∀ f ∈ prot, ∃ g, Denotes s f g) (p : Plan)
    (hok : p.OK s) :
    ∃ s', gc s roots prot p = some s' ∧ Inv s' ∧ s'.nvars = s.nvars ∧ s'.vname = s.vname ∧
      s'.vars = s.vars ∧ (∀ f g, f ∈ roots ∨ f ∈ prot → Denotes s f g → Denotes s' f g) ∧
      (∀ name f g, (name, f) ∈ s.vars → Denotes s f g → Denotes s' f g) ∧
      (p = .keep → s'.ord = s.ord) ∧
      (Paired s → Paired s') ∧
      (∀ vs, p = .user vs → (vs.Nodup → ∀ j v, vs[j]? = some v → s'.ord v = j)) := by
  obtain ⟨m, em, hm⟩ := markPhase_spec hI roots prot hr hp
  have hle := markPhase_le em
  have hroot : ∀ f, f ∈ roots ∨ f ∈ prot → f.idx = 0 ∨ 0 < cntF (roots ++ prot) f.idx := by
    intro f hf
    right
    exact cntF_mem (List.mem_append.2 hf)
  have hmark : ∀ f, f ∈ roots ∨ f ∈ prot → f.idx = 0 ∨ m.mark f.idx = true := by
    intro f hf
    by_cases h0 : f.idx = 0
    · exact Or.inl h0
    · exact Or.inr (hm.roots _ h0 ((hroot f hf).resolve_left h0))
  unfold gc
  simp only [em, Option.bind_eq_bind, Option.bind_some]
  have RS0 := sweep_rs hI hm hle
  -- the common part of the two kinds of reordering
  have common : ∀ s1, Kept (cntF (roots ++ prot)) (sweep s m) s1 →
      (∀ f g, f ∈ roots ∨ f ∈ prot → Denotes s f g → Denotes (eraseCache s1) f g) ∧
      (∀ name f g, (name, f) ∈ s.vars → Denotes s f g → Denotes (eraseCache s1) f g) := by
    intro s1 K
    constructor
    · intro f g hf d
      have d1 := sweep_denotes hm d (hmark f hf)
      exact K.denotes d1 (Or.inl (cntF_mem (List.mem_append.2 hf)))
    · intro name f g hf d
      have d1 := sweep_denotes hm d (Or.inr (hm.vars (name, f) hf).1)
      exact K.denotes d1 (Or.inr (hm.vars (name, f) hf).2)
  cases p with
  | keep =>
    refine ⟨_, rfl, clean_inv hI hm, rfl, rfl, rfl, ?_, ?_, fun _ => rfl, fun h => ⟨h.even, h.pos⟩, ?_⟩
    · intro f g hf d
      exact sweep_denotes hm d (hmark f hf)
    · intro name f g hf d
      exact sweep_denotes hm d (Or.inr (hm.vars (name, f) hf).1)
    · intro vs h; cases h
  | sift c =>
    obtain ⟨s1, r1, e1, R1, K1⟩ := reorderReps_spec c (sweep s m).live.length c.repetitions (sweep s m)
      (revTable (sweep s m)) 0 RS0 hok
    refine ⟨eraseCache s1, ?_, erase_inv R1, K1.nvars, K1.vname, K1.vars, (common s1 K1.toKept).1, (common s1 K1.toKept).2,
      ?_, ?_, ?_⟩
    · simp only [collect, reOrder, e1, Option.bind_eq_bind, Option.bind_some]
    · intro h; cases h
    · intro h
      have := K1.pair (show Paired (sweep s m) from ⟨h.even, h.pos⟩)
      exact ⟨this.even, this.pos⟩
    · intro vs h; cases h
  | user vs =>
    obtain ⟨hP, hvs, hlt⟩ := hok
    obtain ⟨s1, r1, e1, R1, K1, P1, _, g1⟩ := userLoop_spec hvs (sweep s m) (revTable (sweep s m)) 0 RS0
      ⟨hP.even, hP.pos⟩ hlt rfl
    refine ⟨eraseCache s1, ?_, erase_inv R1, K1.nvars, K1.vname, K1.vars, (common s1 K1).1, (common s1 K1).2,
      ?_, fun _ => ⟨P1.even, P1.pos⟩, ?_⟩
    · simp only [collect, userReorder, e1, Option.bind_eq_bind, Option.bind_some]
    · intro h; cases h
    · intro vs' h
      cases h
      intro hnd j v hj
      have := g1 (by intro v _; omega) hnd j v hj
      rw [Nat.zero_add] at this
      exact this

end Voss.Bdd
