import Verif.Bdd.Lemmas
/-
Effect of `alloc` and `findInsert`.
-/
namespace Voss.Bdd

/-- The part of the invariant that does not mention the variable order. -/
structure TInv (s : S) : Prop where
  tbl0 : s.tbl 0 = none
  live_iff : ∀ i, i ∈ s.live ↔ (s.tbl i).isSome
  live_nodup : s.live.Nodup
  live_lt : ∀ i, i ∈ s.live → i < s.size
  free_ok : ∀ i, i ∈ s.free → i ≠ 0 ∧ i < s.size ∧ s.tbl i = none
  free_nodup : s.free.Nodup
  size_pos : 0 < s.size
  uniq : ∀ i j n, s.tbl i = some n → s.tbl j = some n → i = j

theorem SInv.toT {s : S} (h : SInv s) : TInv s :=
  ⟨h.tbl0, h.live_iff, h.live_nodup, h.live_lt, h.free_ok, h.free_nodup, h.size_pos, h.uniq⟩

theorem Ext.refl (s : S) : Ext s s := ⟨fun _ _ h => h, rfl, rfl, rfl, rfl⟩
theorem Ext.trans {a b c : S} (h : Ext a b) (h' : Ext b c) : Ext a c :=
  ⟨fun i n e => h'.tbl i n (h.tbl i n e), h'.ord.trans h.ord, h'.nvars.trans h.nvars,
    h'.vname.trans h.vname, h'.vars.trans h.vars⟩

theorem Denotes.ext {s s' : S} (h : Ext s s') {f : F} {g : BFun} (d : Denotes s f g) :
    Denotes s' f g := d.mono h.tbl

theorem lookup_some {s : S} {n : Node} {i : Nat} (h : lookup s n = some i) :
    i ∈ s.live ∧ s.tbl i = some n := by
  unfold lookup at h
  refine ⟨List.mem_of_find?_eq_some h, ?_⟩
  have := List.find?_some h
  simpa using this

theorem lookup_none {s : S} (hs : TInv s) {n : Node} (h : lookup s n = none) (i : Nat) :
    s.tbl i ≠ some n := by
  unfold lookup at h
  rw [List.find?_eq_none] at h
  intro e
  exact h i ((hs.live_iff i).2 (by simp [e])) (by simp [e])

theorem TInv.grow {s : S} (hs : TInv s) (hf : s.free = []) : TInv (grow s) where
  tbl0 := hs.tbl0
  live_iff := hs.live_iff
  live_nodup := hs.live_nodup
  live_lt := fun i hi => by have := hs.live_lt i hi; simp only [Bdd.grow]; omega
  free_ok := fun i hi => by
    simp only [Bdd.grow, List.mem_range'_1] at hi ⊢
    have := hs.size_pos
    refine ⟨by omega, by omega, ?_⟩
    by_contra hc
    have : i ∈ s.live := (hs.live_iff i).2 (Option.isSome_iff_ne_none.2 hc)
    have := hs.live_lt i this
    omega
  free_nodup := List.nodup_range'
  size_pos := by have := hs.size_pos; simp only [Bdd.grow]; omega
  uniq := hs.uniq

/-- What a freshly allocated node leaves in the state. -/
structure Alloc (s : S) (n : Node) (i : Nat) (s' : S) : Prop where
  ne0 : i ≠ 0
  fresh : s.tbl i = none
  tbl : s'.tbl = upd s.tbl i (some n)
  live : s'.live = i :: s.live
  size : s.size ≤ s'.size
  ref : s'.ref = incRef (incRef (upd s.ref i 0) n.lson) n.rson.idx
  ord : s'.ord = s.ord
  nvars : s'.nvars = s.nvars
  vname : s'.vname = s.vname
  vars : s'.vars = s.vars
  cache : s'.cache = s.cache

theorem alloc_spec {s : S} (hs : TInv s) {n : Node} (hn : ∀ i, s.tbl i ≠ some n) :
    ∃ i s', alloc s n = some (i, s') ∧ TInv s' ∧ Alloc s n i s' := by
  obtain ⟨s1, e1, h1, hne, ht, hl, hsz, hr, ho, hv, hnm, hvs, hc⟩ : ∃ s1 : S,
      (if s.free = [] then grow s else s) = s1 ∧ TInv s1 ∧ s1.free ≠ [] ∧ s1.tbl = s.tbl ∧
      s1.live = s.live ∧ s.size ≤ s1.size ∧ s1.ref = s.ref ∧ s1.ord = s.ord ∧ s1.nvars = s.nvars ∧
      s1.vname = s.vname ∧ s1.vars = s.vars ∧ s1.cache = s.cache := by
    by_cases hf : s.free = []
    · refine ⟨grow s, by simp [hf], hs.grow hf, ?_, rfl, rfl, by simp only [Bdd.grow]; omega, rfl,
        rfl, rfl, rfl, rfl, rfl⟩
      simp only [Bdd.grow, ne_eq, List.range'_eq_nil_iff]
      have := hs.size_pos; omega
    · exact ⟨s, by simp [hf], hs, hf, rfl, rfl, le_rfl, rfl, rfl, rfl, rfl, rfl, rfl⟩
  unfold alloc
  simp only [e1]
  cases hfree : s1.free with
  | nil => exact absurd hfree hne
  | cons i rest =>
    have hi := h1.free_ok i (by simp [hfree])
    have hnd := h1.free_nodup
    rw [hfree, List.nodup_cons] at hnd
    refine ⟨i, _, rfl, ?_, ?_⟩
    · constructor
      · simp only; rw [upd_ne _ _ (Ne.symm hi.1)]; exact h1.tbl0
      · intro j
        simp only [List.mem_cons]
        by_cases hj : j = i
        · subst hj; simp
        · rw [upd_ne _ _ hj]; simp only [hj, false_or]; exact h1.live_iff j
      · simp only [List.nodup_cons]
        refine ⟨fun hc => ?_, h1.live_nodup⟩
        have := (h1.live_iff i).1 hc
        rw [hi.2.2] at this; simp at this
      · intro j hj
        simp only [List.mem_cons] at hj
        rcases hj with rfl | hj
        · exact hi.2.1
        · exact h1.live_lt j hj
      · intro j hj
        simp only at hj ⊢
        have := h1.free_ok j (by simp [hfree, hj])
        refine ⟨this.1, this.2.1, ?_⟩
        rw [upd_ne _ _ (by rintro rfl; exact hnd.1 hj)]
        exact this.2.2
      · exact hnd.2
      · exact h1.size_pos
      · intro a b m ha hb
        simp only at ha hb
        by_cases hai : a = i <;> by_cases hbi : b = i
        · rw [hai, hbi]
        · subst hai
          rw [upd_same] at ha; rw [upd_ne _ _ hbi] at hb
          cases ha; rw [ht] at hb; exact absurd hb (hn b)
        · subst hbi
          rw [upd_same] at hb; rw [upd_ne _ _ hai] at ha
          cases hb; rw [ht] at ha; exact absurd ha (hn a)
        · rw [upd_ne _ _ hai] at ha; rw [upd_ne _ _ hbi] at hb
          exact h1.uniq _ _ _ ha hb
    · refine ⟨hi.1, by rw [← ht]; exact hi.2.2, ?_, ?_, hsz, ?_, ho, hv, hnm, hvs, hc⟩ <;>
        simp only [ht, hl, hr]

theorem Alloc.ext {s s' : S} {n : Node} {i : Nat} (h : Alloc s n i s') : Ext s s' := by
  refine ⟨fun j m e => ?_, h.ord, h.nvars, h.vname, h.vars⟩
  rw [h.tbl, upd_ne _ _ (by rintro rfl; rw [h.fresh] at e; exact absurd e (by simp))]
  exact e

/-- `findInsert` when the sons differ. -/
theorem findInsert_T {s : S} (hs : TInv s) (v : Nat) {l r : F} (hlr : l ≠ r) :
    ∃ i s', findInsert s v l r = some (⟨l.neg, i⟩, s') ∧ TInv s' ∧ i ≠ 0 ∧
      s'.tbl i = some ⟨v, l.idx, F.xneg l.neg r⟩ ∧ Ext s s' ∧ s'.cache = s.cache ∧
      (s' = s ∨ Alloc s ⟨v, l.idx, F.xneg l.neg r⟩ i s') := by
  unfold findInsert
  rw [if_neg hlr]
  simp only [F.xneg_idx]
  cases hlk : lookup s ⟨v, l.idx, F.xneg l.neg r⟩ with
  | some i =>
    have h := lookup_some hlk
    refine ⟨i, s, rfl, hs, ?_, h.2, Ext.refl s, rfl, Or.inl rfl⟩
    rintro rfl; rw [hs.tbl0] at h; exact absurd h.2 (by simp)
  | none =>
    obtain ⟨i, s', e, hT, hA⟩ := alloc_spec hs (lookup_none hs hlk)
    simp only [e]
    refine ⟨i, s', rfl, hT, hA.ne0, ?_, hA.ext, hA.cache, Or.inr hA⟩
    rw [hA.tbl, upd_same]

theorem xneg_self_neg (l : F) : (F.xneg l.neg l) = ⟨false, l.idx⟩ := by
  apply F.ext' <;> simp [F.xneg_neg, F.xneg_idx]

/-- Extending the order-independent invariant by the node conditions. -/
theorem sinv_of_alloc {s s' : S} (hs : SInv s) (hT : TInv s') {n : Node} {i : Nat}
    (hA : Alloc s n i s') (hv : n.var < s.nvars) (hl : Below s n.var n.lson)
    (hr : Below s n.var n.rson.idx) (hd : (⟨false, n.lson⟩ : F) ≠ n.rson) : SInv s' := by
  have hb : ∀ v j, Below s v j → Below s' v j := by
    intro v j h
    rcases h with h | ⟨m, e, h⟩
    · exact Or.inl h
    · exact Or.inr ⟨m, hA.ext.tbl _ _ e, by rw [hA.ord]; exact h⟩
  have hcase : ∀ j m, s'.tbl j = some m → m = n ∨ s.tbl j = some m := by
    intro j m e
    rw [hA.tbl] at e
    by_cases hj : j = i
    · subst hj; rw [upd_same] at e; cases e; exact Or.inl rfl
    · rw [upd_ne _ _ hj] at e; exact Or.inr e
  refine ⟨hT.tbl0, hT.live_iff, hT.live_nodup, hT.live_lt, hT.free_ok, hT.free_nodup, hT.size_pos,
    hT.uniq, ?_, ?_, ?_, ?_, ?_, ?_⟩
  · intro j m e
    rw [hA.nvars]
    rcases hcase j m e with rfl | e
    · exact hv
    · exact hs.var_lt _ _ e
  · intro j m e
    rcases hcase j m e with rfl | e
    · exact hb _ _ hl
    · exact hb _ _ (hs.below_l _ _ e)
  · intro j m e
    rcases hcase j m e with rfl | e
    · exact hb _ _ hr
    · exact hb _ _ (hs.below_r _ _ e)
  · intro j m e
    rcases hcase j m e with rfl | e
    · exact hd
    · exact hs.reduced _ _ e
  · rw [hA.ord, hA.nvars]; exact hs.ord_inj
  · rw [hA.ord, hA.nvars]; exact hs.ord_lt

theorem findInsert_spec {s : S} (hs : SInv s) {v : Nat} (hv : v < s.nvars) {l r : F} {gl gr : BFun}
    (hl : Denotes s l gl) (hr : Denotes s r gr) (hll : s.ord v < lev s l.idx)
    (hlr : s.ord v < lev s r.idx) :
    ∃ res s', findInsert s v l r = some (res, s') ∧ SInv s' ∧ Ext s s' ∧ s'.cache = s.cache ∧
      Denotes s' res (fun ρ => if ρ v then gl ρ else gr ρ) := by
  by_cases hlr' : l = r
  · subst hlr'
    refine ⟨l, s, by simp [findInsert], hs, Ext.refl s, rfl, ?_⟩
    have := hl.det hr
    subst this
    simpa using hl
  · obtain ⟨i, s', e, hT, h0, ht, hE, hc, hA⟩ := findInsert_T hs.toT v hlr'
    refine ⟨_, s', e, ?_, hE, hc, ?_⟩
    · rcases hA with rfl | hA
      · exact hs
      · refine sinv_of_alloc hs hT hA hv (below_of_lev hl hll) ?_ ?_
        · simp only [F.xneg_idx]; exact below_of_lev hr hlr
        · simp only
          intro hc'
          rw [← xneg_self_neg] at hc'
          apply hlr'
          rw [← xneg_xneg l.neg l, hc', xneg_xneg]
    · have dl := (hl.ext hE).xneg l.neg
      have dr := (hr.ext hE).xneg l.neg
      rw [xneg_self_neg] at dl
      have := denotes_node (s := s') (f := ⟨l.neg, i⟩) (gl := gl) (gr := gr) h0 ht
        (by simp only [sons]; rw [← xneg_self_neg, xneg_xneg]; exact hl.ext hE)
        (by simp only [sons]; rw [xneg_xneg]; exact hr.ext hE)
      exact this

end Voss.Bdd
