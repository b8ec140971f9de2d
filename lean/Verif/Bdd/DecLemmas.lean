import Verif.Bdd.SwapLemmas
/-
Releasing references (`decRef`).
-/
namespace Voss.Bdd

/-- Number of references to `j` that the counters have to cover: edges, holders outside the package
and references about to be released. -/
def load (s : S) (ext pend : Nat → Nat) (j : Nat) : Nat := pc s.tbl s.size j + ext j + pend j

/-- Reference counts are large enough, and nothing refers to a slot not in use. -/
structure RI (s : S) (ext pend : Nat → Nat) : Prop where
  live : ∀ j n, s.tbl j = some n → s.ref j = maxRef ∨ load s ext pend j ≤ s.ref j
  dead : ∀ j, j ≠ 0 → s.tbl j = none → load s ext pend j = 0
  le : ∀ j, s.ref j ≤ maxRef

/-- `Bdec_ref_cnt` with the slot taken out of use before the recursive calls. -/
def decRef2 : Nat → S → Nat → Option S
  | 0, _, _ => none
  | fuel + 1, s, i =>
    if i = 0 then some s
    else if s.ref i = 0 then none
    else if s.ref i = maxRef then some s
    else if 0 < s.ref i - 1 then some { s with ref := upd s.ref i (s.ref i - 1) }
    else do
      let n ← s.tbl i
      let s ← decRef2 fuel { s with ref := upd s.ref i (s.ref i - 1), tbl := upd s.tbl i none,
                                    live := s.live.filter (· ≠ i) } n.lson
      let s ← decRef2 fuel s n.rson.idx
      some { s with free := i :: s.free }

/-- `t` is `s` with some more slots in use. -/
structure Ov (D : List Nat) (s t : S) : Prop where
  tbl : ∀ j, j ∉ D → t.tbl j = s.tbl j
  none : ∀ j, j ∈ D → s.tbl j = none
  live : s.live = t.live.filter (· ∉ D)
  free : t.free = s.free
  size : t.size = s.size
  ref : t.ref = s.ref
  ord : t.ord = s.ord
  nvars : t.nvars = s.nvars
  vname : t.vname = s.vname
  vars : t.vars = s.vars
  cache : t.cache = s.cache

theorem Ov.eq {s t : S} (h : Ov [] s t) : t = s := by
  have h1 : t.tbl = s.tbl := by funext j; exact h.tbl j (by simp)
  have h2 : t.live = s.live := by rw [h.live]; simp
  cases s; cases t
  simp only [S.mk.injEq]
  exact ⟨h1, h2, h.free, h.size, h.ref, h.ord, h.nvars, h.vname, h.vars, h.cache⟩

theorem Ov.refl (s : S) : Ov [] s s :=
  ⟨fun _ _ => rfl, by simp, by simp, rfl, rfl, rfl, rfl, rfl, rfl, rfl, rfl⟩

theorem decRef_ov : ∀ (fuel : Nat) (s s' t : S) (i : Nat) (D : List Nat), decRef2 fuel s i = some s' →
    Ov D s t → ∃ t', decRef fuel t i = some t' ∧ Ov D s' t' ∧ ∀ j ∈ D, t'.tbl j = t.tbl j := by
  intro fuel
  induction fuel with
  | zero => intro s s' t i D h; simp [decRef2] at h
  | succ fuel ih =>
    intro s s' t i D h hO
    unfold decRef2 at h
    unfold decRef
    rw [hO.ref]
    by_cases h0 : i = 0
    · rw [if_pos h0] at h ⊢
      cases h; exact ⟨t, rfl, hO, fun _ _ => rfl⟩
    rw [if_neg h0] at h ⊢
    by_cases h1 : s.ref i = 0
    · rw [if_pos h1] at h; exact absurd h (by simp)
    rw [if_neg h1] at h ⊢
    by_cases h2 : s.ref i = maxRef
    · rw [if_pos h2] at h ⊢
      cases h; exact ⟨t, rfl, hO, fun _ _ => rfl⟩
    rw [if_neg h2] at h ⊢
    by_cases h3 : 0 < s.ref i - 1
    · rw [if_pos h3] at h ⊢
      cases h
      refine ⟨_, rfl, ⟨hO.tbl, hO.none, hO.live, hO.free, hO.size, rfl, hO.ord, hO.nvars,
        hO.vname, hO.vars, hO.cache⟩, fun _ _ => rfl⟩
    rw [if_neg h3] at h ⊢
    simp only [Option.bind_eq_bind] at h ⊢
    rw [Option.bind_eq_some_iff] at h
    obtain ⟨n, en, h⟩ := h
    rw [Option.bind_eq_some_iff] at h
    obtain ⟨s1, e1, h⟩ := h
    rw [Option.bind_eq_some_iff] at h
    obtain ⟨s2, e2, h⟩ := h
    cases h
    have hiD : i ∉ D := fun hi => by rw [hO.none i hi] at en; exact absurd en (by simp)
    have ent : t.tbl i = some n := by rw [hO.tbl i hiD, en]
    simp only [ent, Option.bind_some]
    have hO1 : Ov (i :: D) { s with ref := upd s.ref i (s.ref i - 1), tbl := upd s.tbl i none,
                                    live := s.live.filter (· ≠ i) }
        { t with ref := upd s.ref i (s.ref i - 1) } := by
      refine ⟨?_, ?_, ?_, hO.free, hO.size, rfl, hO.ord, hO.nvars, hO.vname, hO.vars, hO.cache⟩
      · intro j hj
        simp only [List.mem_cons, not_or] at hj
        simp only
        rw [upd_ne _ _ hj.1]
        exact hO.tbl j hj.2
      · intro j hj
        simp only
        by_cases hji : j = i
        · subst hji; exact upd_same _ _ _
        · rw [upd_ne _ _ hji]
          exact hO.none j ((List.mem_cons.1 hj).resolve_left hji)
      · simp only
        rw [hO.live, List.filter_filter]
        apply List.filter_congr
        intro a _
        simp [List.mem_cons, Bool.and_comm]
    obtain ⟨t1, f1, hO2, k1⟩ := ih _ _ _ _ _ e1 hO1
    simp only [f1, Option.bind_some]
    obtain ⟨t2, f2, hO3, k2⟩ := ih _ _ _ _ _ e2 hO2
    simp only [f2, Option.bind_some]
    refine ⟨_, rfl, ⟨?_, ?_, ?_, ?_, hO3.size, hO3.ref, hO3.ord, hO3.nvars, hO3.vname, hO3.vars,
      hO3.cache⟩, ?_⟩
    · intro j hj
      simp only
      by_cases hji : j = i
      · subst hji; rw [upd_same]; exact (hO3.none j (by simp)).symm
      · rw [upd_ne _ _ hji]
        exact hO3.tbl j (by simp [hji, hj])
    · intro j hj; exact hO3.none j (by simp [hj])
    · simp only
      rw [hO3.live, List.filter_filter]
      apply List.filter_congr
      intro a _
      simp [List.mem_cons, Bool.and_comm]
    · simp only; rw [hO3.free]
    · intro j hj
      have hji : j ≠ i := by rintro rfl; exact hiD hj
      simp only
      rw [upd_ne _ _ hji, k2 j (by simp [hj]), k1 j (by simp [hj])]

theorem decRef_eq {fuel : Nat} {s s' : S} {i : Nat} (h : decRef2 fuel s i = some s') :
    decRef fuel s i = some s' := by
  obtain ⟨t', e, hO, _⟩ := decRef_ov fuel s s' s i [] h (Ov.refl s)
  rw [hO.eq] at e; exact e

/-- Effect of releasing references: nodes may disappear. -/
structure Shr (x : Nat) (s s' : S) : Prop where
  tbl : ∀ j n, s'.tbl j = some n → s.tbl j = some n
  keepX : ∀ j n, s.tbl j = some n → n.var = x → s'.tbl j = some n
  pin : ∀ j n, s.tbl j = some n → s.ref j = maxRef → s'.tbl j = some n ∧ s'.ref j = maxRef
  free : ∀ j, j ∈ s'.free → j ∈ s.free ∨ ∃ n, s.tbl j = some n
  size : s'.size = s.size
  ord : s'.ord = s.ord
  nvars : s'.nvars = s.nvars
  vname : s'.vname = s.vname
  vars : s'.vars = s.vars

theorem Shr.refl (x : Nat) (s : S) : Shr x s s :=
  ⟨fun _ _ h => h, fun _ _ h _ => h, fun _ _ h h' => ⟨h, h'⟩, fun _ h => Or.inl h, rfl, rfl, rfl, rfl, rfl⟩

theorem Shr.trans {x : Nat} {a b c : S} (h : Shr x a b) (h' : Shr x b c) : Shr x a c :=
  ⟨fun j n e => h.tbl j n (h'.tbl j n e), fun j n e hv => h'.keepX j n (h.keepX j n e hv) hv,
    fun j n e hr => h'.pin j n (h.pin j n e hr).1 (h.pin j n e hr).2,
    fun j hj => by
      rcases h'.free j hj with hj | ⟨n, hn⟩
      · exact h.free j hj
      · exact Or.inr ⟨n, h.tbl j n hn⟩,
    h'.size.trans h.size, h'.ord.trans h.ord, h'.nvars.trans h.nvars, h'.vname.trans h.vname,
    h'.vars.trans h.vars⟩

variable {x y : Nat} {s : S}

theorem den_remove {t : Nat → Option Node} {i : Nat}
    (h : ∀ p n, t p = some n → n.lson ≠ i ∧ n.rson.idx ≠ i) {j : Nat} {g : BFun} (d : Den t j g) :
    j ≠ i → Den (upd t i none) j g := by
  induction d with
  | zero => intro _; exact Den.zero
  | @node j n gl gr h0 e _ _ ihl ihr =>
    intro hj
    obtain ⟨a, b⟩ := h j n e
    exact Den.node h0 (by rw [upd_ne _ _ hj]; exact e) (ihl a) (ihr b)

theorem den_of_sub {t t' : Nat → Option Node} (hsub : ∀ j n, t' j = some n → t j = some n)
    (hden : ∀ j n, t' j = some n → ∃ g, Den t' j g) {j : Nat} {g : BFun} (d : Den t j g)
    (hj : j = 0 ∨ ∃ n, t' j = some n) : Den t' j g := by
  rcases hj with rfl | ⟨n, e⟩
  · have : g = fun _ => false := d.det Den.zero
    rw [this]; exact Den.zero
  · obtain ⟨g', hg'⟩ := hden j n e
    rw [d.det (hg'.mono hsub)]; exact hg'

theorem ed_pos {t : Nat → Option Node} {p : Nat} {n : Node} (e : t p = some n) :
    0 < ed (t p) n.lson ∧ 0 < ed (t p) n.rson.idx := by
  rw [e, ed_some, ed_some, one_same, one_same]; omega

/-- Taking a node without parents out of use. -/
theorem MInv.remove (h : MInv x y s) {i : Nat} (hp : pc s.tbl s.size i = 0) (r : Nat → Nat)
    (fr : List Nat) (hfr : ∀ j ∈ fr, j ∈ s.free) (hnd : fr.Nodup) :
    MInv x y { s with ref := r, tbl := upd s.tbl i none, live := s.live.filter (· ≠ i), free := fr } := by
  have hpar : ∀ p n, s.tbl p = some n → n.lson ≠ i ∧ n.rson.idx ≠ i := by
    intro p n e
    have hlt : p < s.size := h.T.live_lt p ((h.T.live_iff p).2 (by rw [e]; rfl))
    obtain ⟨a, b⟩ := ed_pos e
    constructor
    · rintro rfl; have := pc_pos hlt a; omega
    · rintro rfl; have := pc_pos hlt b; omega
  have old : ∀ j n, upd s.tbl i none j = some n → j ≠ i ∧ s.tbl j = some n := by
    intro j n e
    by_cases hji : j = i
    · subst hji; rw [upd_same] at e; exact absurd e (by simp)
    · rw [upd_ne _ _ hji] at e; exact ⟨hji, e⟩
  generalize hs' : ({ s with ref := r, tbl := upd s.tbl i none, live := s.live.filter (· ≠ i),
                             free := fr } : S) = s'
  have ht : s'.tbl = upd s.tbl i none := by rw [← hs']
  have ho : s'.ord = s.ord := by rw [← hs']
  have hn : s'.nvars = s.nvars := by rw [← hs']
  have hlow : ∀ j, j ≠ i → Low s y j → Low s' y j := by
    intro j hj hl
    rcases hl with hl | ⟨m, e, hm⟩
    · exact Or.inl hl
    · exact Or.inr ⟨m, by rw [ht, upd_ne _ _ hj]; exact e, by rw [ho]; exact hm⟩
  have hson : ∀ v j, j ≠ i → Son s y v j → Son s' y v j := by
    intro v j hj hl
    rcases hl with hl | ⟨m, e, hm, a, b⟩
    · exact Or.inl (hlow j hj hl)
    · exact Or.inr ⟨m, by rw [ht, upd_ne _ _ hj]; exact e, hm, hlow _ (hpar _ _ e).1 a,
        hlow _ (hpar _ _ e).2 b⟩
  have hbel : ∀ v j, j ≠ i → Below s v j → Below s' v j := by
    intro v j hj hl
    rcases hl with hl | ⟨m, e, hm⟩
    · exact Or.inl hl
    · exact Or.inr ⟨m, by rw [ht, upd_ne _ _ hj]; exact e, by rw [ho]; exact hm⟩
  refine ⟨?_, ?_, ?_, ?_, ?_, ?_, ?_, ?_, ?_, ?_, ?_, ?_, ?_⟩
  · refine ⟨?_, ?_, ?_, ?_, ?_, ?_, ?_, ?_⟩
    · rw [ht]
      by_cases hi : (0 : Nat) = i
      · rw [hi]; exact upd_same _ _ _
      · rw [upd_ne _ _ hi]; exact h.T.tbl0
    · intro j
      rw [ht, ← hs']
      simp only [List.mem_filter, decide_eq_true_eq]
      by_cases hji : j = i
      · subst hji; simp
      · rw [upd_ne _ _ hji]; simp [hji, h.T.live_iff]
    · rw [← hs']; exact h.T.live_nodup.filter _
    · rw [← hs']
      intro j hj
      simp only [List.mem_filter] at hj
      exact h.T.live_lt j hj.1
    · intro j hj
      have hj' : j ∈ fr := by rw [← hs'] at hj; exact hj
      obtain ⟨a, b, c⟩ := h.T.free_ok j (hfr j hj')
      refine ⟨a, by rw [← hs']; exact b, ?_⟩
      rw [ht]
      by_cases hji : j = i
      · rw [hji]; exact upd_same _ _ _
      · rw [upd_ne _ _ hji]; exact c
    · rw [← hs']; exact hnd
    · rw [← hs']; exact h.T.size_pos
    · intro a b n ea eb
      rw [ht] at ea eb
      exact h.T.uniq a b n (old _ _ ea).2 (old _ _ eb).2
  · intro j n e; rw [ht] at e; rw [hn]; exact h.var_lt j n (old _ _ e).2
  · intro j n e; rw [ht] at e; exact h.reduced j n (old _ _ e).2
  · rw [hn, ho]; exact h.ord_inj
  · rw [hn, ho]; exact h.ord_lt
  · rw [hn]; exact h.xlt
  · rw [hn]; exact h.ylt
  · rw [ho]; exact h.xy
  · intro j n e
    rw [ht] at e ⊢
    obtain ⟨g, hg⟩ := h.den j n (old _ _ e).2
    exact ⟨g, den_remove hpar hg (old _ _ e).1⟩
  · intro a b g da db
    rw [ht] at da db
    exact h.canon a b g (da.mono fun j n e => (old j n e).2) (db.mono fun j n e => (old j n e).2)
  · intro j n e hv
    rw [ht] at e
    obtain ⟨a, b⟩ := h.sonX j n (old _ _ e).2 hv
    obtain ⟨c, d⟩ := hpar j n (old _ _ e).2
    exact ⟨hson _ _ c a, hson _ _ d b⟩
  · intro j n e hv
    rw [ht] at e
    obtain ⟨a, b⟩ := h.sonY j n (old _ _ e).2 hv
    obtain ⟨c, d⟩ := hpar j n (old _ _ e).2
    exact ⟨hson _ _ c a, hson _ _ d b⟩
  · intro j n e h1 h2
    rw [ht] at e
    obtain ⟨a, b⟩ := h.other j n (old _ _ e).2 h1 h2
    obtain ⟨c, d⟩ := hpar j n (old _ _ e).2
    exact ⟨hbel _ _ c a, hbel _ _ d b⟩

/-- Changing reference counts and the free list. -/
theorem MInv.frame (h : MInv x y s) (r : Nat → Nat) (fr : List Nat)
    (hfr : ∀ j ∈ fr, j ≠ 0 ∧ j < s.size ∧ s.tbl j = none) (hnd : fr.Nodup) :
    MInv x y { s with ref := r, free := fr } :=
  ⟨⟨h.T.tbl0, h.T.live_iff, h.T.live_nodup, h.T.live_lt, hfr, hnd, h.T.size_pos, h.T.uniq⟩, h.var_lt,
    h.reduced, h.ord_inj, h.ord_lt, h.xlt, h.ylt, h.xy, h.den, h.canon, h.sonX, h.sonY, h.other⟩

theorem decRef2_spec (ext : Nat → Nat) : ∀ (fuel : Nat) (s : S) (i : Nat) (pend : Nat → Nat) (g : BFun),
    MInv x y s → RI s ext (fun j => pend j + one i j) → (∀ j n, s.tbl j = some n → 1 ≤ s.ref j) →
    Den s.tbl i g → NoDep g x → s.nvars - lev s i < fuel →
    ∃ s', decRef2 fuel s i = some s' ∧ MInv x y s' ∧ RI s' ext pend ∧
      (∀ j n, s'.tbl j = some n → 1 ≤ s'.ref j) ∧ Shr x s s' := by
  intro fuel
  induction fuel with
  | zero => intro s i pend g _ _ _ _ _ h; omega
  | succ fuel ih =>
    intro s i pend g hM hR hP hd hg hf
    unfold decRef2
    by_cases h0 : i = 0
    · rw [if_pos h0]
      refine ⟨s, rfl, hM, ?_, hP, Shr.refl x s⟩
      subst h0
      refine ⟨?_, ?_, hR.le⟩
      · intro j n e
        have := hR.live j n e
        simp only [load, one_ne (hM.ne0 e).symm] at this ⊢
        simpa using this
      · intro j hj e
        have := hR.dead j hj e
        simp only [load, one_ne (Ne.symm hj)] at this ⊢
        simpa using this
    rw [if_neg h0]
    obtain ⟨n, e⟩ : ∃ n, s.tbl i = some n := by
      cases hd with
      | zero => exact absurd rfl h0
      | node _ e _ _ => exact ⟨_, e⟩
    have hpos := hP i n e
    rw [if_neg (show ¬ s.ref i = 0 by omega)]
    by_cases h2 : s.ref i = maxRef
    · rw [if_pos h2]
      refine ⟨s, rfl, hM, ⟨?_, ?_, hR.le⟩, hP, Shr.refl x s⟩
      · intro j m em
        rcases hR.live j m em with hh | hh
        · exact Or.inl hh
        · right; simp only [load] at hh ⊢; omega
      · intro j hj em
        have := hR.dead j hj em
        simp only [load] at this ⊢; omega
    rw [if_neg h2]
    have hload := (hR.live i n e).resolve_left h2
    simp only [load, one_same] at hload
    by_cases h3 : 0 < s.ref i - 1
    · rw [if_pos h3]
      refine ⟨_, rfl, hM.frame _ _ hM.T.free_ok hM.T.free_nodup, ⟨?_, ?_, ?_⟩, ?_, ?_⟩
      · intro j m em
        simp only [load] at em ⊢
        by_cases hji : j = i
        · subst hji; rw [upd_same]; right; omega
        · rw [upd_ne _ _ hji]
          have := hR.live j m em
          simp only [load, one_ne (Ne.symm hji)] at this
          simpa using this
      · intro j hj em
        have := hR.dead j hj em
        simp only [load] at this ⊢; omega
      · intro j
        simp only
        by_cases hji : j = i
        · subst hji; rw [upd_same]; have := hR.le j; omega
        · rw [upd_ne _ _ hji]; exact hR.le j
      · intro j m em
        simp only at em ⊢
        by_cases hji : j = i
        · subst hji; rw [upd_same]; omega
        · rw [upd_ne _ _ hji]; exact hP j m em
      · refine ⟨fun _ _ h => h, fun _ _ h _ => h, ?_, fun _ h => Or.inl h, rfl, rfl, rfl, rfl, rfl⟩
        intro j m em hr
        refine ⟨em, ?_⟩
        simp only
        by_cases hji : j = i
        · subst hji; exact absurd hr h2
        · rw [upd_ne _ _ hji]; exact hr
    rw [if_neg h3]
    simp only [e, Option.bind_eq_bind, Option.bind_some]
    obtain ⟨hvx, gl, gr, dl, dr, hgl, hgr⟩ := hM.noDep_sons e hd hg
    obtain ⟨lv1, lv2⟩ := hM.lev_sons e hd hg
    have hpc0 : pc s.tbl s.size i = 0 := by omega
    have hlt : i < s.size := hM.T.live_lt i ((hM.T.live_iff i).2 (by rw [e]; rfl))
    have hpar : ∀ p m, s.tbl p = some m → m.lson ≠ i ∧ m.rson.idx ≠ i := by
      intro p m ep
      have hlt' : p < s.size := hM.T.live_lt p ((hM.T.live_iff p).2 (by rw [ep]; rfl))
      obtain ⟨a, b⟩ := ed_pos ep
      constructor
      · rintro rfl; have := pc_pos hlt' a; omega
      · rintro rfl; have := pc_pos hlt' b; omega
    generalize hs1 : ({ s with ref := upd s.ref i (s.ref i - 1), tbl := upd s.tbl i none,
                               live := s.live.filter (· ≠ i) } : S) = s1
    have t1 : s1.tbl = upd s.tbl i none := by rw [← hs1]
    have r1 : s1.ref = upd s.ref i (s.ref i - 1) := by rw [← hs1]
    have z1 : s1.size = s.size := by rw [← hs1]
    have o1 : s1.ord = s.ord := by rw [← hs1]
    have n1 : s1.nvars = s.nvars := by rw [← hs1]
    have f1 : s1.free = s.free := by rw [← hs1]
    have hM1 : MInv x y s1 := by
      rw [← hs1]
      exact hM.remove hpc0 _ s.free (fun _ h => h) hM.T.free_nodup
    have old : ∀ j m, s1.tbl j = some m → j ≠ i ∧ s.tbl j = some m := by
      intro j m ej
      rw [t1] at ej
      by_cases hji : j = i
      · subst hji; rw [upd_same] at ej; exact absurd ej (by simp)
      · rw [upd_ne _ _ hji] at ej; exact ⟨hji, ej⟩
    have hld : ∀ j, load s1 ext (fun j => (fun j => pend j + one n.rson.idx j) j + one n.lson j) j =
        pc s.tbl s.size j + ext j + pend j := by
      intro j
      simp only [load, t1, z1]
      have := pc_upd s.tbl hlt none j
      rw [e, ed_some] at this
      have hz : ed none j = 0 := rfl
      rw [hz] at this
      omega
    have hR1 : RI s1 ext (fun j => (fun j => pend j + one n.rson.idx j) j + one n.lson j) := by
      refine ⟨?_, ?_, ?_⟩
      · intro j m ej
        obtain ⟨hji, ej⟩ := old j m ej
        rw [hld, r1, upd_ne _ _ hji]
        have := hR.live j m ej
        simp only [load, one_ne (Ne.symm hji)] at this
        simpa using this
      · intro j hj ej
        rw [hld]
        by_cases hji : j = i
        · subst hji; omega
        · rw [t1, upd_ne _ _ hji] at ej
          have := hR.dead j hj ej
          simp only [load] at this
          omega
      · intro j
        rw [r1]
        by_cases hji : j = i
        · subst hji; rw [upd_same]; have := hR.le j; omega
        · rw [upd_ne _ _ hji]; exact hR.le j
    have hP1 : ∀ j m, s1.tbl j = some m → 1 ≤ s1.ref j := by
      intro j m ej
      obtain ⟨hji, ej⟩ := old j m ej
      rw [r1, upd_ne _ _ hji]; exact hP j m ej
    have lev1 : ∀ j, j ≠ i → lev s1 j = lev s j := by
      intro j hj; simp only [lev, t1, upd_ne _ _ hj, n1, o1]
    obtain ⟨ha, hb⟩ := hpar i n e
    have dl1 : Den s1.tbl n.lson gl := by rw [t1]; exact den_remove hpar dl ha
    have dr1 : Den s1.tbl n.rson.idx gr := by rw [t1]; exact den_remove hpar dr hb
    have hli : lev s i = s.ord n.var := lev_some e
    have hov := hM.ord_lt _ (hM.var_lt _ _ e)
    obtain ⟨s2, e2, hM2, hR2, hP2, hS2⟩ := ih s1 n.lson _ gl hM1 hR1 hP1 dl1 hgl (by
      rw [lev1 _ ha, n1]; omega)
    simp only [e2, Option.bind_some]
    have live_r : n.rson.idx = 0 ∨ ∃ m, s2.tbl n.rson.idx = some m := by
      by_cases hz : n.rson.idx = 0
      · exact Or.inl hz
      · right
        by_contra hc
        have hnone : s2.tbl n.rson.idx = none := by
          cases hh : s2.tbl n.rson.idx with
          | none => rfl
          | some m => exact absurd ⟨m, hh⟩ hc
        have := hR2.dead _ hz hnone
        simp only [load, one_same] at this
        omega
    have dr2 : Den s2.tbl n.rson.idx gr := den_of_sub hS2.tbl hM2.den dr1 live_r
    have hlr : lev s2 n.rson.idx = lev s n.rson.idx := by
      rcases live_r with hz | ⟨m, hm⟩
      · rw [hz]; simp only [lev, hM2.T.tbl0, hM.T.tbl0, hS2.nvars, n1]
      · rw [lev_some hm, lev_some (old _ _ (hS2.tbl _ _ hm)).2, hS2.ord, o1]
    obtain ⟨s3, e3, hM3, hR3, hP3, hS3⟩ := ih s2 n.rson.idx pend gr hM2 hR2 hP2 dr2 hgr (by
      rw [hlr, hS2.nvars, n1]; omega)
    simp only [e3, Option.bind_some]
    have hS13 := hS2.trans hS3
    have hi3 : s3.tbl i = none := by
      cases hh : s3.tbl i with
      | none => rfl
      | some m => exact absurd rfl (old _ _ (hS13.tbl _ _ hh)).1
    have hifr : i ∉ s3.free := by
      intro hc
      rcases hS13.free i hc with hc | ⟨m, hm⟩
      · rw [f1] at hc
        have := (hM.T.free_ok i hc).2.2
        rw [e] at this; exact absurd this (by simp)
      · exact absurd rfl (old _ _ hm).1
    refine ⟨_, rfl, ?_, ⟨hR3.live, hR3.dead, hR3.le⟩, hP3, ?_⟩
    · refine hM3.frame s3.ref (i :: s3.free) ?_ (List.nodup_cons.2 ⟨hifr, hM3.T.free_nodup⟩)
      intro j hj
      rcases List.mem_cons.1 hj with rfl | hj
      · exact ⟨h0, by rw [hS13.size, z1]; exact hlt, hi3⟩
      · exact hM3.T.free_ok j hj
    · refine ⟨?_, ?_, ?_, ?_, ?_, ?_, ?_, ?_, ?_⟩
      · intro j m ej; exact (old _ _ (hS13.tbl j m ej)).2
      · intro j m ej hv
        have hji : j ≠ i := by rintro rfl; rw [e] at ej; cases ej; exact hvx hv
        exact hS13.keepX j m (by rw [t1, upd_ne _ _ hji]; exact ej) hv
      · intro j m ej hr
        have hji : j ≠ i := by rintro rfl; exact h2 hr
        exact hS13.pin j m (by rw [t1, upd_ne _ _ hji]; exact ej) (by rw [r1, upd_ne _ _ hji]; exact hr)
      · intro j hj
        rcases List.mem_cons.1 hj with rfl | hj
        · exact Or.inr ⟨n, e⟩
        · rcases hS13.free j hj with hj | ⟨m, hm⟩
          · rw [f1] at hj; exact Or.inl hj
          · exact Or.inr ⟨m, (old _ _ hm).2⟩
      · exact hS13.size.trans z1
      · exact hS13.ord.trans o1
      · exact hS13.nvars.trans n1
      · rw [hS13.vname, ← hs1]
      · rw [hS13.vars, ← hs1]

end Voss.Bdd
