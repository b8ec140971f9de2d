import Verif.Bdd.SwapNode
/-
Reordering the variables: sequences of swaps.
-/
namespace Voss.Bdd

/-- The properties of a state between swaps. -/
structure RS (ext : Nat → Nat) (s : S) (rev : List Nat) : Prop where
  I : SInv s
  R : RI s ext (fun _ => 0)
  P : ∀ j n, s.tbl j = some n → 1 ≤ s.ref j
  V : VInv s
  vref : ∀ name f, (name, f) ∈ s.vars → s.ref f.idx = maxRef
  len : rev.length = s.nvars
  rev : ∀ p, p < s.nvars → ∃ v, rev[p]? = some v ∧ v < s.nvars ∧ s.ord v = p

/-- Exchange of positions `p` and `p + 1`. -/
def swp (p a : Nat) : Nat := if a = p then p + 1 else if a = p + 1 then p else a

/-- A variable's own node is not the constant. -/
theorem var_live {s : S} {f : F} {v : Nat} (hd : Denotes s f (fun ρ => ρ v)) :
    ∃ n, s.tbl f.idx = some n := by
  obtain ⟨neg, i⟩ := f
  obtain ⟨g, d, e⟩ := hd
  simp only at d e ⊢
  cases d with
  | zero =>
    have h1 := congrFun e (fun _ => true)
    have h2 := congrFun e (fun _ => false)
    cases neg <;> simp at h1 h2
  | node _ e1 _ _ => exact ⟨_, e1⟩

theorem Kept.denotes {ext : Nat → Nat} {s s' : S} (h : Kept ext s s') {f : F} {g : BFun}
    (d : Denotes s f g) (hf : 0 < ext f.idx ∨ s.ref f.idx = maxRef) : Denotes s' f g := by
  obtain ⟨g0, d0, e⟩ := d
  exact ⟨g0, h.den _ _ d0 hf, e⟩

theorem RS.vinv {ext : Nat → Nat} {s s' : S} {rev : List Nat} (h : RS ext s rev) (K : Kept ext s s') :
    VInv s' ∧ (∀ name f, (name, f) ∈ s'.vars → s'.ref f.idx = maxRef) := by
  refine ⟨⟨?_, ?_, ?_⟩, ?_⟩
  · intro name f hm
    rw [K.vars] at hm
    obtain ⟨v, hv, hn, hd⟩ := h.V.var_ok name f hm
    exact ⟨v, by rw [K.nvars]; exact hv, by rw [K.vname]; exact hn,
      K.denotes hd (Or.inr (h.vref name f hm))⟩
  · intro v hv
    rw [K.nvars] at hv
    obtain ⟨f, hl, hd⟩ := h.V.var_all v hv
    exact ⟨f, by rw [K.vars, K.vname]; exact hl, K.denotes hd (Or.inr (h.vref _ f (lookup_mem hl)))⟩
  · rw [K.nvars, K.vname]; exact h.V.name_inj
  · intro name f hm
    rw [K.vars] at hm
    obtain ⟨v, hv, hn, hd⟩ := h.V.var_ok name f hm
    obtain ⟨n, e⟩ := var_live hd
    exact (K.max _ n e (h.vref name f hm)).1

theorem swapDown_spec {ext : Nat → Nat} {s : S} {rev : List Nat} (h : RS ext s rev) {pos : Nat}
    (hp : pos + 1 < s.nvars) : ∃ s' rev', swapDown s rev pos = some (s', rev') ∧ RS ext s' rev' ∧
      Kept ext s s' ∧ ∀ v, v < s.nvars → s'.ord v = swp pos (s.ord v) := by
  obtain ⟨x, ex, hx, ox⟩ := h.rev pos (by omega)
  obtain ⟨y, ey, hy, oy⟩ := h.rev (pos + 1) hp
  have hM : MInv x y s := h.I.toM hx hy (by omega)
  obtain ⟨s1, e1, m1, K1, o1, d1⟩ := swapNodes_spec (x := x) (y := y) (ext := ext)
    (s.live.filter (fun i => isVar s x i)) s ⟨hM, h.R, h.P⟩ (h.I.live_nodup.filter _)
    (by
      intro i hi
      exact (isVar_true h.I.tbl0).1 (List.mem_filter.1 hi).2)
    (by
      intro j m ej hv _
      refine List.mem_filter.2 ⟨(h.I.live_iff j).2 (by rw [ej]; rfl), ?_⟩
      exact (isVar_true h.I.tbl0).2 ⟨m, ej, hv⟩)
  have hne := hM.ne
  have hS := m1.M.toS d1
  have oeq : ({ s1 with ord := upd (upd s1.ord x (s1.ord y)) y (s1.ord x) } : S) = swapOrd x y s1 := rfl
  have hord : ∀ v, v < s.nvars → (swapOrd x y s1).ord v = swp pos (s.ord v) := by
    intro v hv
    simp only [swapOrd, o1]
    unfold swp
    by_cases hvy : v = y
    · subst hvy; rw [upd_same, if_neg (by omega), if_pos oy, ox]
    · rw [upd_ne _ _ hvy]
      by_cases hvx : v = x
      · subst hvx; rw [upd_same, if_pos ox, oy]
      · rw [upd_ne _ _ hvx, if_neg, if_neg]
        · intro hc; exact hvy (h.I.ord_inj _ _ hv hy (by omega))
        · intro hc; exact hvx (h.I.ord_inj _ _ hv hx (by omega))
  have K2 : Kept ext s (swapOrd x y s1) := ⟨K1.den, K1.max, K1.nvars, K1.vname, K1.vars⟩
  have hlen := h.len
  refine ⟨swapOrd x y s1, (rev.set pos y).set (pos + 1) x, ?_, ⟨hS, ?_, m1.P, (h.vinv K2).1, (h.vinv K2).2, ?_, ?_⟩,
    K2, hord⟩
  · unfold swapDown
    simp only [ex, ey, e1, Option.bind_eq_bind, Option.bind_some]
    rfl
  · exact ⟨m1.R.live, m1.R.dead, m1.R.le⟩
  · rw [List.length_set, List.length_set, hlen]; exact K1.nvars.symm
  · intro p hp'
    have hn : (swapOrd x y s1).nvars = s.nvars := K1.nvars
    rw [hn] at hp' ⊢
    obtain ⟨v, ev, hv, ov⟩ := h.rev p hp'
    by_cases h1 : p = pos + 1
    · subst h1
      refine ⟨x, ?_, hx, ?_⟩
      · rw [List.getElem?_set_self (by rw [List.length_set]; omega)]
      · rw [hord x hx, ox]; simp [swp]
    · by_cases h2 : p = pos
      · subst h2
        refine ⟨y, ?_, hy, ?_⟩
        · rw [List.getElem?_set_ne (by omega), List.getElem?_set_self (by omega)]
        · rw [hord y hy, oy]; simp [swp]
      · refine ⟨v, ?_, hv, ?_⟩
        · rw [List.getElem?_set_ne (by omega), List.getElem?_set_ne (by omega)]; exact ev
        · rw [hord v hv, ov]; simp [swp, h1, h2]

/-- Exchange of the pairs of positions `p, p + 1` and `p + 2, p + 3`. -/
def swp2 (p a : Nat) : Nat :=
  if a = p ∨ a = p + 1 then a + 2 else if a = p + 2 ∨ a = p + 3 then a - 2 else a

theorem swp2_eq (p a : Nat) : swp (p + 1) (swp p (swp (p + 2) (swp (p + 1) a))) = swp2 p a := by
  unfold swp swp2
  split_ifs <;> omega

/-- Variables come in pairs of a current-state and a next-state variable that are neighbours both in
number and in position. -/
structure Paired (s : S) : Prop where
  even : s.nvars % 2 = 0
  pos : ∀ k, 2 * k < s.nvars → s.ord (2 * k) % 2 = 0 ∧ s.ord (2 * k + 1) = s.ord (2 * k) + 1

/-- Effect of moving pairs of variables. -/
structure Kept2 (ext : Nat → Nat) (s s' : S) : Prop extends Kept ext s s' where
  pair : Paired s → Paired s'

theorem Kept2.refl (ext : Nat → Nat) (s : S) : Kept2 ext s s := ⟨Kept.refl ext s, fun h => h⟩

theorem Kept2.trans {ext : Nat → Nat} {a b c : S} (h : Kept2 ext a b) (h' : Kept2 ext b c) : Kept2 ext a c :=
  ⟨h.toKept.trans h'.toKept, fun hp => h'.pair (h.pair hp)⟩

theorem doSwapDown_spec {ext : Nat → Nat} {s : S} {rev : List Nat} (h : RS ext s rev) {pos : Nat}
    (hp : pos + 3 < s.nvars) (hpe : pos % 2 = 0) :
    ∃ s' rev', doSwapDown s rev pos = some (s', rev') ∧ RS ext s' rev' ∧
      Kept2 ext s s' ∧ ∀ v, v < s.nvars → s'.ord v = swp2 pos (s.ord v) := by
  obtain ⟨s1, r1, e1, h1, K1, o1⟩ := swapDown_spec h (pos := pos + 1) (by omega)
  obtain ⟨s2, r2, e2, h2, K2, o2⟩ := swapDown_spec h1 (pos := pos + 2) (by rw [K1.nvars]; omega)
  obtain ⟨s3, r3, e3, h3, K3, o3⟩ := swapDown_spec h2 (pos := pos) (by rw [K2.nvars, K1.nvars]; omega)
  obtain ⟨s4, r4, e4, h4, K4, o4⟩ := swapDown_spec h3 (pos := pos + 1)
    (by rw [K3.nvars, K2.nvars, K1.nvars]; omega)
  have K := ((K1.trans K2).trans K3).trans K4
  have o : ∀ v, v < s.nvars → s4.ord v = swp2 pos (s.ord v) := by
    intro v hv
    rw [o4 v (by rw [K3.nvars, K2.nvars, K1.nvars]; exact hv),
      o3 v (by rw [K2.nvars, K1.nvars]; exact hv), o2 v (by rw [K1.nvars]; exact hv), o1 v hv, swp2_eq]
  refine ⟨s4, r4, ?_, h4, ⟨K, ?_⟩, o⟩
  · simp only [doSwapDown, e1, e2, e3, e4, Option.bind_eq_bind, Option.bind_some]
  · intro hP
    have hn := K.nvars
    have he := hP.even
    refine ⟨by omega, fun k hk => ?_⟩
    obtain ⟨p0, p1⟩ := hP.pos k (by omega)
    rw [o _ (by omega), o _ (by omega), p1]
    unfold swp2
    constructor <;> split_ifs <;> omega

/-! ### Sifting -/

theorem siftDown_spec {ext : Nat → Nat} (c : Cfg) : ∀ (fuel : Nat) (z : Sift), RS ext z.s z.rev →
    z.s.nvars % 2 = 0 → z.pos % 2 = 0 → z.pos < z.s.nvars → z.place % 2 = 0 → z.place < z.s.nvars →
    z.s.nvars < z.pos + fuel →
    ∃ z', siftDown c fuel z = some z' ∧ RS ext z'.s z'.rev ∧ Kept2 ext z.s z'.s ∧ z'.pos % 2 = 0 ∧
      z'.pos < z.s.nvars ∧ z'.place % 2 = 0 ∧ z'.place < z.s.nvars := by
  intro fuel
  induction fuel with
  | zero => intro z _ _ _ h1 _ _ h2; omega
  | succ fuel ih =>
    intro z hR he hp hlt hq hql hf
    unfold siftDown
    by_cases hc : z.pos < z.s.nvars - 2 ∧ c.quit z.tick = false
    · rw [if_pos hc]
      obtain ⟨s1, r1, e1, h1, K1, _⟩ := doSwapDown_spec hR (pos := z.pos) (by omega) (by omega)
      simp only [e1, Option.bind_eq_bind, Option.bind_some]
      have hn := K1.nvars
      split
      · exact ⟨_, rfl, h1, K1, by simp only; omega, by simp only; omega, hq, hql⟩
      · split
        · obtain ⟨z', e', a1, a2, a3, a4, a5, a6⟩ := ih
            ⟨s1, r1, z.pos + 2, s1.live.length, z.pos + 2, z.tick + 1⟩ h1
            (by simp only; omega) (by simp only; omega) (by simp only; omega) (by simp only; omega)
            (by simp only; omega) (by simp only; omega)
          simp only at a2 a4 a6
          exact ⟨z', e', a1, K1.trans a2, a3, by omega, a5, by omega⟩
        · obtain ⟨z', e', a1, a2, a3, a4, a5, a6⟩ := ih
            ⟨s1, r1, z.pos + 2, z.best, z.place, z.tick + 1⟩ h1
            (by simp only; omega) (by simp only; omega) (by simp only; omega) (by simp only; omega)
            (by simp only; omega) (by simp only; omega)
          simp only at a2 a4 a6
          exact ⟨z', e', a1, K1.trans a2, a3, by omega, a5, by omega⟩
    · rw [if_neg hc]
      exact ⟨_, rfl, hR, Kept2.refl _ _, hp, hlt, hq, hql⟩

theorem siftUp_spec {ext : Nat → Nat} (c : Cfg) : ∀ (fuel : Nat) (z : Sift), RS ext z.s z.rev →
    z.s.nvars % 2 = 0 → z.pos % 2 = 0 → z.pos < z.s.nvars → z.place % 2 = 0 → z.place < z.s.nvars →
    z.pos < fuel →
    ∃ z', siftUp c fuel z = some z' ∧ RS ext z'.s z'.rev ∧ Kept2 ext z.s z'.s ∧ z'.pos % 2 = 0 ∧
      z'.pos < z.s.nvars ∧ z'.place % 2 = 0 ∧ z'.place < z.s.nvars := by
  intro fuel
  induction fuel with
  | zero => intro z _ _ _ h1 _ _ h2; omega
  | succ fuel ih =>
    intro z hR he hp hlt hq hql hf
    unfold siftUp
    by_cases hc : 0 < z.pos ∧ c.quit z.tick = false
    · rw [if_pos hc, if_neg (show ¬ z.pos < 2 by omega)]
      obtain ⟨s1, r1, e1, h1, K1, _⟩ := doSwapDown_spec hR (pos := z.pos - 2) (by omega) (by omega)
      simp only [e1, Option.bind_eq_bind, Option.bind_some]
      have hn := K1.nvars
      split
      · exact ⟨_, rfl, h1, K1, by simp only; omega, by simp only; omega, hq, hql⟩
      · split
        · obtain ⟨z', e', a1, a2, a3, a4, a5, a6⟩ := ih
            ⟨s1, r1, z.pos - 2, s1.live.length, z.pos - 2, z.tick + 1⟩ h1
            (by simp only; omega) (by simp only; omega) (by simp only; omega) (by simp only; omega)
            (by simp only; omega) (by simp only; omega)
          simp only at a2 a4 a6
          exact ⟨z', e', a1, K1.trans a2, a3, by omega, a5, by omega⟩
        · obtain ⟨z', e', a1, a2, a3, a4, a5, a6⟩ := ih
            ⟨s1, r1, z.pos - 2, z.best, z.place, z.tick + 1⟩ h1
            (by simp only; omega) (by simp only; omega) (by simp only; omega) (by simp only; omega)
            (by simp only; omega) (by simp only; omega)
          simp only at a2 a4 a6
          exact ⟨z', e', a1, K1.trans a2, a3, by omega, a5, by omega⟩
    · rw [if_neg hc]
      exact ⟨_, rfl, hR, Kept2.refl _ _, hp, hlt, hq, hql⟩

/-- Effect on positions of moving the pair at `p` up to the pair at `d`. -/
def rotUp (d p a : Nat) : Nat :=
  if a = p ∨ a = p + 1 then a - p + d else if d ≤ a ∧ a < p then a + 2 else a

theorem moveUp_spec {ext : Nat → Nat} : ∀ (fuel : Nat) (s : S) (rev : List Nat) (pos dest : Nat),
    RS ext s rev → s.nvars % 2 = 0 → (dest < pos → dest % 2 = pos % 2 ∧ pos % 2 = 0) → pos + 1 < s.nvars ∨ pos ≤ dest →
    pos < fuel →
    ∃ s' rev', moveUp fuel s rev pos dest = some (s', rev') ∧ RS ext s' rev' ∧ Kept2 ext s s' ∧
      ∀ v, v < s.nvars → s'.ord v = if dest < pos then rotUp dest pos (s.ord v) else s.ord v := by
  intro fuel
  induction fuel with
  | zero => intro s rev pos dest _ _ _ _ h; omega
  | succ fuel ih =>
    intro s rev pos dest hR he hq hlt hf
    unfold moveUp
    by_cases hd : dest < pos
    · obtain ⟨hq1, hq2⟩ := hq hd
      rw [if_pos hd, if_neg (show ¬ pos < 2 by omega)]
      obtain ⟨s1, r1, e1, h1, K1, o1⟩ := doSwapDown_spec hR (pos := pos - 2) (by omega) (by omega)
      simp only [e1, Option.bind_eq_bind, Option.bind_some]
      have hn := K1.nvars
      obtain ⟨s2, r2, e2, h2, K2, o2⟩ := ih s1 r1 (pos - 2) dest h1 (by omega)
        (fun h => ⟨by omega, by omega⟩) (by omega) (by omega)
      refine ⟨s2, r2, e2, h2, K1.trans K2, ?_⟩
      intro v hv
      rw [o2 v (by omega), o1 v hv, if_pos hd]
      unfold swp2 rotUp
      split_ifs <;> omega
    · rw [if_neg hd]
      exact ⟨s, rev, rfl, hR, Kept2.refl _ _, fun v _ => by rw [if_neg hd]⟩

theorem moveDown_spec {ext : Nat → Nat} : ∀ (fuel : Nat) (s : S) (rev : List Nat) (pos dest : Nat),
    RS ext s rev → s.nvars % 2 = 0 → pos % 2 = 0 → dest % 2 = 0 → dest < s.nvars → dest < pos + fuel → 0 < fuel →
    ∃ s' rev', moveDown fuel s rev pos dest = some (s', rev') ∧ RS ext s' rev' ∧ Kept2 ext s s' := by
  intro fuel
  induction fuel with
  | zero => intro s rev pos dest _ _ _ _ _ _ h; omega
  | succ fuel ih =>
    intro s rev pos dest hR he hp hq hlt hf _
    unfold moveDown
    by_cases hd : pos < dest
    · rw [if_pos hd]
      obtain ⟨s1, r1, e1, h1, K1, _⟩ := doSwapDown_spec hR (pos := pos) (by omega) (by omega)
      simp only [e1, Option.bind_eq_bind, Option.bind_some]
      have hn := K1.nvars
      obtain ⟨s2, r2, e2, h2, K2⟩ := ih s1 r1 (pos + 2) dest h1 (by omega) (by omega) hq (by omega)
        (by omega) (by omega)
      exact ⟨s2, r2, e2, h2, K1.trans K2⟩
    · rw [if_neg hd]
      exact ⟨s, rev, rfl, hR, Kept2.refl _ _⟩

theorem siftOne_spec {ext : Nat → Nat} (c : Cfg) {s : S} {rev : List Nat} (h : RS ext s rev)
    (he : s.nvars % 2 = 0) (tick p : Nat) (hp : p % 2 = 0) (hlt : p < s.nvars) :
    ∃ s' rev' t', siftOne c s rev tick p = some (s', rev', t') ∧ RS ext s' rev' ∧ Kept2 ext s s' := by
  unfold siftOne
  obtain ⟨z1, e1, h1, K1, a1, b1, c1, d1⟩ := siftDown_spec c (s.nvars + 1)
    ⟨s, rev, p, s.live.length, p, tick⟩ h he hp hlt hp hlt (by simp only; omega)
  simp only at K1 b1 d1
  simp only [e1, Option.bind_eq_bind, Option.bind_some]
  have hn1 := K1.nvars
  obtain ⟨z2, e2, h2, K2, a2, b2, c2, d2⟩ := siftUp_spec c (s.nvars + 1) z1 h1 (by omega) a1 (by omega)
    c1 (by omega) (by omega)
  simp only [e2, Option.bind_some]
  have hn2 := K2.nvars
  split
  · obtain ⟨s3, r3, e3, h3, K3, _⟩ := moveUp_spec (s.nvars + 1) z2.s z2.rev z2.pos z2.place h2 (by omega)
      (fun _ => ⟨by omega, by omega⟩) (by omega) (by omega)
    simp only [e3, Option.bind_some]
    exact ⟨s3, r3, _, rfl, h3, (K1.trans K2).trans K3⟩
  · obtain ⟨s3, r3, e3, h3, K3⟩ := moveDown_spec (s.nvars + 1) z2.s z2.rev z2.pos z2.place h2 (by omega)
      (by omega) (by omega) (by omega) (by omega) (by omega)
    simp only [e3, Option.bind_some]
    exact ⟨s3, r3, _, rfl, h3, (K1.trans K2).trans K3⟩

theorem widest_spec {s : S} {done : List Nat} : ∀ (l : List Nat) (mx : Nat) (r : Option Nat) (v : Nat),
    widest s done l mx r = some v → r = some v ∨ (v ∈ l ∧ v ∉ done)
  | [], mx, r, v, h => Or.inl h
  | w :: l, mx, r, v, h => by
    unfold widest at h
    split at h
    · next hc =>
      rcases widest_spec l _ _ v h with h' | ⟨h1, h2⟩
      · simp only [Option.some.injEq] at h'
        subst h'
        exact Or.inr ⟨by simp, hc.1⟩
      · exact Or.inr ⟨by simp [h1], h2⟩
    · rcases widest_spec l _ _ v h with h' | ⟨h1, h2⟩
      · exact Or.inl h'
      · exact Or.inr ⟨by simp [h1], h2⟩

/-- Number of variables not yet placed. -/
def left (n : Nat) (done : List Nat) : Nat := ((List.range n).filter (· ∉ done)).length

theorem left_lt {n : Nat} {done done' : List Nat} (hsub : ∀ a, a ∈ done → a ∈ done') {v : Nat} (hv : v < n)
    (h1 : v ∉ done) (h2 : v ∈ done') : left n done' < left n done := by
  unfold left
  have hs : ((List.range n).filter (· ∉ done')).Sublist ((List.range n).filter (· ∉ done)) := by
    apply List.monotone_filter_right
    intro a ha
    simp only [decide_eq_true_eq] at ha ⊢
    exact fun hc => ha (hsub a hc)
  rcases Nat.lt_or_ge (((List.range n).filter (· ∉ done')).length) (((List.range n).filter (· ∉ done)).length) with h | h
  · exact h
  · have := hs.eq_of_length_le h
    have hm : v ∈ (List.range n).filter (· ∉ done) := by
      simp [List.mem_filter, hv, h1]
    rw [← this] at hm
    simp [List.mem_filter, h2] at hm

theorem reorderPass_spec {ext : Nat → Nat} (c : Cfg) (start : Nat) : ∀ (fuel : Nat) (s : S)
    (rev done : List Nat) (last tick : Nat), RS ext s rev → s.nvars % 2 = 0 →
    left s.nvars done < fuel →
    ∃ s' rev' t', reorderPass c start fuel s rev done last tick = some (s', rev', t') ∧
      RS ext s' rev' ∧ Kept2 ext s s' := by
  intro fuel
  induction fuel with
  | zero => intro s rev done last tick _ _ h; omega
  | succ fuel ih =>
    intro s rev done last tick hR he hf
    unfold reorderPass
    split
    · exact ⟨_, _, _, rfl, hR, Kept2.refl _ _⟩
    split
    · cases hw : widest s done (List.range s.nvars) 0 none with
      | none => exact ⟨_, _, _, rfl, hR, Kept2.refl _ _⟩
      | some v =>
        rcases widest_spec _ _ _ _ hw with h | ⟨h1, h2⟩
        · exact absurd h (by simp)
        have hv : v < s.nvars := by simpa using h1
        have hov := hR.I.ord_lt v hv
        have hpl : 2 * (s.ord v / 2) + 1 < s.nvars := by omega
        obtain ⟨w', ew', hw'l, ow'⟩ := hR.rev (2 * (s.ord v / 2) + 1) hpl
        obtain ⟨w, ew, hwl, ow⟩ := hR.rev (2 * (s.ord v / 2)) (by omega)
        simp only [ew, ew', Option.bind_eq_bind, Option.bind_some]
        obtain ⟨s1, r1, t1, e1, R1, K1⟩ := siftOne_spec c hR he (tick + 1) (2 * (s.ord v / 2)) (by omega)
          (by omega)
        simp only [e1, Option.bind_some]
        have hn := K1.nvars
        have hmem : v ∈ w :: w' :: done := by
          rcases Nat.mod_two_eq_zero_or_one (s.ord v) with h | h
          · have := hR.I.ord_inj v w hv hwl (by omega); simp [this]
          · have := hR.I.ord_inj v w' hv hw'l (by omega); simp [this]
        obtain ⟨s2, r2, t2, e2, R2, K2⟩ := ih s1 r1 (w :: w' :: done) s.live.length t1 R1 (by omega) (by
          have := left_lt (n := s.nvars) (done := done) (done' := w :: w' :: done)
            (fun a ha => by simp [ha]) hv h2 hmem
          rw [hn]
          omega)
        exact ⟨s2, r2, t2, e2, R2, K1.trans K2⟩
    · exact ⟨_, _, _, rfl, hR, Kept2.refl _ _⟩

theorem left_le (n : Nat) (done : List Nat) : left n done ≤ n := by
  unfold left
  exact (List.length_filter_le _ _).trans (by simp)

theorem reorderReps_spec {ext : Nat → Nat} (c : Cfg) (start : Nat) : ∀ (k : Nat) (s : S)
    (rev : List Nat) (tick : Nat), RS ext s rev → s.nvars % 2 = 0 →
    ∃ s' rev', reorderReps c start k s rev tick = some s' ∧ RS ext s' rev' ∧ Kept2 ext s s' := by
  intro k
  induction k with
  | zero => intro s rev tick h _; exact ⟨s, rev, rfl, h, Kept2.refl _ _⟩
  | succ k ih =>
    intro s rev tick hR he
    unfold reorderReps
    split
    · exact ⟨s, rev, rfl, hR, Kept2.refl _ _⟩
    · obtain ⟨s1, r1, t1, e1, R1, K1⟩ := reorderPass_spec c start (s.nvars + 1) s rev []
        (s.live.length + c.minReduction + 2) (tick + 1) hR he (by have := left_le s.nvars []; omega)
      simp only [e1, Option.bind_eq_bind, Option.bind_some]
      obtain ⟨s2, r2, e2, R2, K2⟩ := ih s1 r1 t1 R1 (by rw [K1.nvars]; exact he)
      exact ⟨s2, r2, e2, R2, K1.trans K2⟩

/-! ### The reverse index -/

theorem revTable_spec {s : S} (h : SInv s) : (revTable s).length = s.nvars ∧
    ∀ p, p < s.nvars → ∃ v, (revTable s)[p]? = some v ∧ v < s.nvars ∧ s.ord v = p := by
  have hperm : (revTable s).Perm (List.range s.nvars) := sortBy_perm _ _
  have hlen : (revTable s).length = s.nvars := by rw [hperm.length_eq, List.length_range]
  have hmem : ∀ v, v ∈ revTable s → v < s.nvars := fun v hv => by
    simpa using hperm.mem_iff.1 hv
  have hnd : (revTable s).Nodup := hperm.nodup_iff.2 List.nodup_range
  have hs : (revTable s).Pairwise (fun a b => s.ord a ≤ s.ord b) := by
    exact sortBy_sorted _ _
  have hm : ((revTable s).map s.ord).Perm (List.range s.nvars) := by
    have hnd' : ((revTable s).map s.ord).Nodup :=
      (List.nodup_map_iff_inj_on hnd).2 fun a ha b hb e => h.ord_inj a b (hmem a ha) (hmem b hb) e
    refine (hnd'.subperm ?_).perm_of_length_le (by simp [hlen])
    intro a ha
    obtain ⟨v, hv, rfl⟩ := List.mem_map.1 ha
    simpa using h.ord_lt v (hmem v hv)
  have heq : (revTable s).map s.ord = List.range s.nvars := by
    refine hm.eq_of_pairwise (le := (· ≤ ·)) (fun a b _ _ h1 h2 => le_antisymm h1 h2) ?_ ?_
    · rw [List.pairwise_map]; exact hs
    · exact List.pairwise_le_range
  refine ⟨hlen, ?_⟩
  intro p hp
  have h1 : ((revTable s).map s.ord)[p]? = some p := by rw [heq, List.getElem?_range hp]
  rw [List.getElem?_map] at h1
  obtain ⟨v, hv, e⟩ := Option.map_eq_some_iff.1 h1
  exact ⟨v, hv, hmem v (List.mem_of_getElem? hv), e⟩

/-! ### Pairs of variables -/

theorem rotUp_pair {d p : Nat} (hd : d % 2 = 0) (hp : p % 2 = 0) {a : Nat} (ha : a % 2 = 0) :
    rotUp d p a % 2 = 0 ∧ rotUp d p (a + 1) = rotUp d p a + 1 := by
  unfold rotUp
  constructor <;> split_ifs <;> omega

/-- A list of variables as `Add_ordering_var` builds it. -/
inductive Pairs : List Nat → Prop
  | nil : Pairs []
  | cons (k : Nat) {l : List Nat} : Pairs l → Pairs (2 * k :: (2 * k + 1) :: l)

theorem userLoop_spec {ext : Nat → Nat} {vs : List Nat} (hvs : Pairs vs) : ∀ (s : S) (rev : List Nat)
    (i : Nat), RS ext s rev → Paired s → (∀ v ∈ vs, v < s.nvars) → i % 2 = 0 →
    ∃ s' rev', userLoop s rev i vs = some s' ∧ RS ext s' rev' ∧ Kept ext s s' ∧ Paired s' ∧
      (∀ v, v < s.nvars → s.ord v < i → s'.ord v = s.ord v) ∧
      ((∀ v ∈ vs, i ≤ s.ord v) → vs.Nodup → ∀ j v, vs[j]? = some v → s'.ord v = i + j) := by
  induction hvs with
  | nil => intro s rev i h hP _ _; exact ⟨s, rev, rfl, h, Kept.refl _ _, hP, fun _ _ _ => rfl, by simp⟩
  | @cons k l _ ih =>
    intro s rev i hR hP hlt hi
    have hk : 2 * k < s.nvars := hlt _ (by simp)
    have hk1 : 2 * k + 1 < s.nvars := hlt _ (by simp)
    obtain ⟨p0, p1⟩ := hP.pos k hk
    have he := hP.even
    have hol := hR.I.ord_lt _ hk
    have hol1 := hR.I.ord_lt _ hk1
    -- the current-state variable
    obtain ⟨s1, r1, e1, R1, K1, o1⟩ := moveUp_spec (s.nvars + 1) s rev (s.ord (2 * k)) i hR he
      (fun _ => ⟨by omega, p0⟩) (by omega) (by omega)
    have hn1 := K1.nvars
    have P1 : Paired s1 := by
      refine ⟨by omega, ?_⟩
      intro q hq
      rw [hn1] at hq
      obtain ⟨q0, q1⟩ := hP.pos q hq
      rw [o1 _ hq, o1 _ (by omega)]
      split
      · rw [q1]; exact rotUp_pair hi p0 q0
      · exact ⟨q0, q1⟩
    -- the next-state variable is in place
    have hpl : s1.ord (2 * k + 1) ≤ i + 1 := by
      rw [o1 _ hk1, p1]
      split
      · unfold rotUp; split_ifs <;> omega
      · omega
    have hol2 := R1.I.ord_lt _ (hn1 ▸ hk1)
    obtain ⟨s2, r2, e2, R2, K2, o2⟩ := moveUp_spec (s1.nvars + 1) s1 r1 (s1.ord (2 * k + 1)) (i + 1) R1
      (by omega) (fun h => by omega) (Or.inr hpl) (by omega)
    have hn2 := K2.nvars
    have o2' : ∀ v, v < s.nvars → s2.ord v = s1.ord v := by
      intro v hv
      rw [o2 v (by omega), if_neg (by omega)]
    have P2 : Paired s2 := by
      refine ⟨by omega, ?_⟩
      intro q hq
      rw [o2' _ (by omega), o2' _ (by omega)]
      exact P1.pos q (by omega)
    obtain ⟨s3, r3, e3, R3, K3, P3, f3, g3⟩ := ih s2 r2 (i + 2) R2 P2 (by
      intro v hv
      have := hlt v (by simp [hv])
      omega) (by omega)
    refine ⟨s3, r3, ?_, R3, (K1.toKept.trans K2.toKept).trans K3, P3, ?_, ?_⟩
    · simp only [userLoop]
      rw [if_pos hk, e1]
      simp only [Option.bind_eq_bind, Option.bind_some]
      rw [if_pos (by omega), e2]
      exact e3
    · intro v hv hvi
      have h2 : s2.ord v = s.ord v := by
        rw [o2' v hv, o1 v hv]
        split
        · unfold rotUp; split_ifs <;> omega
        · rfl
      rw [f3 v (by omega) (by omega), h2]
    · intro hge hnd j v hj
      have hgek := hge (2 * k) (by simp)
      have a0 : s2.ord (2 * k) = i := by
        rw [o2' _ hk, o1 _ hk]
        split
        · unfold rotUp; split_ifs <;> omega
        · omega
      have a1 : s2.ord (2 * k + 1) = i + 1 := by
        have := (P2.pos k (by omega)).2
        omega
      match j, hj with
      | 0, hj =>
        simp only [List.getElem?_cons_zero, Option.some.injEq] at hj
        subst hj
        rw [f3 _ (by omega) (by omega), a0]; rfl
      | 1, hj =>
        simp only [List.getElem?_cons_succ, List.getElem?_cons_zero, Option.some.injEq] at hj
        subst hj
        rw [f3 _ (by omega) (by omega), a1]
      | j + 2, hj =>
        simp only [List.getElem?_cons_succ] at hj
        have hnd' : l.Nodup := ((List.nodup_cons.1 (List.nodup_cons.1 hnd).2)).2
        have hn0 : 2 * k ∉ l := fun hc => (List.nodup_cons.1 hnd).1 (by simp [hc])
        have hn1' : 2 * k + 1 ∉ l := (List.nodup_cons.1 (List.nodup_cons.1 hnd).2).1
        have := g3 (by
          intro w hw
          have hwl := hlt w (by simp [hw])
          have h1 : s2.ord w ≠ i := by
            intro hc
            have := R2.I.ord_inj w (2 * k) (by omega) (by omega) (by omega)
            subst this; exact hn0 hw
          have h2 : s2.ord w ≠ i + 1 := by
            intro hc
            have := R2.I.ord_inj w (2 * k + 1) (by omega) (by omega) (by omega)
            subst this; exact hn1' hw
          have hwi := hge w (by simp [hw])
          have h3 : i ≤ s2.ord w := by
            rw [o2' w hwl, o1 w hwl]
            split
            · unfold rotUp; split_ifs <;> omega
            · exact hwi
          omega) hnd' j v hj
        rw [this]; omega

end Voss.Bdd
