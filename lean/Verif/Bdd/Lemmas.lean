import Verif.Bdd.Spec
import Mathlib.Tactic.Ring
/-
Basic facts about denotations, canonicity, and the effect of `findInsert`.
-/
namespace Voss.Bdd

@[simp] theorem F.not_idx (f : F) : f.not.idx = f.idx := rfl
@[simp] theorem F.not_neg (f : F) : f.not.neg = !f.neg := rfl
theorem F.xneg_idx (b : Bool) (f : F) : (F.xneg b f).idx = f.idx := by
  unfold F.xneg; split <;> rfl
theorem F.xneg_neg (b : Bool) (f : F) : (F.xneg b f).neg = xor b f.neg := by
  unfold F.xneg; cases b <;> simp
theorem F.ext' {f g : F} (h1 : f.neg = g.neg) (h2 : f.idx = g.idx) : f = g := by
  cases f; cases g; simp_all

@[simp] theorem upd_same {α : Type} (f : Nat → α) (i : Nat) (x : α) : upd f i x i = x := by
  simp [upd]
theorem upd_ne {α : Type} (f : Nat → α) {i j : Nat} (x : α) (h : j ≠ i) : upd f i x j = f j := by
  simp [upd, h]

/-! ### Denotations -/

theorem insBy_perm (key : Nat → Nat) (v : Nat) : ∀ l, (insBy key v l).Perm (v :: l)
  | [] => List.Perm.refl _
  | w :: l => by
    simp only [insBy]
    split
    · exact List.Perm.refl _
    · exact ((insBy_perm key v l).cons w).trans (List.Perm.swap v w l)

theorem sortBy_perm (key : Nat → Nat) : ∀ l, (sortBy key l).Perm l
  | [] => List.Perm.refl _
  | v :: l => (insBy_perm key v _).trans ((sortBy_perm key l).cons v)

theorem insBy_sorted (key : Nat → Nat) (v : Nat) : ∀ l : List Nat, l.Pairwise (fun a b => key a ≤ key b) →
    (insBy key v l).Pairwise (fun a b => key a ≤ key b)
  | [], _ => by simp [insBy]
  | w :: l, h => by
    rw [List.pairwise_cons] at h
    simp only [insBy]
    split
    · next hle =>
      rw [List.pairwise_cons, List.pairwise_cons]
      refine ⟨?_, h⟩
      intro a ha
      rcases List.mem_cons.1 ha with rfl | ha
      · exact hle
      · have := h.1 a ha; omega
    · next hle =>
      rw [List.pairwise_cons]
      refine ⟨?_, insBy_sorted key v l h.2⟩
      intro a ha
      rcases List.mem_cons.1 ((insBy_perm key v l).mem_iff.1 ha) with rfl | ha
      · omega
      · exact h.1 a ha

theorem sortBy_sorted (key : Nat → Nat) : ∀ l : List Nat, (sortBy key l).Pairwise (fun a b => key a ≤ key b)
  | [] => List.Pairwise.nil
  | v :: l => insBy_sorted key v _ (sortBy_sorted key l)

theorem Den.det {t : Nat → Option Node} {i : Nat} {g g' : BFun} (h : Den t i g) (h' : Den t i g') :
    g = g' := by
  induction h generalizing g' with
  | zero => cases h' with
    | zero => rfl
    | node h0 => exact absurd rfl h0
  | node h0 e _ _ ihl ihr =>
    cases h' with
    | zero => exact absurd rfl h0
    | node h0' e' hl hr =>
      rw [e] at e'
      cases e'
      rw [ihl hl, ihr hr]

theorem Den.mono {t t' : Nat → Option Node} (hm : ∀ i n, t i = some n → t' i = some n) {i : Nat}
    {g : BFun} (h : Den t i g) : Den t' i g := by
  induction h with
  | zero => exact Den.zero
  | node h0 e _ _ ihl ihr => exact Den.node h0 (hm _ _ e) ihl ihr

theorem Denotes.det {s : S} {f : F} {g g' : BFun} (h : Denotes s f g) (h' : Denotes s f g') :
    g = g' := by
  obtain ⟨a, ha, rfl⟩ := h
  obtain ⟨b, hb, rfl⟩ := h'
  rw [ha.det hb]

theorem Denotes.mono {s s' : S} (hm : ∀ i n, s.tbl i = some n → s'.tbl i = some n) {f : F}
    {g : BFun} (h : Denotes s f g) : Denotes s' f g := by
  obtain ⟨a, ha, rfl⟩ := h
  exact ⟨a, ha.mono hm, rfl⟩

theorem denotes_zero (s : S) : Denotes s ZERO (fun _ => false) := ⟨_, Den.zero, by simp [ZERO]⟩
theorem denotes_one (s : S) : Denotes s ONE (fun _ => true) := ⟨_, Den.zero, by simp [ONE]⟩

theorem Denotes.not {s : S} {f : F} {g : BFun} (h : Denotes s f g) :
    Denotes s f.not (fun ρ => !(g ρ)) := by
  obtain ⟨a, ha, rfl⟩ := h
  refine ⟨a, ha, ?_⟩
  funext ρ
  simp

theorem Denotes.xneg {s : S} {f : F} {g : BFun} (b : Bool) (h : Denotes s f g) :
    Denotes s (F.xneg b f) (fun ρ => xor b (g ρ)) := by
  cases b
  · simpa [F.xneg] using h
  · simpa [F.xneg] using h.not

theorem denotes_pos {s : S} {i : Nat} {g : BFun} : Denotes s ⟨false, i⟩ g ↔ Den s.tbl i g := by
  constructor
  · rintro ⟨a, ha, rfl⟩; simpa using ha
  · intro h; exact ⟨g, h, by simp⟩

/-- Denotation of a node from the denotations of its sons. -/
theorem denotes_node {s : S} {f : F} {n : Node} {gl gr : BFun} (h0 : f.idx ≠ 0)
    (e : s.tbl f.idx = some n) (hl : Denotes s (sons f n).1 gl) (hr : Denotes s (sons f n).2 gr) :
    Denotes s f (fun ρ => if ρ n.var then gl ρ else gr ρ) := by
  obtain ⟨a, ha, rfl⟩ := hl
  obtain ⟨b, hb, rfl⟩ := hr
  simp only [sons, F.xneg_idx] at ha hb
  refine ⟨_, Den.node h0 e ha hb, ?_⟩
  funext ρ
  simp only [sons, F.xneg_neg]
  by_cases h : ρ n.var <;> simp [h]

/-- A live non-constant handle splits into its cofactors. -/
theorem Denotes.split {s : S} {f : F} {n : Node} {g : BFun} (h : Denotes s f g)
    (e : s.tbl f.idx = some n) (h0 : f.idx ≠ 0) :
    ∃ gl gr, Denotes s (sons f n).1 gl ∧ Denotes s (sons f n).2 gr ∧
      g = fun ρ => if ρ n.var then gl ρ else gr ρ := by
  obtain ⟨a, ha, rfl⟩ := h
  generalize hi : f.idx = i at *
  cases ha with
  | zero => exact absurd rfl h0
  | @node _ _ gl gr _ e' hl hr =>
    rw [e] at e'; cases e'
    refine ⟨_, _, ⟨gl, ?_, rfl⟩, ⟨gr, ?_, rfl⟩, ?_⟩
    · simpa only [sons, F.xneg_idx] using hl
    · simpa only [sons, F.xneg_idx] using hr
    · funext ρ
      simp only [sons, F.xneg_neg]
      by_cases h : ρ n.var <;> simp [h]

theorem Denotes.live {s : S} {f : F} {g : BFun} (h : Denotes s f g) :
    f.idx = 0 ∨ ∃ n, s.tbl f.idx = some n := by
  obtain ⟨a, ha, rfl⟩ := h
  generalize f.idx = i at *
  cases ha with
  | zero => exact Or.inl rfl
  | node _ e _ _ => exact Or.inr ⟨_, e⟩

theorem Denotes.node_of_ne {s : S} {f : F} {g : BFun} (h : Denotes s f g) (h0 : f.idx ≠ 0) :
    ∃ n, s.tbl f.idx = some n := by
  rcases h.live with h1 | h1
  · exact absurd h1 h0
  · exact h1

theorem idx_zero {f : F} (h : f.idx = 0) : f = ZERO ∨ f = ONE := by
  cases f with
  | mk n i =>
    simp only at h; subst h
    cases n
    · exact Or.inl rfl
    · exact Or.inr rfl

/-- A positive handle is false when every variable is true. -/
theorem Den.allTrue {t : Nat → Option Node} {i : Nat} {g : BFun} (h : Den t i g) :
    g (fun _ => true) = false := by
  induction h with
  | zero => rfl
  | node _ _ _ _ ihl _ => simpa using ihl

theorem Denotes.neg_eq {s : S} {f : F} {g : BFun} (h : Denotes s f g) :
    f.neg = g (fun _ => true) := by
  obtain ⟨a, ha, rfl⟩ := h
  simp [ha.allTrue]

/-! ### Levels -/

/-- Position of the top variable (number of variables for a constant). -/
def lev (s : S) (i : Nat) : Nat :=
  match s.tbl i with
  | some n => s.ord n.var
  | none => s.nvars

theorem lev_some {s : S} {i : Nat} {n : Node} (e : s.tbl i = some n) : lev s i = s.ord n.var := by
  simp [lev, e]

theorem lev_le {s : S} (hs : SInv s) (i : Nat) : lev s i ≤ s.nvars := by
  unfold lev
  split
  · next n e => exact (hs.ord_lt _ (hs.var_lt _ _ e)).le
  · exact le_rfl

theorem lev_lt {s : S} (hs : SInv s) {i : Nat} {n : Node} (e : s.tbl i = some n) :
    lev s i < s.nvars := by
  rw [lev_some e]; exact hs.ord_lt _ (hs.var_lt _ _ e)

theorem lev_zero {s : S} (hs : SInv s) : lev s 0 = s.nvars := by simp [lev, hs.tbl0]

theorem lev_below {s : S} (hs : SInv s) {v j : Nat} (hv : v < s.nvars) (h : Below s v j) :
    s.ord v < lev s j := by
  rcases h with rfl | ⟨m, e, h⟩
  · rw [lev_zero hs]; exact hs.ord_lt _ hv
  · rw [lev_some e]; exact h

theorem idx_ne_zero {s : S} (hs : SInv s) {i : Nat} {n : Node} (e : s.tbl i = some n) : i ≠ 0 := by
  rintro rfl; rw [hs.tbl0] at e; exact absurd e (by simp)

theorem below_of_lev {s : S} {v : Nat} {f : F} {g : BFun} (h : Denotes s f g)
    (hlev : s.ord v < lev s f.idx) : Below s v f.idx := by
  rcases h.live with h0 | ⟨n, e⟩
  · exact Or.inl h0
  · exact Or.inr ⟨n, e, by rwa [lev_some e] at hlev⟩

theorem sons_idx (f : F) (n : Node) : (sons f n).1.idx = n.lson ∧ (sons f n).2.idx = n.rson.idx := by
  simp [sons, F.xneg_idx]

theorem lev_sons {s : S} (hs : SInv s) {f : F} {n : Node} (e : s.tbl f.idx = some n) :
    lev s f.idx < lev s (sons f n).1.idx ∧ lev s f.idx < lev s (sons f n).2.idx := by
  rw [(sons_idx f n).1, (sons_idx f n).2, lev_some e]
  exact ⟨lev_below hs (hs.var_lt _ _ e) (hs.below_l _ _ e),
    lev_below hs (hs.var_lt _ _ e) (hs.below_r _ _ e)⟩

/-- Every live node denotes something. -/
theorem den_exists {s : S} (hs : SInv s) : ∀ (k i : Nat), s.nvars - lev s i ≤ k →
    (i = 0 ∨ ∃ n, s.tbl i = some n) → ∃ g, Den s.tbl i g := by
  intro k
  induction k with
  | zero =>
    intro i hk h
    rcases h with rfl | ⟨n, e⟩
    · exact ⟨_, Den.zero⟩
    · have := lev_lt hs e; omega
  | succ k ih =>
    intro i hk h
    rcases h with rfl | ⟨n, e⟩
    · exact ⟨_, Den.zero⟩
    · have hl := lev_below hs (hs.var_lt _ _ e) (hs.below_l _ _ e)
      have hr := lev_below hs (hs.var_lt _ _ e) (hs.below_r _ _ e)
      have hlt := lev_lt hs e
      rw [lev_some e] at hk hlt
      have hbl := hs.below_l _ _ e
      have hbr := hs.below_r _ _ e
      obtain ⟨gl, dl⟩ := ih n.lson (by omega) (by
        rcases hbl with h | ⟨m, h, _⟩
        · exact Or.inl h
        · exact Or.inr ⟨m, h⟩)
      obtain ⟨gr, dr⟩ := ih n.rson.idx (by omega) (by
        rcases hbr with h | ⟨m, h, _⟩
        · exact Or.inl h
        · exact Or.inr ⟨m, h⟩)
      exact ⟨_, Den.node (idx_ne_zero hs e) e dl dr⟩

theorem denotes_exists {s : S} (hs : SInv s) {f : F} (h : f.idx = 0 ∨ ∃ n, s.tbl f.idx = some n) :
    ∃ g, Denotes s f g := by
  obtain ⟨g, hg⟩ := den_exists hs _ f.idx le_rfl h
  exact ⟨_, g, hg, rfl⟩

/-! ### Independence of earlier variables -/

/-- `g` only looks at declared variables at position `m` or later. -/
def OnlyFrom (s : S) (m : Nat) (g : BFun) : Prop :=
  ∀ ρ ρ' : Env, (∀ v, v < s.nvars → m ≤ s.ord v → ρ v = ρ' v) → g ρ = g ρ'

theorem OnlyFrom.mono {s : S} {m m' : Nat} {g : BFun} (h : OnlyFrom s m g) (hm : m' ≤ m) :
    OnlyFrom s m' g := fun ρ ρ' hr => h ρ ρ' fun v hv hv' => hr v hv (hm.trans hv')

theorem den_onlyFrom {s : S} (hs : SInv s) {i : Nat} {g : BFun} (h : Den s.tbl i g) :
    OnlyFrom s (lev s i) g := by
  generalize ht : s.tbl = t at h
  induction h with
  | zero => intro _ _ _; rfl
  | @node i n gl gr h0 e hl hr ihl ihr =>
    subst ht
    intro ρ ρ' hr'
    have hvar := hs.var_lt _ _ e
    rw [lev_some e] at hr'
    have hv : ρ n.var = ρ' n.var := hr' n.var hvar le_rfl
    have l1 := (lev_below hs hvar (hs.below_l _ _ e))
    have l2 := (lev_below hs hvar (hs.below_r _ _ e))
    have e1 := ihl.mono l1.le ρ ρ' hr'
    have e2 := ihr.mono l2.le ρ ρ' hr'
    simp only [hv, e1, e2]

theorem Denotes.onlyFrom {s : S} (hs : SInv s) {f : F} {g : BFun} (h : Denotes s f g) :
    OnlyFrom s (lev s f.idx) g := by
  obtain ⟨a, ha, rfl⟩ := h
  intro ρ ρ' hr
  simp only [den_onlyFrom hs ha ρ ρ' hr]

/-- Setting an earlier variable does not matter. -/
theorem OnlyFrom.set1 {s : S} {m v : Nat} {g : BFun} (h : OnlyFrom s m g) (hv : s.ord v < m) (ρ : Env)
    (b : Bool) : g (set1 ρ v b) = g ρ := by
  apply h
  intro w _ hw
  have : w ≠ v := by rintro rfl; omega
  simp [Bdd.set1, this]

/-! ### Canonicity -/

theorem xneg_xneg (b : Bool) (x : F) : F.xneg b (F.xneg b x) = x := by
  apply F.ext' <;> simp [F.xneg_neg, F.xneg_idx]

theorem sons_ne {s : S} (hs : SInv s) {f : F} {n : Node} (e : s.tbl f.idx = some n) :
    (sons f n).1 ≠ (sons f n).2 := by
  intro h
  refine hs.reduced _ _ e ?_
  simp only [sons] at h
  rw [← xneg_xneg f.neg (⟨false, n.lson⟩ : F), h, xneg_xneg]

theorem set1_same (ρ : Env) (v : Nat) (b : Bool) : set1 ρ v b v = b := by simp [set1]
theorem set1_ne (ρ : Env) {v w : Nat} (b : Bool) (h : w ≠ v) : set1 ρ v b w = ρ w := by
  simp [set1, h]

/-- Cofactors are determined by the function. -/
theorem cof_eq {s : S} (hs : SInv s) {f : F} {n : Node} {g gl gr : BFun}
    (e : s.tbl f.idx = some n) (hl : Denotes s (sons f n).1 gl) (hr : Denotes s (sons f n).2 gr)
    (hg : g = fun ρ => if ρ n.var then gl ρ else gr ρ) :
    (gl = fun ρ => g (set1 ρ n.var true)) ∧ (gr = fun ρ => g (set1 ρ n.var false)) := by
  have h := lev_sons hs e
  rw [lev_some e] at h
  subst hg
  constructor
  · funext ρ
    simp only [set1_same, if_true]
    exact ((hl.onlyFrom hs).set1 h.1 ρ true).symm
  · funext ρ
    simp only [set1_same, Bool.false_eq_true, if_false]
    exact ((hr.onlyFrom hs).set1 h.2 ρ false).symm

theorem canon_aux {s : S} (hs : SInv s) : ∀ (k : Nat) (f f' : F) (g : BFun),
    s.nvars - lev s f.idx ≤ k → s.nvars - lev s f'.idx ≤ k →
    Denotes s f g → Denotes s f' g → f = f' := by
  intro k
  induction k with
  | zero =>
    intro f f' g hk hk' h h'
    have hn : f.neg = f'.neg := by rw [h.neg_eq, h'.neg_eq]
    have z : ∀ f : F, s.nvars - lev s f.idx ≤ 0 → (∃ g, Denotes s f g) → f.idx = 0 := by
      intro f hl ⟨g, hg⟩
      rcases hg.live with h0 | ⟨n, e⟩
      · exact h0
      · have := lev_lt hs e; omega
    exact F.ext' hn (by rw [z f hk ⟨g, h⟩, z f' hk' ⟨g, h'⟩])
  | succ k ih =>
    -- a node whose function does not depend on its variable contradicts reducedness
    have key : ∀ (f : F) (n : Node) (g : BFun), s.tbl f.idx = some n →
        s.nvars - lev s f.idx ≤ k + 1 → Denotes s f g →
        (∀ ρ, g (set1 ρ n.var true) = g (set1 ρ n.var false)) → False := by
      intro f n g e hk h hind
      obtain ⟨gl, gr, dl, dr, hg⟩ := h.split e (idx_ne_zero hs e)
      obtain ⟨e1, e2⟩ := cof_eq hs e dl dr hg
      have hl := lev_sons hs e
      have hlt := lev_lt hs e
      have : gl = gr := by rw [e1, e2]; funext ρ; exact hind ρ
      subst this
      exact sons_ne hs e (ih _ _ _ (by omega) (by omega) dl dr)
    intro f f' g hk hk' h h'
    have hn : f.neg = f'.neg := by rw [h.neg_eq, h'.neg_eq]
    rcases h.live with h0 | ⟨n, e⟩
    · rcases h'.live with h0' | ⟨n', e'⟩
      · exact F.ext' hn (by rw [h0, h0'])
      · exfalso
        refine key f' n' g e' hk' h' fun ρ => ?_
        have := h.onlyFrom hs
        rw [h0, lev_zero hs] at this
        have hv := hs.ord_lt _ (hs.var_lt _ _ e')
        rw [this.set1 hv, this.set1 hv]
    · rcases h'.live with h0' | ⟨n', e'⟩
      · exfalso
        refine key f n g e hk h fun ρ => ?_
        have := h'.onlyFrom hs
        rw [h0', lev_zero hs] at this
        have hv := hs.ord_lt _ (hs.var_lt _ _ e)
        rw [this.set1 hv, this.set1 hv]
      · rcases Nat.lt_trichotomy (lev s f.idx) (lev s f'.idx) with hlt | heq | hgt
        · exfalso
          refine key f n g e hk h fun ρ => ?_
          have := h'.onlyFrom hs
          rw [lev_some e] at hlt
          rw [this.set1 hlt, this.set1 hlt]
        · have hv : n.var = n'.var := by
            rw [lev_some e, lev_some e'] at heq
            exact hs.ord_inj _ _ (hs.var_lt _ _ e) (hs.var_lt _ _ e') heq
          obtain ⟨gl, gr, dl, dr, hg⟩ := h.split e (idx_ne_zero hs e)
          obtain ⟨e1, e2⟩ := cof_eq hs e dl dr hg
          obtain ⟨gl', gr', dl', dr', hg'⟩ := h'.split e' (idx_ne_zero hs e')
          obtain ⟨e1', e2'⟩ := cof_eq hs e' dl' dr' hg'
          have hgl : gl' = gl := by rw [e1, e1', hv]
          have hgr : gr' = gr := by rw [e2, e2', hv]
          subst hgl hgr
          have hl := lev_sons hs e
          have hl' := lev_sons hs e'
          have b1 := lev_lt hs e
          have b2 := lev_lt hs e'
          have q1 := ih _ _ _ (by omega) (by omega) dl dl'
          have q2 := ih _ _ _ (by omega) (by omega) dr dr'
          simp only [sons, hn] at q1 q2
          have p1 : (⟨false, n.lson⟩ : F) = ⟨false, n'.lson⟩ := by
            rw [← xneg_xneg f'.neg (⟨false, n.lson⟩ : F), q1, xneg_xneg]
          have p2 : n.rson = n'.rson := by
            rw [← xneg_xneg f'.neg n.rson, q2, xneg_xneg]
          have p1' : n.lson = n'.lson := congrArg F.idx p1
          have hnode : n = n' := by
            have e0 : n = ⟨n.var, n.lson, n.rson⟩ := rfl
            rw [e0, hv, p1', p2]
          subst hnode
          exact F.ext' hn (hs.uniq _ _ _ e e')
        · exfalso
          refine key f' n' g e' hk' h' fun ρ => ?_
          have := h.onlyFrom hs
          rw [lev_some e'] at hgt
          rw [this.set1 hgt, this.set1 hgt]

/-- Canonicity: handles that denote the same function are equal. -/
theorem canon {s : S} (hs : SInv s) {f f' : F} {g : BFun} (h : Denotes s f g)
    (h' : Denotes s f' g) : f = f' :=
  canon_aux hs ((s.nvars - lev s f.idx) + (s.nvars - lev s f'.idx)) f f' g (by omega) (by omega) h h'

/-- The top variable of a node is essential. -/
theorem top_essential {s : S} (hs : SInv s) {f : F} {n : Node} {g : BFun}
    (e : s.tbl f.idx = some n) (h : Denotes s f g) : DependsOn g n.var := by
  by_contra hc
  simp only [DependsOn, not_exists, not_not] at hc
  obtain ⟨gl, gr, dl, dr, hg⟩ := h.split e (idx_ne_zero hs e)
  obtain ⟨e1, e2⟩ := cof_eq hs e dl dr hg
  have : gl = gr := by rw [e1, e2]; funext ρ; exact hc ρ
  subst this
  exact sons_ne hs e (canon hs dl dr)

/-- If a function only looks at positions from `m` on, so does its handle. -/
theorem lev_of_onlyFrom {s : S} (hs : SInv s) {f : F} {g : BFun} {m : Nat} (h : Denotes s f g)
    (ho : OnlyFrom s m g) (hm : m ≤ s.nvars) : m ≤ lev s f.idx := by
  rcases h.live with h0 | ⟨n, e⟩
  · rw [h0, lev_zero hs]; exact hm
  · by_contra hc
    rw [lev_some e] at hc
    obtain ⟨ρ, hρ⟩ := top_essential hs e h
    exact hρ (by rw [ho.set1 (by omega), ho.set1 (by omega)])

end Voss.Bdd
