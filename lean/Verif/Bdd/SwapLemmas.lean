import Verif.Bdd.GcLemmas
/-
Swapping adjacent variables: the invariant of the intermediate states.
-/
namespace Voss.Bdd

/-- Constant, or a node for a variable after `y`. -/
def Low (s : S) (y j : Nat) : Prop := j = 0 ∨ ∃ m, s.tbl j = some m ∧ s.ord y < s.ord m.var

/-- Low, or a node for `v` with low sons. -/
def Son (s : S) (y v j : Nat) : Prop :=
  Low s y j ∨ ∃ m, s.tbl j = some m ∧ m.var = v ∧ Low s y m.lson ∧ Low s y m.rson.idx

/-- Invariant while the nodes for `x` are being moved below `y`. -/
structure MInv (x y : Nat) (s : S) : Prop where
  T : TInv s
  var_lt : ∀ i n, s.tbl i = some n → n.var < s.nvars
  reduced : ∀ i n, s.tbl i = some n → (⟨false, n.lson⟩ : F) ≠ n.rson
  ord_inj : ∀ v w, v < s.nvars → w < s.nvars → s.ord v = s.ord w → v = w
  ord_lt : ∀ v, v < s.nvars → s.ord v < s.nvars
  xlt : x < s.nvars
  ylt : y < s.nvars
  xy : s.ord y = s.ord x + 1
  den : ∀ i n, s.tbl i = some n → ∃ g, Den s.tbl i g
  canon : ∀ i j g, Den s.tbl i g → Den s.tbl j g → i = j
  sonX : ∀ i n, s.tbl i = some n → n.var = x → Son s y y n.lson ∧ Son s y y n.rson.idx
  sonY : ∀ i n, s.tbl i = some n → n.var = y → Son s y x n.lson ∧ Son s y x n.rson.idx
  other : ∀ i n, s.tbl i = some n → n.var ≠ x → n.var ≠ y →
    Below s n.var n.lson ∧ Below s n.var n.rson.idx

variable {x y : Nat} {s : S}

theorem MInv.ne (h : MInv x y s) : x ≠ y := by
  rintro rfl; have := h.xy; omega

theorem MInv.ne0 (h : MInv x y s) {i : Nat} {n : Node} (e : s.tbl i = some n) : i ≠ 0 := by
  rintro rfl; rw [h.T.tbl0] at e; exact absurd e (by simp)

/-- Position of the top variable, with `x` and `y` identified. -/
def mlev (x y : Nat) (s : S) (i : Nat) : Nat :=
  match s.tbl i with
  | none => s.nvars
  | some n => if n.var = x ∨ n.var = y then s.ord x else s.ord n.var

theorem mlev_none (h : s.tbl i = none) : mlev x y s i = s.nvars := by simp [mlev, h]
theorem mlev_some {n : Node} (h : s.tbl i = some n) :
    mlev x y s i = if n.var = x ∨ n.var = y then s.ord x else s.ord n.var := by simp [mlev, h]

theorem MInv.low_var (h : MInv x y s) {m : Node} (hl : s.ord y < s.ord m.var) :
    m.var ≠ x ∧ m.var ≠ y := by
  constructor
  · intro e; rw [e] at hl; have := h.xy; omega
  · intro e; rw [e] at hl; omega

theorem MInv.mlev_low (h : MInv x y s) {j : Nat} (hl : Low s y j) : s.ord y < mlev x y s j := by
  rcases hl with rfl | ⟨m, e, hm⟩
  · rw [mlev_none h.T.tbl0]; exact h.ord_lt _ h.ylt
  · obtain ⟨a, b⟩ := h.low_var hm
    rw [mlev_some e, if_neg (by tauto)]; exact hm

theorem MInv.mlev_son (h : MInv x y s) {v j : Nat} (hv : v = x ∨ v = y) (hl : Son s y v j) :
    s.ord x ≤ mlev x y s j := by
  rcases hl with hl | ⟨m, e, hm, _⟩
  · have := h.mlev_low hl; have := h.xy; omega
  · rw [mlev_some e, if_pos (by rw [hm]; exact hv)]

theorem MInv.mlev_below (h : MInv x y s) {v j : Nat} (hv : v < s.nvars) (hx : v ≠ x) (hy : v ≠ y)
    (hb : Below s v j) : s.ord v < mlev x y s j := by
  rcases hb with rfl | ⟨m, e, hm⟩
  · rw [mlev_none h.T.tbl0]; exact h.ord_lt _ hv
  · rw [mlev_some e]
    split
    · next hc =>
      have h1 : s.ord v ≠ s.ord x := fun e => hx (h.ord_inj _ _ hv h.xlt e)
      have h2 := h.xy
      rcases hc with hc | hc
      · rw [hc] at hm; exact hm
      · rw [hc] at hm; omega
    · exact hm

theorem MInv.onlyFrom (h : MInv x y s) {i : Nat} {g : BFun} (d : Den s.tbl i g) :
    OnlyFrom s (mlev x y s i) g := by
  generalize ht : s.tbl = t at d
  induction d with
  | zero => intro _ _ _; rfl
  | @node i n gl gr h0 e hl hr ihl ihr =>
    subst ht
    intro ρ ρ' hr'
    have hvar := h.var_lt _ _ e
    have key : mlev x y s i ≤ s.ord n.var ∧ mlev x y s i ≤ mlev x y s n.lson ∧
        mlev x y s i ≤ mlev x y s n.rson.idx := by
      rw [mlev_some e]
      by_cases hx : n.var = x
      · rw [if_pos (Or.inl hx), hx]
        obtain ⟨a, b⟩ := h.sonX _ _ e hx
        exact ⟨le_rfl, h.mlev_son (Or.inr rfl) a, h.mlev_son (Or.inr rfl) b⟩
      · by_cases hy : n.var = y
        · rw [if_pos (Or.inr hy), hy]
          obtain ⟨a, b⟩ := h.sonY _ _ e hy
          have := h.xy
          exact ⟨by omega, h.mlev_son (Or.inl rfl) a, h.mlev_son (Or.inl rfl) b⟩
        · rw [if_neg (by tauto)]
          obtain ⟨a, b⟩ := h.other _ _ e hx hy
          exact ⟨le_rfl, (h.mlev_below hvar hx hy a).le, (h.mlev_below hvar hx hy b).le⟩
    beta_reduce
    rw [hr' n.var hvar key.1, ihl ρ ρ' (fun v hv hv' => hr' v hv (key.2.1.trans hv')),
      ihr ρ ρ' (fun v hv hv' => hr' v hv (key.2.2.trans hv'))]

/-- `g` does not look at variable `v`. -/
def NoDep (g : BFun) (v : Nat) : Prop := ∀ ρ b, g (set1 ρ v b) = g ρ

theorem OnlyFrom.noDep {m v : Nat} {g : BFun} (h : OnlyFrom s m g) (hv : s.ord v < m) : NoDep g v :=
  fun ρ b => h.set1 hv ρ b

theorem MInv.low_noDep (h : MInv x y s) {j : Nat} (hl : Low s y j) {g : BFun} (d : Den s.tbl j g) :
    NoDep g x ∧ NoDep g y := by
  have h1 := h.mlev_low hl
  have h2 := h.xy
  exact ⟨(h.onlyFrom d).noDep (by omega), (h.onlyFrom d).noDep h1⟩

/-- A son of a node for `v` where `v` is `x` or `y` does not look at the other variable... -/
theorem MInv.son_noDep (h : MInv x y s) {v w j : Nat} (hvw : (v = x ∧ w = y) ∨ (v = y ∧ w = x))
    (hl : Son s y v j) {g : BFun} (d : Den s.tbl j g) : NoDep g w := by
  have hne : v ≠ w := by
    rcases hvw with ⟨rfl, rfl⟩ | ⟨rfl, rfl⟩
    · exact h.ne
    · exact h.ne.symm
  have hlow : ∀ j g, Low s y j → Den s.tbl j g → NoDep g w := by
    intro j g hl d
    rcases hvw with ⟨rfl, rfl⟩ | ⟨rfl, rfl⟩
    · exact (h.low_noDep hl d).2
    · exact (h.low_noDep hl d).1
  rcases hl with hl | ⟨m, e, hm, l1, l2⟩
  · exact hlow _ _ hl d
  · cases d with
    | zero => intro ρ b; rfl
    | node h0 e' dl dr =>
      rw [e] at e'; cases e'
      intro ρ b
      beta_reduce
      rw [hlow _ _ l1 dl ρ b, hlow _ _ l2 dr ρ b, hm, set1_ne _ _ hne]

/-- Sons do not look at the variable of their parent. -/
theorem MInv.sons_noDep (h : MInv x y s) {i : Nat} {n : Node} (e : s.tbl i = some n) {gl gr : BFun}
    (dl : Den s.tbl n.lson gl) (dr : Den s.tbl n.rson.idx gr) : NoDep gl n.var ∧ NoDep gr n.var := by
  by_cases hx : n.var = x
  · obtain ⟨a, b⟩ := h.sonX _ _ e hx
    rw [hx]
    exact ⟨h.son_noDep (Or.inr ⟨rfl, rfl⟩) a dl, h.son_noDep (Or.inr ⟨rfl, rfl⟩) b dr⟩
  · by_cases hy : n.var = y
    · obtain ⟨a, b⟩ := h.sonY _ _ e hy
      rw [hy]
      exact ⟨h.son_noDep (Or.inl ⟨rfl, rfl⟩) a dl, h.son_noDep (Or.inl ⟨rfl, rfl⟩) b dr⟩
    · obtain ⟨a, b⟩ := h.other _ _ e hx hy
      have hv := h.var_lt _ _ e
      exact ⟨(h.onlyFrom dl).noDep (h.mlev_below hv hx hy a),
        (h.onlyFrom dr).noDep (h.mlev_below hv hx hy b)⟩

/-- Canonicity for handles. -/
theorem MInv.canonF (h : MInv x y s) {f f' : F} {g : BFun} (d : Denotes s f g) (d' : Denotes s f' g) :
    f = f' := by
  have hn : f.neg = f'.neg := by rw [d.neg_eq, d'.neg_eq]
  obtain ⟨a, ha, rfl⟩ := d
  obtain ⟨b, hb, e⟩ := d'
  have : a = b := by
    funext ρ
    have := congrFun e ρ
    simp only [hn] at this
    cases hf : f'.neg <;> simp_all
  subst this
  exact F.ext' hn (h.canon _ _ _ ha hb)

/-- Every node depends on its variable. -/
theorem MInv.dep_var (h : MInv x y s) {i : Nat} {n : Node} (e : s.tbl i = some n) {g : BFun}
    (d : Den s.tbl i g) : ¬ NoDep g n.var := by
  intro hc
  cases d with
  | zero => exact h.ne0 e rfl
  | @node _ _ gl gr h0 e' dl dr =>
    rw [e] at e'; cases e'
    obtain ⟨nl, nr⟩ := h.sons_noDep e dl dr
    refine h.reduced _ _ e (h.canonF (g := gl) (denotes_pos.2 dl) ?_)
    refine ⟨gr, dr, ?_⟩
    funext ρ
    have h1 := hc ρ true
    have h2 := hc ρ false
    simp only [set1_same, if_true, Bool.false_eq_true, if_false, nl ρ, nr ρ] at h1 h2
    exact h1.trans h2.symm

/-- Sons of a node that does not look at `v` do not look at `v`. -/
theorem MInv.noDep_sons (h : MInv x y s) {i : Nat} {n : Node} (e : s.tbl i = some n) {g : BFun}
    (d : Den s.tbl i g) {v : Nat} (hg : NoDep g v) : n.var ≠ v ∧ ∃ gl gr, Den s.tbl n.lson gl ∧
      Den s.tbl n.rson.idx gr ∧ NoDep gl v ∧ NoDep gr v := by
  have hne : n.var ≠ v := by rintro rfl; exact h.dep_var e d hg
  refine ⟨hne, ?_⟩
  cases d with
  | zero => exact absurd rfl (h.ne0 e)
  | @node _ _ gl gr h0 e' dl dr =>
    rw [e] at e'; cases e'
    obtain ⟨nl, nr⟩ := h.sons_noDep e dl dr
    refine ⟨gl, gr, dl, dr, ?_, ?_⟩
    · intro ρ b
      have h1 := hg (set1 ρ n.var true) b
      rw [set1_comm _ hne] at h1
      simp only [set1_same, if_true, nl (set1 ρ v b), nl ρ] at h1
      exact h1
    · intro ρ b
      have h1 := hg (set1 ρ n.var false) b
      rw [set1_comm _ hne] at h1
      simp only [set1_same, Bool.false_eq_true, if_false, nr (set1 ρ v b), nr ρ] at h1
      cases hneg : n.rson.neg <;> simp_all

/-- A node not depending on `x` has sons strictly later in the order, not depending on `x`. -/
theorem MInv.lev_sons (h : MInv x y s) {i : Nat} {n : Node} (e : s.tbl i = some n) {g : BFun}
    (d : Den s.tbl i g) (hg : NoDep g x) : s.ord n.var < lev s n.lson ∧ s.ord n.var < lev s n.rson.idx := by
  obtain ⟨hne, gl, gr, dl, dr, hl, hr⟩ := h.noDep_sons e d hg
  have lowlev : ∀ j, Low s y j → s.ord y < lev s j := by
    intro j hj
    rcases hj with rfl | ⟨m, e, hm⟩
    · simp only [lev, h.T.tbl0]; exact h.ord_lt _ h.ylt
    · rw [lev_some e]; exact hm
  by_cases hy : n.var = y
  · obtain ⟨a, b⟩ := h.sonY _ _ e hy
    rw [hy]
    have aux : ∀ j gj, Den s.tbl j gj → NoDep gj x → Son s y x j → s.ord y < lev s j := by
      intro j gj dj hj hs
      rcases hs with hs | ⟨m, em, hm, _⟩
      · exact lowlev _ hs
      · exact absurd hm (h.noDep_sons em dj hj).1
    exact ⟨aux _ _ dl hl a, aux _ _ dr hr b⟩
  · obtain ⟨a, b⟩ := h.other _ _ e hne hy
    have aux : ∀ j, Below s n.var j → s.ord n.var < lev s j := by
      intro j hj
      rcases hj with rfl | ⟨m, em, hm⟩
      · simp only [lev, h.T.tbl0]; exact h.ord_lt _ (h.var_lt _ _ e)
      · rw [lev_some em]; exact hm
    exact ⟨aux _ a, aux _ b⟩

/-! ### From and to the plain invariant -/

theorem low_of_below {v j : Nat} (h : Below s v j) : Low s v j := h

theorem SInv.toM (hs : SInv s) (hx : x < s.nvars) (hy : y < s.nvars) (hxy : s.ord y = s.ord x + 1) :
    MInv x y s := by
  have hson : ∀ j, Below s x j → Son s y y j := by
    intro j hj
    rcases hj with h | ⟨m, e, h⟩
    · exact Or.inl (Or.inl h)
    · by_cases hm : m.var = y
      · right
        exact ⟨m, e, hm, hm ▸ hs.below_l _ _ e, hm ▸ hs.below_r _ _ e⟩
      · left; right
        refine ⟨m, e, ?_⟩
        have : s.ord m.var ≠ s.ord y := fun h' => hm (hs.ord_inj _ _ (hs.var_lt _ _ e) hy h')
        omega
  refine ⟨hs.toT, hs.var_lt, hs.reduced, hs.ord_inj, hs.ord_lt, hx, hy, hxy, ?_, ?_, ?_, ?_, ?_⟩
  · intro i n e
    exact den_exists hs _ i le_rfl (Or.inr ⟨n, e⟩)
  · intro i j g hi hj
    have := canon hs (denotes_pos.2 hi) (denotes_pos.2 hj)
    exact congrArg F.idx this
  · intro i n e hn
    exact ⟨hson _ (hn ▸ hs.below_l _ _ e), hson _ (hn ▸ hs.below_r _ _ e)⟩
  · intro i n e hn
    exact ⟨Or.inl (hn ▸ hs.below_l _ _ e), Or.inl (hn ▸ hs.below_r _ _ e)⟩
  · intro i n e _ _
    exact ⟨hs.below_l _ _ e, hs.below_r _ _ e⟩

/-- The order after the swap. -/
def swapOrd (x y : Nat) (s : S) : S := { s with ord := upd (upd s.ord x (s.ord y)) y (s.ord x) }

theorem MInv.toS (h : MInv x y s)
    (hdone : ∀ i n, s.tbl i = some n → n.var = x → Low s y n.lson ∧ Low s y n.rson.idx) :
    SInv (swapOrd x y s) := by
  have hne := h.ne
  have ox : (swapOrd x y s).ord x = s.ord y := by
    simp only [swapOrd]; rw [upd_ne _ _ hne, upd_same]
  have oy : (swapOrd x y s).ord y = s.ord x := by simp only [swapOrd]; rw [upd_same]
  have oo : ∀ v, v ≠ x → v ≠ y → (swapOrd x y s).ord v = s.ord v := by
    intro v h1 h2; simp only [swapOrd]; rw [upd_ne _ _ h2, upd_ne _ _ h1]
  have hxy := h.xy
  have hlow : ∀ v j, (v = x ∨ v = y) → Low s y j → Below (swapOrd x y s) v j := by
    intro v j hv hj
    rcases hj with h0 | ⟨m, e, hm⟩
    · exact Or.inl h0
    · obtain ⟨a, b⟩ := h.low_var hm
      refine Or.inr ⟨m, e, ?_⟩
      rw [oo _ a b]
      rcases hv with rfl | rfl
      · rw [ox]; exact hm
      · rw [oy]; omega
  have hb : ∀ v j, v < s.nvars → v ≠ x → v ≠ y → Below s v j → Below (swapOrd x y s) v j := by
    intro v j hv hx hy hj
    rcases hj with h0 | ⟨m, e, hm⟩
    · exact Or.inl h0
    · refine Or.inr ⟨m, e, ?_⟩
      rw [oo v hx hy]
      have h1 : s.ord v ≠ s.ord x := fun e => hx (h.ord_inj _ _ hv h.xlt e)
      by_cases hmx : m.var = x
      · rw [hmx, ox]; rw [hmx] at hm; omega
      · by_cases hmy : m.var = y
        · rw [hmy, oy]; rw [hmy] at hm; omega
        · rw [oo _ hmx hmy]; exact hm
  have hall : ∀ i n, s.tbl i = some n → Below (swapOrd x y s) n.var n.lson ∧
      Below (swapOrd x y s) n.var n.rson.idx := by
    intro i n e
    by_cases hx : n.var = x
    · obtain ⟨a, b⟩ := hdone i n e hx
      exact ⟨hlow _ _ (Or.inl hx) a, hlow _ _ (Or.inl hx) b⟩
    · by_cases hy : n.var = y
      · obtain ⟨a, b⟩ := h.sonY i n e hy
        have aux : ∀ j, Son s y x j → Below (swapOrd x y s) n.var j := by
          intro j hj
          rcases hj with hj | ⟨m, em, hm, _⟩
          · exact hlow _ _ (Or.inr hy) hj
          · refine Or.inr ⟨m, em, ?_⟩
            rw [hy, hm, ox, oy]; omega
        exact ⟨aux _ a, aux _ b⟩
      · obtain ⟨a, b⟩ := h.other i n e hx hy
        exact ⟨hb _ _ (h.var_lt _ _ e) hx hy a, hb _ _ (h.var_lt _ _ e) hx hy b⟩
  refine ⟨h.T.tbl0, h.T.live_iff, h.T.live_nodup, h.T.live_lt, h.T.free_ok, h.T.free_nodup,
    h.T.size_pos, h.T.uniq, h.var_lt, fun i n e => (hall i n e).1, fun i n e => (hall i n e).2,
    h.reduced, ?_, ?_⟩
  · intro v w hv hw e
    have hxl := h.xlt
    have hyl := h.ylt
    have hinj := h.ord_inj
    have cas : ∀ u, u < s.nvars → (u = x ∧ (swapOrd x y s).ord u = s.ord y) ∨
        (u = y ∧ (swapOrd x y s).ord u = s.ord x) ∨
        (u ≠ x ∧ u ≠ y ∧ (swapOrd x y s).ord u = s.ord u) := by
      intro u _
      by_cases h1 : u = x
      · subst h1; exact Or.inl ⟨rfl, ox⟩
      · by_cases h2 : u = y
        · subst h2; exact Or.inr (Or.inl ⟨rfl, oy⟩)
        · exact Or.inr (Or.inr ⟨h1, h2, oo u h1 h2⟩)
    have hv' : v < s.nvars := hv
    have hw' : w < s.nvars := hw
    rcases cas v hv' with ⟨a, a'⟩ | ⟨a, a'⟩ | ⟨a1, a2, a'⟩ <;>
      rcases cas w hw' with ⟨b, b'⟩ | ⟨b, b'⟩ | ⟨b1, b2, b'⟩ <;> rw [a', b'] at e
    · rw [a, b]
    · exact absurd (hinj _ _ hyl hxl e) hne.symm
    · exact absurd (hinj _ _ hyl hw' e).symm b2
    · exact absurd (hinj _ _ hxl hyl e) hne
    · rw [a, b]
    · exact absurd (hinj _ _ hxl hw' e).symm b1
    · exact absurd (hinj _ _ hv' hyl e) a2
    · exact absurd (hinj _ _ hv' hxl e) a1
    · exact hinj _ _ hv' hw' e
  · intro v hv
    have hv' : v < s.nvars := hv
    show (swapOrd x y s).ord v < s.nvars
    by_cases h1 : v = x
    · subst h1; rw [ox]; exact h.ord_lt _ h.ylt
    · by_cases h2 : v = y
      · subst h2; rw [oy]; exact h.ord_lt _ h.xlt
      · rw [oo v h1 h2]; exact h.ord_lt _ hv'

end Voss.Bdd
