import Verif.Bexpr.Spec
/- Denotations, the invariant, creation of nodes, merging and the connectives. -/
namespace Voss.Bexpr

theorem den_det {s : St} {i : Nat} {f g : Fn} (hf : Den s i f) (hg : Den s i g) : f = g := by
  induction hf generalizing g with
  | one h => cases hg with
    | one _ => rfl
    | var h' => rw [h] at h'; cases h'
    | and h' _ _ => rw [h] at h'; cases h'
  | var h => cases hg with
    | one h' => rw [h] at h'; cases h'
    | var h' => rw [h] at h'; cases h'; rfl
    | and h' _ _ => rw [h] at h'; cases h'
  | and h _ _ ih1 ih2 => cases hg with
    | one h' => rw [h] at h'; cases h'
    | var h' => rw [h] at h'; cases h'
    | and h' a b => rw [h] at h'; cases h'; rw [ih1 a, ih2 b]

theorem den_live {s : St} {i : Nat} {f : Fn} (hf : Den s i f) : s.live i := by
  unfold St.live
  cases hf with
  | one h => rw [h]; simp
  | var h => rw [h]; simp
  | and h _ _ => rw [h]; simp

theorem den_mono {s s' : St} (h : ∀ i, s.live i → (s'.nd i).node = (s.nd i).node) {i : Nat} {f : Fn}
    (hf : Den s i f) : Den s' i f := by
  induction hf with
  | one h1 => exact .one (by rw [h _ (by unfold St.live; rw [h1]; simp), h1])
  | var h1 => exact .var (by rw [h _ (by unfold St.live; rw [h1]; simp), h1])
  | and h1 _ _ ih1 ih2 => exact .and (by rw [h _ (by unfold St.live; rw [h1]; simp), h1]) ih1 ih2

theorem den_congr {s s' : St} (h : ∀ i, s'.nd i = s.nd i) {i : Nat} {f : Fn} :
    Den s' i f ↔ Den s i f :=
  ⟨den_mono fun i _ => by rw [h], den_mono fun i _ => by rw [h]⟩

theorem den_exists {s : St} (h : Inv s) : ∀ n i, (s.nd i).sat ≤ n → s.live i → ∃ f, Den s i f := by
  intro n
  induction n with
  | zero =>
    intro i hn hl
    cases hd : (s.nd i).node with
    | free => exact absurd hd hl
    | one => exact ⟨_, .one hd⟩
    | var n => exact ⟨_, .var hd⟩
    | and l r => have := (h.kids i l r hd).1.2.2; omega
  | succ n ih =>
    intro i hn hl
    cases hd : (s.nd i).node with
    | free => exact absurd hd hl
    | one => exact ⟨_, .one hd⟩
    | var n => exact ⟨_, .var hd⟩
    | and l r =>
      obtain ⟨⟨hl1, _, hl2⟩, hr1, _, hr2⟩ := h.kids i l r hd
      obtain ⟨f, hf⟩ := ih l.idx (by omega) hl1
      obtain ⟨g, hg⟩ := ih r.idx (by omega) hr1
      exact ⟨_, .and hd hf hg⟩

theorem Inv.den {s : St} (h : Inv s) {i : Nat} (hl : s.live i) : ∃ f, Den s i f :=
  den_exists h _ i (Nat.le_refl _) hl

theorem means_det {s : St} {e : Edge} {f g : Fn} (hf : Means s e f) (hg : Means s e g) : f = g := by
  obtain ⟨a, ha, rfl⟩ := hf
  obtain ⟨b, hb, rfl⟩ := hg
  rw [den_det ha hb]

theorem means_live {s : St} {e : Edge} {f : Fn} (hf : Means s e f) : s.live e.idx := by
  obtain ⟨a, ha, _⟩ := hf; exact den_live ha

theorem Grow.refl (s : St) : Grow s s := ⟨fun _ _ => rfl, fun _ _ _ => rfl⟩

theorem Grow.live {s s' : St} (h : Grow s s') {i : Nat} (hl : s.live i) : s'.live i := by
  unfold St.live; rw [h.1 i hl]; exact hl

theorem Grow.trans {a b c : St} (h : Grow a b) (h' : Grow b c) : Grow a c := by
  refine ⟨fun i hl => ?_, fun i x hx => ?_⟩
  · rw [h'.1 i (h.live hl), h.1 i hl]
  · have h1 := h'.2 i x hx
    rw [h1] at hx
    rw [h1, h.2 i x hx]

theorem Grow.den {s s' : St} (h : Grow s s') {i : Nat} {f : Fn} (hf : Den s i f) : Den s' i f :=
  den_mono (fun i hl => by rw [h.1 i hl]) hf

theorem Grow.means {s s' : St} (h : Grow s s') {e : Edge} {f : Fn} (hf : Means s e f) : Means s' e f := by
  obtain ⟨g, hg, hf⟩ := hf; exact ⟨g, h.den hg, hf⟩

theorem means_not {s : St} {e : Edge} {f : Fn} (hf : Means s e f) : Means s e.not (fun ρ => !f ρ) := by
  obtain ⟨g, hg, rfl⟩ := hf
  refine ⟨g, hg, ?_⟩
  funext ρ; simp only [Edge.not]; cases g ρ <;> cases e.neg <;> rfl

theorem means_xorNeg {s : St} {e : Edge} {f : Fn} {n : Bool} (hf : Means s e f) :
    Means s (e.xorNeg n) (fun ρ => f ρ ^^ n) := by
  cases n
  · simpa [Edge.xorNeg] using hf
  · simpa [Edge.xorNeg] using means_not hf

theorem means_one {s : St} (h : Inv s) : Means s bT (fun _ => true) :=
  ⟨_, .one h.root.1, by simp [bT]⟩

theorem means_zero {s : St} (h : Inv s) : Means s bF (fun _ => false) :=
  ⟨_, .one h.root.1, by simp [bF]⟩

theorem means_true {s : St} (h : Inv s) {f : Fn} (hf : Means s bT f) (ρ : Env) : f ρ = true := by
  rw [means_det hf (means_one h)]

theorem means_false {s : St} (h : Inv s) {f : Fn} (hf : Means s bF f) (ρ : Env) : f ρ = false := by
  rw [means_det hf (means_zero h)]

/-- An edge to the constant is one of the two constants. -/
theorem edge_const {e : Edge} (h : e.idx = 0) : e = bT ∨ e = bF := by
  obtain ⟨n, i⟩ := e
  subst h
  cases n
  · exact .inl rfl
  · exact .inr rfl

theorem inv_init : Inv St.init := by
  have hnd : ∀ i, (St.init.nd i) = if i = 0 then ⟨.one, 0, 0, BitVec.allOnes 64, none⟩ else emptyRec := by
    intro i
    unfold St.nd St.init
    cases i <;> simp
  have hlive : ∀ i, St.init.live i ↔ i = 0 := by
    intro i
    unfold St.live
    rw [hnd]
    by_cases h : i = 0 <;> simp [h, emptyRec]
  have hno : ∀ i l r, (St.init.nd i).node ≠ .and l r := by
    intro i l r
    rw [hnd]
    by_cases h : i = 0 <;> simp [h, emptyRec]
  refine ⟨by rw [hnd]; simp, ?_, ?_, by simp [St.init], ?_, fun i l r h => absurd h (hno i l r), ?_,
    by simp [St.init], fun i hi => by rw [hnd, if_neg (fun h => hi ((hlive i).2 h))], by simp [St.init],
    by simp [St.init], fun i l r h => absurd h (hno i l r), ?_⟩
  · intro i h
    rw [hnd] at h
    by_cases h0 : i = 0
    · exact h0
    · simp [h0, emptyRec] at h
  · intro i; rw [hlive]; simp only [St.init, List.not_mem_nil, false_iff]; omega
  · intro i j hi h
    have hi' := (hlive i).1 hi
    subst hi'
    rw [hnd, hnd] at h
    by_cases h0 : j = 0
    · exact h0.symm
    · simp [h0, emptyRec] at h
  · intro i hl h0; exact absurd ((hlive i).1 hl) h0
  · intro ρ
    refine ⟨fun _ => true, ⟨by simp [St.init], by simp⟩, ?_⟩
    intro i f hf h0
    exact absurd ((hlive i).1 (den_live hf)) h0

/-- The invariant does not mention the number of queries. -/
theorem Inv.queries {s : St} (h : Inv s) (q : Nat) : Inv { s with queries := q } := by
  have hd : ∀ i f, Den { s with queries := q } i f ↔ Den s i f := fun i f =>
    den_congr (s := s) (s' := { s with queries := q }) fun _ => rfl
  refine ⟨h.root, h.oneOnly, h.uniq, h.nodup, h.inj, h.kids, h.satRange, h.freeOk, h.empty, h.chains, h.cls, h.andCls,
    fun ρ => ?_⟩
  obtain ⟨σ, h1, h2⟩ := h.ext ρ
  exact ⟨σ, h1, fun i f hf h0 => h2 i f ((hd i f).1 hf) h0⟩

/-! ### Allocation -/

theorem nd_alloc {s : St} (h : Inv s) (r : Rec) (j : Nat) :
    (allocNode s r).1.nd j = if j = (allocNode s r).2 then r else s.nd j := by
  unfold allocNode
  cases hf : s.freeL with
  | cons i rest =>
    have hi := (h.freeOk.2 i (by rw [hf]; simp)).1
    simp only [St.nd]
    by_cases hj : j = i
    · subst hj; simp [hi]
    · simp [hj, List.getElem?_set, Ne.symm hj]
  | nil =>
    simp only [St.nd]
    by_cases hj : j = s.heap.length
    · subst hj; simp
    · rw [if_neg hj]
      by_cases hlt : j < s.heap.length
      · rw [List.getElem?_append_left hlt]
      · rw [List.getElem?_eq_none (by simp; omega), List.getElem?_eq_none (by omega)]

theorem nd_big {s : St} {j : Nat} (h : s.heap.length ≤ j) : s.nd j = emptyRec := by
  unfold St.nd; rw [List.getElem?_eq_none h]; rfl

theorem live_lt {s : St} {j : Nat} (h : s.live j) : j < s.heap.length := by
  by_cases hlt : j < s.heap.length
  · exact hlt
  · exact absurd (by rw [nd_big (by omega)]; rfl) h

theorem alloc_dead {s : St} (h : Inv s) (r : Rec) : ¬ s.live (allocNode s r).2 := by
  unfold allocNode
  cases hf : s.freeL with
  | cons i rest => exact (h.freeOk.2 i (by rw [hf]; simp)).2
  | nil => unfold St.live; rw [nd_big (Nat.le_refl _)]; simp [emptyRec]

theorem alloc_fields (s : St) (r : Rec) :
    (allocNode s r).1.uniq = s.uniq ∧ (allocNode s r).1.sigs = s.sigs ∧ (allocNode s r).1.nvars = s.nvars ∧
      (allocNode s r).1.clauses = s.clauses ∧ (allocNode s r).1.queries = s.queries := by
  unfold allocNode
  cases s.freeL <;> simp

theorem alloc_free {s : St} (h : Inv s) (r : Rec) :
    (allocNode s r).1.freeL.Nodup ∧
      ∀ i ∈ (allocNode s r).1.freeL, i < (allocNode s r).1.heap.length ∧ ¬ s.live i ∧ i ≠ (allocNode s r).2 := by
  unfold allocNode
  cases hf : s.freeL with
  | cons i rest =>
    have hn := h.freeOk.1
    rw [hf] at hn
    have hn' := List.nodup_cons.1 hn
    refine ⟨hn'.2, fun j hj => ?_⟩
    have hj' := h.freeOk.2 j (by rw [hf]; exact List.mem_cons_of_mem _ hj)
    refine ⟨by simpa using hj'.1, hj'.2, ?_⟩
    intro he; subst he; exact hn'.1 hj
  | nil =>
    refine ⟨by simp [hf], fun j hj => ?_⟩
    simp [hf] at hj

/-- The clauses of an and-gate say what they should. -/
theorem andClauses_iff {cs : List Clause} {g : Nat} {l r : SLit} (h : AndClauses cs g l r) {σ : Nat → Bool}
    (hs : Sat σ cs []) : σ g = (l.holds σ && r.holds σ) := by
  obtain ⟨h1, h2, h3⟩ := h
  have e1 := hs.1 _ h1
  have e2 := hs.1 _ h2
  have e3 := hs.1 _ h3
  simp only [Clause.holds, List.mem_cons, List.not_mem_nil, or_false, exists_eq_or_imp, exists_eq_left,
    SLit.holds, SLit.not] at e1 e2 e3 ⊢
  revert e1 e2 e3
  cases σ g <;> cases σ l.var <;> cases σ r.var <;> cases l.neg <;> cases r.neg <;> simp

theorem holds_lit {s : St} {σ : Nat → Bool} {e : Edge} :
    (s.lit e).holds σ = (σ (s.nd e.idx).sat ^^ e.neg) := rfl

/-- Under the assignment of the invariant every expression that is not constant has its value. -/
theorem lit_value {s : St} {σ : Nat → Bool} {ρ : Env}
    (h : ∀ i f, Den s i f → i ≠ 0 → σ (s.nd i).sat = f ρ) {e : Edge} {f : Fn} (hf : Means s e f)
    (h0 : e.idx ≠ 0) : (s.lit e).holds σ = f ρ := by
  obtain ⟨g, hg, rfl⟩ := hf
  rw [holds_lit, h _ _ hg h0]

theorem holds_agree {σ σ' : Nat → Bool} {n : Nat} (h : ∀ v, v ≤ n → σ' v = σ v) {a : SLit} (ha : a.var ≤ n) :
    a.holds σ' = a.holds σ := by
  unfold SLit.holds; rw [h _ ha]

theorem sat_agree {σ σ' : Nat → Bool} {n : Nat} (h : ∀ v, v ≤ n → σ' v = σ v) {cs : List Clause}
    (hc : ∀ c ∈ cs, ∀ a ∈ c, a.var ≤ n) (hs : Sat σ cs []) : Sat σ' cs [] := by
  refine ⟨fun c hcm => ?_, by simp⟩
  obtain ⟨a, ha, hv⟩ := hs.1 c hcm
  exact ⟨a, ha, by rw [holds_agree h (hc c hcm a ha)]; exact hv⟩

/-! ### Variables -/

theorem findUniq_some {s : St} {n : Node} {i : Nat} (h : findUniq s n = some i) :
    i ∈ s.uniq ∧ (s.nd i).node = n := by
  unfold findUniq at h
  have h1 := List.find?_some h
  exact ⟨List.mem_of_find?_eq_some h, by simpa using h1⟩

theorem findUniq_none {s : St} (hi : Inv s) {n : Node} (hn : n ≠ .free) (hone : n ≠ .one)
    (h : findUniq s n = none) (i : Nat) : (s.nd i).node ≠ n := by
  intro he
  unfold findUniq at h
  have h1 := List.find?_eq_none.1 h i
  have hl : s.live i := by unfold St.live; rw [he]; exact hn
  have h0 : i ≠ 0 := by
    intro h0; subst h0; rw [hi.root.1] at he; exact hone he.symm
  have := h1 ((hi.uniq i).2 ⟨hl, h0⟩)
  simp [he] at this

/-- A denotation in a state with one more node is a denotation before, unless it is the new node. -/
theorem den_back {s s' : St} {k : Nat} (hk : ¬ s.live k) (h : ∀ j, j ≠ k → s'.nd j = s.nd j) (hi : Inv s)
    {i : Nat} {f : Fn} (hf : Den s' i f) : i ≠ k → Den s i f := by
  induction hf with
  | one h1 => intro hne; exact .one (by rw [← h _ hne]; exact h1)
  | var h1 => intro hne; exact .var (by rw [← h _ hne]; exact h1)
  | and h1 _ _ ih1 ih2 =>
    intro hne
    rw [h _ hne] at h1
    have hk' := hi.kids _ _ _ h1
    refine .and h1 (ih1 ?_) (ih2 ?_)
    · intro he; rw [he] at hk'; exact hk hk'.1.1
    · intro he; rw [he] at hk'; exact hk hk'.2.1

/-- What remains of the invariant when a new node is put at a dead address. -/
theorem inv_new {s s' : St} (h : Inv s) {k : Nat} {r : Rec} (hk : ¬ s.live k)
    (hnd : ∀ j, s'.nd j = if j = k then r else s.nd j) (hnf : r.node ≠ .free) (hno : r.node ≠ .one)
    (hbdd : r.bdd = none)
    (huniq : s'.uniq = k :: s.uniq) (hnew : ∀ j, (s.nd j).node ≠ r.node)
    (hfree : s'.freeL.Nodup ∧ ∀ i ∈ s'.freeL, i < s'.heap.length ∧ ¬ s.live i ∧ i ≠ k)
    (hnv : s.nvars < r.sat ∧ r.sat = s'.nvars)
    (hkids : ∀ a b, r.node = .and a b → (s.live a.idx ∧ a.idx ≠ 0) ∧ (s.live b.idx ∧ b.idx ≠ 0) ∧
      AndClauses s'.clauses r.sat (s.lit a) (s.lit b))
    (hch : ∀ ch ∈ s'.sigs, ∀ x ∈ ch, s'.live x ∧ ∀ y ∈ ch, (s'.nd y).sig = (s'.nd x).sig)
    (hcls : ∀ c ∈ s'.clauses, ∀ a ∈ c, a.var ≤ s'.nvars)
    (hsub : ∀ c ∈ s.clauses, c ∈ s'.clauses)
    (hext : ∀ ρ σ, Sat σ s.clauses [] → (∀ i f, Den s i f → i ≠ 0 → σ (s.nd i).sat = f ρ) →
      ∃ σ', Sat σ' s'.clauses [] ∧ (∀ v, v ≤ s.nvars → σ' v = σ v) ∧
        ∀ f, Den s' k f → σ' r.sat = f ρ) :
    Inv s' ∧ Grow s s' := by
  have hkk : s'.nd k = r := by rw [hnd]; simp
  have hkne : ∀ j, j ≠ k → s'.nd j = s.nd j := fun j hj => by rw [hnd]; simp [hj]
  have hlk : ∀ j, s.live j → j ≠ k := fun j hj he => hk (he ▸ hj)
  have hlive' : ∀ j, s'.live j ↔ s.live j ∨ j = k := by
    intro j
    by_cases hj : j = k
    · subst hj
      simp only [or_true, iff_true]
      unfold St.live; rw [hkk]; exact hnf
    · unfold St.live; rw [hkne j hj]; simp [hj]
  have h0k : (0 : Nat) ≠ k := hlk 0 (by unfold St.live; rw [h.root.1]; simp)
  have hgrow : Grow s s' := by
    refine ⟨fun i hl => hkne i (hlk i hl), fun i b hb => ?_⟩
    by_cases hi : i = k
    · subst hi; rw [hkk, hbdd] at hb; cases hb
    · exact hkne i hi
  have hlit : ∀ e : Edge, s.live e.idx → s'.lit e = s.lit e := by
    intro e hl; unfold St.lit; rw [hkne _ (hlk _ hl)]
  refine ⟨⟨by rw [hkne 0 h0k]; exact h.root, ?_, ?_, ?_, ?_, ?_, ?_, ?_, ?_, hch, hcls, ?_, ?_⟩, hgrow⟩
  · intro i hi
    by_cases hik : i = k
    · subst hik; rw [hkk] at hi; exact absurd hi hno
    · rw [hkne i hik] at hi; exact h.oneOnly i hi
  · intro i
    rw [huniq, hlive', List.mem_cons, h.uniq]
    constructor
    · rintro (rfl | ⟨h1, h2⟩)
      · exact ⟨.inr rfl, fun h => h0k h.symm⟩
      · exact ⟨.inl h1, h2⟩
    · rintro ⟨h1 | h1, h2⟩
      · exact .inr ⟨h1, h2⟩
      · exact .inl h1
  · rw [huniq]
    refine List.nodup_cons.2 ⟨fun hm => hk ((h.uniq k).1 hm).1, h.nodup⟩
  · intro i j hl he
    by_cases hi : i = k <;> by_cases hj : j = k
    · rw [hi, hj]
    · rw [hi, hkk, hkne j hj] at he
      exact absurd he.symm (hnew j)
    · rw [hj, hkk, hkne i hi] at he
      exact absurd he (hnew i)
    · rw [hkne i hi, hkne j hj] at he
      rcases (hlive' i).1 hl with h1 | h1
      · exact h.inj i j h1 he
      · exact absurd h1 hi
  · intro i l r' he
    by_cases hi : i = k
    · subst hi
      rw [hkk] at he
      obtain ⟨⟨a1, a2⟩, ⟨b1, b2⟩, _⟩ := hkids l r' he
      have sa := (h.satRange _ a1 a2).2
      have sb := (h.satRange _ b1 b2).2
      rw [hkk, hkne _ (hlk _ a1), hkne _ (hlk _ b1)]
      exact ⟨⟨(hlive' _).2 (.inl a1), a2, by omega⟩, (hlive' _).2 (.inl b1), b2, by omega⟩
    · rw [hkne i hi] at he
      obtain ⟨⟨a1, a2, a3⟩, b1, b2, b3⟩ := h.kids i l r' he
      rw [hkne i hi, hkne _ (hlk _ a1), hkne _ (hlk _ b1)]
      exact ⟨⟨(hlive' _).2 (.inl a1), a2, a3⟩, (hlive' _).2 (.inl b1), b2, b3⟩
  · intro i hl h0
    by_cases hi : i = k
    · subst hi; rw [hkk]; omega
    · rw [hkne i hi]
      rcases (hlive' i).1 hl with h1 | h1
      · have := h.satRange i h1 h0; omega
      · exact absurd h1 hi
  · refine ⟨hfree.1, fun i hi => ?_⟩
    obtain ⟨h1, h2, h3⟩ := hfree.2 i hi
    refine ⟨h1, fun h => ?_⟩
    rcases (hlive' i).1 h with h4 | h4
    · exact h2 h4
    · exact h3 h4
  · intro i hi
    have hik : i ≠ k := fun he => hi ((hlive' i).2 (.inr he))
    rw [hkne i hik]
    exact h.empty i fun hl => hi ((hlive' i).2 (.inl hl))
  · intro i l r' he
    by_cases hi : i = k
    · subst hi
      rw [hkk] at he
      obtain ⟨⟨a1, a2⟩, ⟨b1, b2⟩, hc⟩ := hkids l r' he
      rw [hkk, hlit l a1, hlit r' b1]
      exact hc
    · rw [hkne i hi] at he
      obtain ⟨⟨a1, a2, a3⟩, b1, b2, b3⟩ := h.kids i l r' he
      obtain ⟨c1, c2, c3⟩ := h.andCls i l r' he
      rw [hkne i hi, hlit l a1, hlit r' b1]
      exact ⟨hsub _ c1, hsub _ c2, hsub _ c3⟩
  · intro ρ
    obtain ⟨σ, s1, s2⟩ := h.ext ρ
    obtain ⟨σ', t1, t2, t3⟩ := hext ρ σ s1 s2
    refine ⟨σ', t1, fun i f hf h0 => ?_⟩
    by_cases hi : i = k
    · subst hi; rw [hkk]; exact t3 f hf
    · have hf' := den_back hk hkne h hf hi
      rw [hkne i hi, t2 _ (h.satRange i (den_live hf') h0).2]
      exact s2 i f hf' h0

theorem sigs_keep {s s' : St} (h : Inv s) (hg : ∀ i, s.live i → s'.nd i = s.nd i) :
    ∀ ch ∈ s.sigs, ∀ x ∈ ch, s'.live x ∧ ∀ y ∈ ch, (s'.nd y).sig = (s'.nd x).sig := by
  intro ch hch x hx
  have h1 := h.chains ch hch x hx
  refine ⟨by unfold St.live; rw [hg x h1.1]; exact h1.1, fun y hy => ?_⟩
  have h2 := h.chains ch hch y hy
  rw [hg x h1.1, hg y h2.1]
  exact h1.2 y hy

theorem beVar_spec {s : St} (h : Inv s) (n : Name) :
    Inv (beVar s n).1 ∧ Grow s (beVar s n).1 ∧ Means (beVar s n).1 (beVar s n).2 (fun ρ => ρ n) := by
  unfold beVar
  cases hf : findUniq s (.var n) with
  | some i =>
    refine ⟨h, Grow.refl s, _, .var (findUniq_some hf).2, by simp⟩
  | none =>
    simp only [satAddVar]
    obtain ⟨s1, hs1⟩ : ∃ s1 : St, s1 = { s with nvars := s.nvars + 1 } := ⟨_, rfl⟩
    obtain ⟨r, hr⟩ : ∃ r : Rec, r = ⟨.var n, 1, s.nvars + 1, varSig n, none⟩ := ⟨_, rfl⟩
    rw [← hs1, ← hr]
    -- allocation looks only at the heap and the free list
    have hheap : s1.heap = s.heap ∧ s1.freeL = s.freeL ∧ s1.uniq = s.uniq ∧ s1.sigs = s.sigs ∧
        s1.clauses = s.clauses := by subst hs1; exact ⟨rfl, rfl, rfl, rfl, rfl⟩
    have hal : (allocNode s1 r).2 = (allocNode s r).2 ∧ (allocNode s1 r).1.heap = (allocNode s r).1.heap ∧
        (allocNode s1 r).1.freeL = (allocNode s r).1.freeL := by
      unfold allocNode; rw [hheap.1, hheap.2.1]
      cases s.freeL <;> exact ⟨rfl, rfl, rfl⟩
    obtain ⟨k, hk⟩ : ∃ k, k = (allocNode s r).2 := ⟨_, rfl⟩
    obtain ⟨s', hs'⟩ : ∃ s' : St, s' = { (allocNode s1 r).1 with uniq := (allocNode s1 r).2 :: (allocNode s1 r).1.uniq } :=
      ⟨_, rfl⟩
    rw [← hs', hal.1, ← hk]
    have hnd : ∀ j, s'.nd j = if j = k then r else s.nd j := by
      intro j
      have : s'.nd j = (allocNode s r).1.nd j := by
        subst hs'; unfold St.nd; simp only [hal.2.1]
      rw [this, nd_alloc h r j, hk]
    have hfl := alloc_fields s1 r
    have hdead : ¬ s.live k := by rw [hk]; exact alloc_dead h r
    have hnv : s'.nvars = s.nvars + 1 := by subst hs'; simp only [hfl.2.2.1]; subst hs1; rfl
    have hcl : s'.clauses = s.clauses := by subst hs'; simp only [hfl.2.2.2.1, hheap.2.2.2.2]
    have hkd : Den s' k (fun ρ => ρ n) := .var (by rw [hnd, hr]; simp)
    have hmain := inv_new (s' := s') h hdead hnd (by rw [hr]; simp) (by rw [hr]; simp) (by rw [hr])
      (by subst hs'; simp only [hfl.1, hheap.2.2.1, hal.1, hk])
      (by intro j; rw [hr]; exact findUniq_none h (by simp) (by simp) hf j)
      (by
        have h1 := alloc_free h r
        refine ⟨by subst hs'; simp only [hal.2.2]; exact h1.1, fun i hi => ?_⟩
        have h2 : i ∈ (allocNode s r).1.freeL := by subst hs'; simpa only [hal.2.2] using hi
        have h3 := h1.2 i h2
        refine ⟨by subst hs'; simp only [hal.2.1]; exact h3.1, h3.2.1, by rw [hk]; exact h3.2.2⟩)
      (by rw [hnv, hr]; simp)
      (by intro a b hab; rw [hr] at hab; simp at hab)
      (by
        have : s'.sigs = s.sigs := by subst hs'; simp only [hfl.2.1, hheap.2.2.2.1]
        rw [this]
        exact sigs_keep h fun i hl => by rw [hnd, if_neg (fun he : i = k => hdead (he ▸ hl))])
      (by intro c hc a ha; rw [hcl] at hc; have := h.cls c hc a ha; omega)
      (by intro c hc; rw [hcl]; exact hc)
      (by
        intro ρ σ h1 h2
        refine ⟨fun v => if v = s.nvars + 1 then ρ n else σ v, ?_, ?_, ?_⟩
        · rw [hcl]
          exact sat_agree (n := s.nvars) (fun v hv => by simp; omega) h.cls h1
        · intro v hv; simp; omega
        · intro f hf'
          rw [den_det hf' hkd, hr]; simp)
    exact ⟨hmain.1, hmain.2, _, hkd, by simp⟩

/-! ### Merging -/

theorem ask_fst (c : Cfg) (s : St) (as : List SLit) :
    ∃ q, (ask c s as).1 = { s with queries := q } := ⟨_, rfl⟩

/-- The state after queries only. -/
def Asked (s s' : St) : Prop := ∃ q, s' = { s with queries := q }

theorem Asked.refl (s : St) : Asked s s := ⟨s.queries, rfl⟩

theorem Asked.trans {a b c : St} (h : Asked a b) (h' : Asked b c) : Asked a c := by
  obtain ⟨q, rfl⟩ := h
  obtain ⟨q', rfl⟩ := h'
  exact ⟨q', rfl⟩

theorem Asked.nd {s s' : St} (h : Asked s s') (i : Nat) : s'.nd i = s.nd i := by
  obtain ⟨q, rfl⟩ := h; rfl

theorem Asked.lit {s s' : St} (h : Asked s s') (e : Edge) : s'.lit e = s.lit e := by
  obtain ⟨q, rfl⟩ := h; rfl

theorem Asked.inv {s s' : St} (h : Asked s s') (hi : Inv s) : Inv s' := by
  obtain ⟨q, rfl⟩ := h; exact hi.queries q

theorem Asked.grow {s s' : St} (h : Asked s s') : Grow s s' :=
  ⟨fun i _ => h.nd i, fun i _ _ => h.nd i⟩

theorem Asked.clauses {s s' : St} (h : Asked s s') : s'.clauses = s.clauses := by
  obtain ⟨q, rfl⟩ := h; rfl

theorem satAndIsSame_spec {c : Cfg} (hc : RightAnswers c) {s s' : St} {l r k : SLit} {b : Bool}
    (h : satAndIsSame c s l r k = some (s', b)) :
    Asked s s' ∧ (b = true → ∀ σ, Sat σ s.clauses [] → k.holds σ = (l.holds σ && r.holds σ)) := by
  unfold satAndIsSame at h
  split at h
  · cases h; exact ⟨Asked.refl s, by simp⟩
  split at h
  · cases h
  have hsat : ∀ {σ : Nat → Bool} {as : List SLit}, Sat σ s.clauses [] → (∀ a ∈ as, a.holds σ = true) →
      Sat σ s.clauses as := fun h1 h2 => ⟨h1.1, h2⟩
  simp only [ask] at h
  cases h1 : c.solve s.queries s.clauses [l, r, k.not] with
  | sat σ => rw [h1] at h; cases h; exact ⟨⟨_, rfl⟩, by simp⟩
  | undef => rw [h1] at h; cases h; exact ⟨⟨_, rfl⟩, by simp⟩
  | unsat =>
    rw [h1] at h
    simp only at h
    cases h2 : c.solve (s.queries + 1) s.clauses [l.not, k] with
    | sat σ => rw [h2] at h; cases h; exact ⟨⟨_, rfl⟩, by simp⟩
    | undef => rw [h2] at h; cases h; exact ⟨⟨_, rfl⟩, by simp⟩
    | unsat =>
      rw [h2] at h
      simp only at h
      cases h3 : c.solve (s.queries + 1 + 1) s.clauses [r.not, k] with
      | sat σ => rw [h3] at h; cases h; exact ⟨⟨_, rfl⟩, by simp⟩
      | undef => rw [h3] at h; cases h; exact ⟨⟨_, rfl⟩, by simp⟩
      | unsat =>
        rw [h3] at h
        cases h
        refine ⟨⟨_, rfl⟩, fun _ σ hσ => ?_⟩
        have n1 := hc.unsat _ _ _ h1
        have n2 := hc.unsat _ _ _ h2
        have n3 := hc.unsat _ _ _ h3
        have hnot : ∀ a : SLit, a.not.holds σ = !a.holds σ := by
          intro a; simp only [SLit.holds, SLit.not]; cases σ a.var <;> cases a.neg <;> rfl
        cases hl : l.holds σ <;> cases hr : r.holds σ <;> cases hk : k.holds σ <;> simp only [Bool.and_self, Bool.and_true, Bool.and_false, Bool.false_and, Bool.true_and]
        · exact absurd ⟨σ, hsat hσ (by simp [hnot, hl, hk])⟩ n2
        · exact absurd ⟨σ, hsat hσ (by simp [hnot, hl, hk])⟩ n2
        · exact absurd ⟨σ, hsat hσ (by simp [hnot, hr, hk])⟩ n3
        · exact absurd ⟨σ, hsat hσ (by simp [hnot, hl, hr, hk])⟩ n1

theorem tryMerge_spec {c : Cfg} (hc : RightAnswers c) {l r : Edge} (ks : List Nat) : ∀ {s s' : St} {m : Option Nat},
    tryMerge c s l r ks = some (s', m) →
    Asked s s' ∧ ∀ k, m = some k → k ∈ ks ∧ (s.nd k).sat = (s.nd k).sat ∧
      ∀ σ, Sat σ s.clauses [] → (s.lit ⟨false, k⟩).holds σ = ((s.lit l).holds σ && (s.lit r).holds σ) := by
  induction ks with
  | nil => intro s s' m h; cases h; exact ⟨Asked.refl s, by simp⟩
  | cons k ks ih =>
    intro s s' m h
    simp only [tryMerge, Option.bind_eq_bind] at h
    cases h1 : satAndIsSame c s (s.lit l) (s.lit r) (s.lit ⟨false, k⟩) with
    | none => rw [h1] at h; cases h
    | some x =>
      obtain ⟨s1, b⟩ := x
      rw [h1] at h
      simp only [Option.bind_some] at h
      obtain ⟨ha, hb⟩ := satAndIsSame_spec hc h1
      cases b with
      | true =>
        simp only [if_true] at h
        cases h
        exact ⟨ha, fun k' hk' => by cases hk'; exact ⟨by simp, rfl, hb rfl⟩⟩
      | false =>
        simp only [Bool.false_eq_true, if_false] at h
        obtain ⟨i1, i2⟩ := ih h
        refine ⟨ha.trans i1, fun k' hk' => ?_⟩
        obtain ⟨j1, _, j3⟩ := i2 k' hk'
        refine ⟨List.mem_cons_of_mem _ j1, rfl, fun σ hσ => ?_⟩
        have := j3 σ (by rw [ha.clauses]; exact hσ)
        rw [ha.lit, ha.lit, ha.lit] at this
        exact this

theorem findChain_mem {s : St} {g : BitVec 64} {k : Nat} (h : k ∈ findChain s g) :
    ∃ ch ∈ s.sigs, k ∈ ch ∧ ∃ k0 ∈ ch, (s.nd k0).sig = g := by
  unfold findChain at h
  cases hf : s.sigs.find? (chainHas s g) with
  | none => rw [hf] at h; simp at h
  | some ch =>
    rw [hf] at h
    simp only [Option.getD_some] at h
    have h1 := List.find?_some hf
    refine ⟨ch, List.mem_of_find?_eq_some hf, h, ?_⟩
    cases ch with
    | nil => simp [chainHas] at h1
    | cons k0 ks => exact ⟨k0, by simp, by simpa [chainHas] using h1⟩

theorem addChain_mem {sg : Nat → BitVec 64} {g : BitVec 64} {i : Nat} : ∀ {chs : List (List Nat)} {ch : List Nat},
    ch ∈ addChain sg g i chs → ch ∈ chs ∨ ch = [i] ∨ ∃ ch0 ∈ chs, ∃ k0 ∈ ch0, sg k0 = g ∧ ch = ch0 ++ [i] := by
  intro chs
  induction chs with
  | nil => intro ch h; simp [addChain] at h; exact .inr (.inl h)
  | cons c chs ih =>
    intro ch h
    cases c with
    | nil =>
      simp only [addChain, List.mem_cons] at h
      rcases h with h | h
      · exact .inl (by simp [h])
      · rcases ih h with h | h | ⟨ch0, h1, h2⟩
        · exact .inl (by simp [h])
        · exact .inr (.inl h)
        · exact .inr (.inr ⟨ch0, by simp [h1], h2⟩)
    | cons k ks =>
      simp only [addChain] at h
      split at h
      · rename_i hk
        simp only [List.mem_cons] at h
        rcases h with h | h
        · exact .inr (.inr ⟨k :: ks, by simp, k, by simp, hk, by simpa using h⟩)
        · exact .inl (by simp [h])
      · simp only [List.mem_cons] at h
        rcases h with h | h
        · exact .inl (by simp [h])
        · rcases ih h with h | h | ⟨ch0, h1, h2⟩
          · exact .inl (by simp [h])
          · exact .inr (.inl h)
          · exact .inr (.inr ⟨ch0, by simp [h1], h2⟩)

theorem findInsertAnd_spec {c : Cfg} (hc : RightAnswers c) {s s' : St} {l r e : Edge} {ht : Nat} {f g : Fn}
    (h : Inv s) (hl : Means s l f) (hr : Means s r g) (hl0 : l.idx ≠ 0) (hr0 : r.idx ≠ 0)
    (he : findInsertAnd c s l r ht = some (s', e)) :
    Inv s' ∧ Grow s s' ∧ Means s' e (fun ρ => f ρ && g ρ) := by
  unfold findInsertAnd at he
  cases hf : findUniq s (.and l r) with
  | some i =>
    rw [hf] at he
    cases he
    refine ⟨h, Grow.refl s, ?_⟩
    obtain ⟨a, ha, rfl⟩ := hl
    obtain ⟨b, hb, rfl⟩ := hr
    exact ⟨_, .and (findUniq_some hf).2 ha hb, by simp⟩
  | none =>
    rw [hf] at he
    simp only [Option.bind_eq_bind] at he
    cases hm : tryMerge c s l r (findChain s (andSig s l r)) with
    | none => rw [hm] at he; cases he
    | some x =>
      obtain ⟨s0, m⟩ := x
      rw [hm] at he
      simp only [Option.bind_some] at he
      obtain ⟨hask, hmerge⟩ := tryMerge_spec hc _ hm
      cases m with
      | some k =>
        simp only at he
        cases he
        refine ⟨hask.inv h, hask.grow, ?_⟩
        obtain ⟨hk1, -, hk2⟩ := hmerge k rfl
        obtain ⟨ch, hch, hkch, _⟩ := findChain_mem hk1
        obtain ⟨fk, hfk⟩ := h.den (h.chains ch hch k hkch).1
        refine hask.grow.means ?_
        refine ⟨fk, hfk, ?_⟩
        funext ρ
        simp only [Bool.xor_false]
        obtain ⟨σ, hσ1, hσ2⟩ := h.ext ρ
        have h1 := hk2 σ hσ1
        rw [lit_value hσ2 hl hl0, lit_value hσ2 hr hr0] at h1
        rw [← h1]
        by_cases hk0 : k = 0
        · -- the constant has no variable: the query would have been undefined
          exfalso
          subst hk0
          -- the literal has variable 0
          have : ∀ (ks : List Nat) (s1 : St), Asked s s1 → ∀ s2, tryMerge c s1 l r ks = some (s2, some 0) → False := by
            intro ks
            induction ks with
            | nil => intro s1 _ s2 ht; cases ht
            | cons k' ks ih =>
              intro s1 ha s2 ht
              simp only [tryMerge, Option.bind_eq_bind] at ht
              cases h1 : satAndIsSame c s1 (s1.lit l) (s1.lit r) (s1.lit ⟨false, k'⟩) with
              | none => rw [h1] at ht; cases ht
              | some x =>
                obtain ⟨s3, b⟩ := x
                rw [h1] at ht
                simp only [Option.bind_some] at ht
                have ha' := (satAndIsSame_spec hc h1).1
                cases b with
                | true =>
                  simp only [if_true] at ht
                  cases ht
                  unfold satAndIsSame at h1
                  split at h1
                  · cases h1
                  rw [if_pos (.inr (.inr (by unfold St.lit; simp only [ha.nd, h.root.2.1])))] at h1
                  cases h1
                | false =>
                  simp only [Bool.false_eq_true, if_false] at ht
                  exact ih s3 (ha.trans ha') s2 ht
          exact this _ s (Asked.refl s) _ hm
        · rw [← hσ2 k fk hfk hk0, holds_lit]; simp
      | none =>
        simp only at he
        -- a new node
        have h0 : Inv s0 := hask.inv h
        have hl' := hask.grow.means hl
        have hr' := hask.grow.means hr
        have hsig : andSig s l r = andSig s0 l r := by
          unfold andSig; simp only [hask.nd]
        have hfu : ∀ j, (s0.nd j).node ≠ .and l r := by
          intro j; rw [hask.nd]; exact findUniq_none h (by simp) (by simp) hf j
        rw [hsig] at he
        generalize hg : andSig s0 l r = gs at he
        suffices hs : Inv s' ∧ Grow s0 s' ∧ Means s' e (fun ρ => f ρ && g ρ) from
          ⟨hs.1, hask.grow.trans hs.2.1, hs.2.2⟩
        clear hl hr hm hmerge hf hsig h
        simp only [satAddAnd, Option.some.injEq, Prod.mk.injEq] at he
        generalize hn : (if max (s0.lit l).var (s0.lit r).var ≥ s0.nvars then
          max (s0.lit l).var (s0.lit r).var + 1 else s0.nvars) = n at he
        have hnge : s0.nvars ≤ n := by rw [← hn]; split <;> omega
        generalize hcs : ([⟨true, n + 1⟩, s0.lit l] :: [⟨true, n + 1⟩, s0.lit r] ::
          [⟨false, n + 1⟩, (s0.lit l).not, (s0.lit r).not] :: s0.clauses : List Clause) = cs at he
        obtain ⟨s1, hs1⟩ : ∃ s1 : St, s1 = { s0 with nvars := n + 1, clauses := cs } := ⟨_, rfl⟩
        obtain ⟨rc, hrc⟩ : ∃ r' : Rec, r' = ⟨.and l r, ht % 2 ^ 28, n + 1, gs, none⟩ := ⟨_, rfl⟩
        rw [← hs1, ← hrc] at he
        have hheap : s1.heap = s0.heap ∧ s1.freeL = s0.freeL ∧ s1.uniq = s0.uniq ∧ s1.sigs = s0.sigs ∧
            s1.clauses = cs ∧ s1.nvars = n + 1 := by subst hs1; exact ⟨rfl, rfl, rfl, rfl, rfl, rfl⟩
        have hal : (allocNode s1 rc).2 = (allocNode s0 rc).2 ∧
            (allocNode s1 rc).1.heap = (allocNode s0 rc).1.heap ∧
            (allocNode s1 rc).1.freeL = (allocNode s0 rc).1.freeL := by
          unfold allocNode; rw [hheap.1, hheap.2.1]
          cases s0.freeL <;> exact ⟨rfl, rfl, rfl⟩
        have hfl := alloc_fields s1 rc
        have hsig1 : (fun k => (s1.nd k).sig) = fun k => (s0.nd k).sig := by
          funext k; unfold St.nd; rw [hheap.1]
        have hsig2 : ∀ k, (s1.nd k).sig = (s0.nd k).sig := fun k => congrFun hsig1 k
        generalize hk : (allocNode s0 rc).2 = k at hal
        obtain ⟨he1, he2⟩ := he
        rw [hal.1] at he1 he2
        have hnd : ∀ j, s'.nd j = if j = k then rc else s0.nd j := by
          intro j
          have : s'.nd j = (allocNode s0 rc).1.nd j := by
            rw [← he1]; unfold St.nd; simp only [hal.2.1]
          rw [this, nd_alloc h0 rc j, hk]
        have hdead : ¬ s0.live k := by rw [← hk]; exact alloc_dead h0 rc
        have hnv : s'.nvars = n + 1 := by rw [← he1]; simp only [hfl.2.2.1, hheap.2.2.2.2.2]
        have hcl : s'.clauses = cs := by rw [← he1]; simp only [hfl.2.2.2.1, hheap.2.2.2.2.1]
        have hlive : ∀ j, s0.live j → s'.nd j = s0.nd j := fun j hj => by
          rw [hnd, if_neg (fun he : j = k => hdead (he ▸ hj))]
        have hll := means_live hl'
        have hrl := means_live hr'
        have hml : Means s' l f := by
          obtain ⟨a, ha, hf⟩ := hl'
          exact ⟨a, den_mono (fun i hi => by rw [hlive i hi]) ha, hf⟩
        have hmr : Means s' r g := by
          obtain ⟨a, ha, hf⟩ := hr'
          exact ⟨a, den_mono (fun i hi => by rw [hlive i hi]) ha, hf⟩
        have hkd : Means s' ⟨false, k⟩ (fun ρ => f ρ && g ρ) := by
          obtain ⟨a, ha, rfl⟩ := hml
          obtain ⟨b, hb, rfl⟩ := hmr
          exact ⟨_, .and (by rw [hnd, hrc]; simp) ha hb, by simp⟩
        have hlv : (s0.lit l).var ≤ s0.nvars := (h0.satRange _ hll hl0).2
        have hrv : (s0.lit r).var ≤ s0.nvars := (h0.satRange _ hrl hr0).2
        have hmain := inv_new (s' := s') h0 hdead hnd (by rw [hrc]; simp) (by rw [hrc]; simp) (by rw [hrc])
          (by rw [← he1]; simp only [hfl.1, hheap.2.2.1])
          (by intro j; rw [hrc]; exact hfu j)
          (by
            have h1 := alloc_free h0 rc
            refine ⟨by rw [← he1]; simp only [hal.2.2]; exact h1.1, fun i hi => ?_⟩
            have h2 : i ∈ (allocNode s0 rc).1.freeL := by rw [← he1] at hi; simpa only [hal.2.2] using hi
            have h3 := h1.2 i h2
            refine ⟨by rw [← he1]; simp only [hal.2.1]; exact h3.1, h3.2.1, by rw [← hk]; exact h3.2.2⟩)
          ⟨by rw [hrc]; exact Nat.lt_succ_of_le hnge, by rw [hrc, hnv]⟩
          (by
            intro a b hab
            rw [hrc] at hab
            cases hab
            refine ⟨⟨hll, hl0⟩, ⟨hrl, hr0⟩, ?_⟩
            rw [hcl, ← hcs, hrc]
            exact ⟨by simp, by simp, by simp⟩)
          (by
            have hsg : s'.sigs = addChain (fun k => (s0.nd k).sig) gs k s0.sigs := by
              rw [← he1]; simp only [hfl.2.1, hheap.2.2.2.1, hsig1]
            rw [hsg]
            have hkl : s'.live k := by unfold St.live; rw [hnd, hrc]; simp
            have hksig : (s'.nd k).sig = gs := by rw [hnd, hrc]; simp
            intro ch hch x hx
            rcases addChain_mem hch with h1 | h1 | ⟨ch0, h1, k0, h2, h3, h4⟩
            · exact sigs_keep h0 hlive ch h1 x hx
            · subst h1
              simp only [List.mem_singleton] at hx
              subst hx
              exact ⟨hkl, by simp⟩
            · have hsk := sigs_keep h0 hlive ch0 h1
              have hall : ∀ y ∈ ch, (s'.nd y).sig = gs := by
                intro y hy
                subst h4
                rcases List.mem_append.1 hy with hy | hy
                · rw [(hsk k0 h2).2 y hy, hlive k0 (h0.chains ch0 h1 k0 h2).1]; exact h3
                · simp only [List.mem_singleton] at hy; subst hy; exact hksig
              refine ⟨?_, fun y hy => by rw [hall y hy, hall x hx]⟩
              subst h4
              rcases List.mem_append.1 hx with hx | hx
              · exact (hsk x hx).1
              · simp only [List.mem_singleton] at hx; subst hx; exact hkl)
          (by
            rw [hnv, hcl, ← hcs]
            intro cl hcl' a ha
            simp only [List.mem_cons] at hcl'
            rcases hcl' with rfl | rfl | rfl | hcl'
            · simp only [List.mem_cons, List.not_mem_nil, or_false] at ha
              rcases ha with rfl | rfl
              · exact Nat.le_refl _
              · omega
            · simp only [List.mem_cons, List.not_mem_nil, or_false] at ha
              rcases ha with rfl | rfl
              · exact Nat.le_refl _
              · omega
            · simp only [List.mem_cons, List.not_mem_nil, or_false] at ha
              rcases ha with rfl | rfl | rfl
              · exact Nat.le_refl _
              · simp only [SLit.not]; omega
              · simp only [SLit.not]; omega
            · have := h0.cls cl hcl' a ha; omega)
          (by intro cl hc'; rw [hcl, ← hcs]; simp [hc'])
          (by
            intro ρ σ h1 h2
            obtain ⟨σ', hσ'⟩ : ∃ σ' : Nat → Bool, σ' = fun v => if v = n + 1 then f ρ && g ρ else σ v :=
              ⟨_, rfl⟩
            have hag : ∀ v, v ≤ s0.nvars → σ' v = σ v := by
              intro v hv; rw [hσ']; simp; omega
            have hnew : σ' (n + 1) = (f ρ && g ρ) := by rw [hσ']; simp
            have hlh : (s0.lit l).holds σ' = f ρ := by
              rw [holds_agree hag hlv, lit_value h2 hl' hl0]
            have hrh : (s0.lit r).holds σ' = g ρ := by
              rw [holds_agree hag hrv, lit_value h2 hr' hr0]
            refine ⟨σ', ?_, hag, ?_⟩
            · rw [hcl, ← hcs]
              refine ⟨fun cl hcl' => ?_, by simp⟩
              have hn1 : SLit.holds σ' ⟨true, n + 1⟩ = !(f ρ && g ρ) := by simp [SLit.holds, hnew]
              have hn2 : SLit.holds σ' ⟨false, n + 1⟩ = (f ρ && g ρ) := by simp [SLit.holds, hnew]
              have hnl : (s0.lit l).not.holds σ' = !f ρ := by
                rw [← hlh]; simp only [SLit.holds, SLit.not]; cases σ' (s0.lit l).var <;> cases (s0.lit l).neg <;> rfl
              have hnr : (s0.lit r).not.holds σ' = !g ρ := by
                rw [← hrh]; simp only [SLit.holds, SLit.not]; cases σ' (s0.lit r).var <;> cases (s0.lit r).neg <;> rfl
              simp only [List.mem_cons] at hcl'
              rcases hcl' with rfl | rfl | rfl | hcl'
              · simp only [Clause.holds, List.mem_cons, List.not_mem_nil, or_false, exists_eq_or_imp, exists_eq_left, hn1, hlh]
                cases f ρ <;> cases g ρ <;> simp
              · simp only [Clause.holds, List.mem_cons, List.not_mem_nil, or_false, exists_eq_or_imp, exists_eq_left, hn1, hrh]
                cases f ρ <;> cases g ρ <;> simp
              · simp only [Clause.holds, List.mem_cons, List.not_mem_nil, or_false, exists_eq_or_imp, exists_eq_left, hn2, hnl, hnr]
                cases f ρ <;> cases g ρ <;> simp
              · exact (sat_agree hag h0.cls h1).1 cl hcl'
            · intro fn hfn
              obtain ⟨a, ha, hae⟩ := hkd
              rw [hrc]
              simp only [hnew]
              rw [den_det hfn ha]
              have := congrFun hae ρ
              simp only [Bool.xor_false] at this
              exact this)
        refine ⟨hmain.1, hmain.2, ?_⟩
        rw [← he2]
        exact hkd

theorem beAnd_spec {c : Cfg} (hc : RightAnswers c) {s s' : St} {a b e : Edge} {f g : Fn}
    (h : Inv s) (ha : Means s a f) (hb : Means s b g) (he : beAnd c s a b = some (s', e)) :
    Inv s' ∧ Grow s s' ∧ Means s' e (fun ρ => f ρ && g ρ) := by
  unfold beAnd at he
  split at he
  · rename_i h1
    cases he
    refine ⟨h, Grow.refl s, ?_⟩
    have : (fun ρ => f ρ && g ρ) = fun _ => false := by
      funext ρ
      rcases h1 with rfl | rfl
      · rw [means_false h ha]; rfl
      · rw [means_false h hb]; simp
    rw [this]; exact means_zero h
  rename_i h1
  split at he
  · rename_i h2
    cases he
    refine ⟨h, Grow.refl s, ?_⟩
    subst h2
    have : (fun ρ => f ρ && g ρ) = g := by funext ρ; rw [means_true h ha]; rfl
    rw [this]; exact hb
  rename_i h2
  split at he
  · rename_i h3
    cases he
    refine ⟨h, Grow.refl s, ?_⟩
    subst h3
    have : (fun ρ => f ρ && g ρ) = f := by funext ρ; rw [means_true h hb]; simp
    rw [this]; exact ha
  rename_i h3
  split at he
  · rename_i h4
    cases he
    refine ⟨h, Grow.refl s, ?_⟩
    subst h4
    rw [means_det hb ha]
    simpa using ha
  split at he
  · rename_i h5
    cases he
    refine ⟨h, Grow.refl s, ?_⟩
    subst h5
    have := means_det ha (means_not hb)
    subst this
    simpa using means_zero h
  have ha0 : a.idx ≠ 0 := fun h0 => by
    rcases edge_const h0 with h | h
    · exact h2 h
    · exact h1 (.inl h)
  have hb0 : b.idx ≠ 0 := fun h0 => by
    rcases edge_const h0 with h | h
    · exact h3 h
    · exact h1 (.inr h)
  simp only at he
  split at he
  · have := findInsertAnd_spec hc h hb ha hb0 ha0 he
    simpa only [Bool.and_comm] using this
  · exact findInsertAnd_spec hc h ha hb ha0 hb0 he

theorem beOr_spec {c : Cfg} (hc : RightAnswers c) {s s' : St} {a b e : Edge} {f g : Fn}
    (h : Inv s) (ha : Means s a f) (hb : Means s b g) (he : beOr c s a b = some (s', e)) :
    Inv s' ∧ Grow s s' ∧ Means s' e (fun ρ => f ρ || g ρ) := by
  unfold beOr at he
  simp only [Option.bind_eq_bind] at he
  cases h1 : beAnd c s a.not b.not with
  | none => rw [h1] at he; cases he
  | some x =>
    obtain ⟨s1, r⟩ := x
    rw [h1] at he
    simp only [Option.bind_some] at he
    cases he
    obtain ⟨i, gr, m⟩ := beAnd_spec hc h (means_not ha) (means_not hb) h1
    refine ⟨i, gr, ?_⟩
    simpa using means_not m

theorem beNand_spec {c : Cfg} (hc : RightAnswers c) {s s' : St} {a b e : Edge} {f g : Fn}
    (h : Inv s) (ha : Means s a f) (hb : Means s b g) (he : beNand c s a b = some (s', e)) :
    Inv s' ∧ Grow s s' ∧ Means s' e (fun ρ => !(f ρ && g ρ)) := by
  unfold beNand at he
  simp only [Option.bind_eq_bind] at he
  cases h1 : beAnd c s a b with
  | none => rw [h1] at he; cases he
  | some x =>
    obtain ⟨s1, r⟩ := x
    rw [h1] at he
    simp only [Option.bind_some] at he
    cases he
    obtain ⟨i, gr, m⟩ := beAnd_spec hc h ha hb h1
    exact ⟨i, gr, means_not m⟩

theorem beNor_spec {c : Cfg} (hc : RightAnswers c) {s s' : St} {a b e : Edge} {f g : Fn}
    (h : Inv s) (ha : Means s a f) (hb : Means s b g) (he : beNor c s a b = some (s', e)) :
    Inv s' ∧ Grow s s' ∧ Means s' e (fun ρ => !(f ρ || g ρ)) := by
  have := beAnd_spec hc h (means_not ha) (means_not hb) he
  simpa using this

theorem beXor_spec {c : Cfg} (hc : RightAnswers c) {s s' : St} {a b e : Edge} {f g : Fn}
    (h : Inv s) (ha : Means s a f) (hb : Means s b g) (he : beXor c s a b = some (s', e)) :
    Inv s' ∧ Grow s s' ∧ Means s' e (fun ρ => f ρ != g ρ) := by
  unfold beXor at he
  simp only [Option.bind_eq_bind] at he
  cases h1 : beAnd c s a.not b with
  | none => rw [h1] at he; cases he
  | some x =>
    obtain ⟨s1, r1⟩ := x
    rw [h1] at he
    simp only [Option.bind_some] at he
    obtain ⟨i1, g1, m1⟩ := beAnd_spec hc h (means_not ha) hb h1
    cases h2 : beAnd c s1 a b.not with
    | none => rw [h2] at he; cases he
    | some y =>
      obtain ⟨s2, r2⟩ := y
      rw [h2] at he
      simp only [Option.bind_some] at he
      obtain ⟨i2, g2, m2⟩ := beAnd_spec hc i1 (g1.means ha) (means_not (g1.means hb)) h2
      obtain ⟨i3, g3, m3⟩ := beOr_spec hc i2 (g2.means m1) m2 he
      refine ⟨i3, (g1.trans g2).trans g3, ?_⟩
      have : (fun ρ => f ρ != g ρ) = fun ρ => ((!f ρ) && g ρ) || (f ρ && !g ρ) := by
        funext ρ; cases f ρ <;> cases g ρ <;> rfl
      rw [this]; exact m3

theorem beXnor_spec {c : Cfg} (hc : RightAnswers c) {s s' : St} {a b e : Edge} {f g : Fn}
    (h : Inv s) (ha : Means s a f) (hb : Means s b g) (he : beXnor c s a b = some (s', e)) :
    Inv s' ∧ Grow s s' ∧ Means s' e (fun ρ => f ρ == g ρ) := by
  unfold beXnor at he
  simp only [Option.bind_eq_bind] at he
  cases h1 : beAnd c s a.not b.not with
  | none => rw [h1] at he; cases he
  | some x =>
    obtain ⟨s1, r1⟩ := x
    rw [h1] at he
    simp only [Option.bind_some] at he
    obtain ⟨i1, g1, m1⟩ := beAnd_spec hc h (means_not ha) (means_not hb) h1
    cases h2 : beAnd c s1 a b with
    | none => rw [h2] at he; cases he
    | some y =>
      obtain ⟨s2, r2⟩ := y
      rw [h2] at he
      simp only [Option.bind_some] at he
      obtain ⟨i2, g2, m2⟩ := beAnd_spec hc i1 (g1.means ha) (g1.means hb) h2
      obtain ⟨i3, g3, m3⟩ := beOr_spec hc i2 (g2.means m1) m2 he
      refine ⟨i3, (g1.trans g2).trans g3, ?_⟩
      have : (fun ρ => f ρ == g ρ) = fun ρ => ((!f ρ) && !g ρ) || (f ρ && g ρ) := by
        funext ρ; cases f ρ <;> cases g ρ <;> rfl
      rw [this]; exact m3

theorem beIte_spec {c : Cfg} (hc : RightAnswers c) {s s' : St} {a b d e : Edge} {f g k : Fn}
    (h : Inv s) (ha : Means s a f) (hb : Means s b g) (hd : Means s d k) (he : beIte c s a b d = some (s', e)) :
    Inv s' ∧ Grow s s' ∧ Means s' e (fun ρ => if f ρ then g ρ else k ρ) := by
  unfold beIte at he
  simp only [Option.bind_eq_bind] at he
  cases h1 : beAnd c s a b with
  | none => rw [h1] at he; cases he
  | some x =>
    obtain ⟨s1, r1⟩ := x
    rw [h1] at he
    simp only [Option.bind_some] at he
    obtain ⟨i1, g1, m1⟩ := beAnd_spec hc h ha hb h1
    cases h2 : beAnd c s1 a.not d with
    | none => rw [h2] at he; cases he
    | some y =>
      obtain ⟨s2, r2⟩ := y
      rw [h2] at he
      simp only [Option.bind_some] at he
      obtain ⟨i2, g2, m2⟩ := beAnd_spec hc i1 (means_not (g1.means ha)) (g1.means hd) h2
      cases h3 : beOr c s2 r1 r2 with
      | none => rw [h3] at he; cases he
      | some z =>
        obtain ⟨s3, r3⟩ := z
        rw [h3] at he
        simp only [Option.bind_some] at he
        obtain ⟨i3, g3, m3⟩ := beOr_spec hc i2 (g2.means m1) m2 h3
        have hg := (g1.trans g2).trans g3
        have hfn : (fun ρ => if f ρ then g ρ else k ρ) = fun ρ => (f ρ && g ρ) || ((!f ρ) && k ρ) := by
          funext ρ; cases f ρ <;> cases g ρ <;> cases k ρ <;> rfl
        split at he
        · cases h4 : beAnd c s3 b d with
          | none => rw [h4] at he; cases he
          | some w =>
            obtain ⟨s4, r4⟩ := w
            rw [h4] at he
            simp only [Option.bind_some] at he
            obtain ⟨i4, g4, m4⟩ := beAnd_spec hc i3 (hg.means hb) (hg.means hd) h4
            obtain ⟨i5, g5, m5⟩ := beOr_spec hc i4 (g4.means m3) m4 he
            refine ⟨i5, (hg.trans g4).trans g5, ?_⟩
            have hfn' : (fun ρ => if f ρ then g ρ else k ρ) =
                fun ρ => ((f ρ && g ρ) || ((!f ρ) && k ρ)) || (g ρ && k ρ) := by
              funext ρ; cases f ρ <;> cases g ρ <;> cases k ρ <;> rfl
            rw [hfn']; exact m5
        · cases he
          refine ⟨i3, hg, ?_⟩
          rw [hfn]; exact m3

end Voss.Bexpr
