import Verif.Bdd.Model3
import Verif.Bdd.SaveLemmas
import Mathlib.Algebra.BigOperators.Group.Finset.Basic
import Mathlib.Algebra.Order.BigOperators.Group.Finset
/-
Garbage collection: marking, reference counts, sweeping.
-/
namespace Voss.Bdd

/-- Number of edges from a slot to node `j`. -/
def ed (o : Option Node) (j : Nat) : Nat :=
  match o with
  | none => 0
  | some n => (if n.lson = j then 1 else 0) + (if n.rson.idx = j then 1 else 0)

/-- Number of edges to `j`. -/
def pc (t : Nat → Option Node) (N j : Nat) : Nat := ∑ p ∈ Finset.range N, ed (t p) j

def one (i j : Nat) : Nat := if i = j then 1 else 0

theorem pc_upd (t : Nat → Option Node) {N p : Nat} (hp : p < N) (o : Option Node) (j : Nat) :
    pc (upd t p o) N j + ed (t p) j = pc t N j + ed o j := by
  unfold pc
  have hm : p ∈ Finset.range N := Finset.mem_range.2 hp
  rw [← Finset.add_sum_erase _ _ hm, ← Finset.add_sum_erase (Finset.range N) (fun q => ed (t q) j) hm]
  have : ∑ q ∈ (Finset.range N).erase p, ed (upd t p o q) j =
      ∑ q ∈ (Finset.range N).erase p, ed (t q) j := by
    apply Finset.sum_congr rfl
    intro q hq
    rw [upd_ne _ _ (Finset.ne_of_mem_erase hq)]
  rw [this, upd_same]
  omega

theorem pc_pos {t : Nat → Option Node} {N p j : Nat} (hp : p < N) (h : 0 < ed (t p) j) :
    0 < pc t N j := by
  unfold pc
  exact lt_of_lt_of_le h
    (Finset.single_le_sum (f := fun q => ed (t q) j) (fun _ _ => Nat.zero_le _) (Finset.mem_range.2 hp))

theorem pc_mono {t : Nat → Option Node} {N M j : Nat} (h : N ≤ M) (h0 : ∀ p, N ≤ p → t p = none) :
    pc t M j = pc t N j := by
  unfold pc
  symm
  apply Finset.sum_subset
  · intro p hp; simp only [Finset.mem_range] at *; omega
  · intro p _ hn
    simp only [Finset.mem_range, not_lt] at hn
    rw [h0 p hn]; rfl

theorem ed_some (n : Node) (j : Nat) : ed (some n) j = one n.lson j + one n.rson.idx j := rfl

/-- The marked part of the table. -/
def act (s : S) (m : MR) : Nat → Option Node := fun p => if m.mark p then s.tbl p else none

structure GI (s : S) (ext : Nat → Nat) (m : MR) (pend : Nat → Nat) : Prop where
  live : ∀ p, m.mark p = true → ∃ n, s.tbl p = some n
  clos : ∀ p n, m.mark p = true → s.tbl p = some n →
    (n.lson = 0 ∨ m.mark n.lson = true ∨ 0 < pend n.lson) ∧
    (n.rson.idx = 0 ∨ m.mark n.rson.idx = true ∨ 0 < pend n.rson.idx)
  cnt : ∀ j, j ≠ 0 → m.rf j = maxRef ∨ pc (act s m) s.size j + ext j ≤ m.rf j + pend j
  pos : ∀ j, j ≠ 0 → (m.mark j = true ↔ 1 ≤ m.rf j)

theorem bump_same (rf : Nat → Nat) (i : Nat) : 1 ≤ bump rf i i ∧
    (bump rf i i = maxRef ∨ bump rf i i = rf i + 1) := by
  unfold bump
  by_cases h : rf i ≠ maxRef
  · rw [if_pos h, upd_same]; exact ⟨by omega, Or.inr rfl⟩
  · rw [if_neg h]
    rw [not_not] at h
    rw [h]; exact ⟨by decide, Or.inl rfl⟩

theorem bump_max {rf : Nat → Nat} {i : Nat} (j : Nat) (h : rf j = maxRef) : bump rf i j = maxRef := by
  unfold bump
  split
  · next h' =>
    by_cases e : j = i
    · subst e; exact absurd h h'
    · rw [upd_ne _ _ e, h]
  · exact h

theorem bump_ne {rf : Nat → Nat} {i j : Nat} (h : j ≠ i) : bump rf i j = rf j := by
  unfold bump
  split
  · rw [upd_ne _ _ h]
  · rfl

theorem one_same (i : Nat) : one i i = 1 := by simp [one]
theorem one_ne {i j : Nat} (h : i ≠ j) : one i j = 0 := by simp [one, h]

theorem gcMark_spec {s : S} (hs : SInv s) (ext : Nat → Nat) : ∀ (fuel : Nat) (m : MR) (i : Nat)
    (pend : Nat → Nat), GI s ext m (fun j => pend j + one i j) →
    (i = 0 ∨ ∃ n, s.tbl i = some n) → s.nvars - lev s i < fuel →
    ∃ m', gcMark fuel s m i = some m' ∧ GI s ext m' pend ∧ (∀ p, m.mark p = true → m'.mark p = true) ∧
      (i = 0 ∨ m'.mark i = true) := by
  intro fuel
  induction fuel with
  | zero => intro m i pend _ _ h; omega
  | succ fuel ih =>
    intro m i pend hG hl hf
    unfold gcMark
    by_cases h0 : i = 0
    · rw [if_pos h0]
      refine ⟨m, rfl, ⟨hG.live, ?_, ?_, hG.pos⟩, fun _ h => h, Or.inl h0⟩
      · intro p n hp e
        obtain ⟨a, b⟩ := hG.clos p n hp e
        subst h0
        constructor
        · rcases a with a | a | a
          · exact Or.inl a
          · exact Or.inr (Or.inl a)
          · by_cases hz : n.lson = 0
            · exact Or.inl hz
            · rw [one_ne (Ne.symm hz)] at a; exact Or.inr (Or.inr (by simpa using a))
        · rcases b with a | a | a
          · exact Or.inl a
          · exact Or.inr (Or.inl a)
          · by_cases hz : n.rson.idx = 0
            · exact Or.inl hz
            · rw [one_ne (Ne.symm hz)] at a; exact Or.inr (Or.inr (by simpa using a))
      · intro j hj
        have := hG.cnt j hj
        subst h0
        rw [one_ne (Ne.symm hj)] at this
        simpa using this
    · rw [if_neg h0]
      obtain ⟨n, e⟩ := hl.resolve_left h0
      obtain ⟨b1, b2⟩ := bump_same m.rf i
      by_cases hm : m.mark i = true
      · rw [if_pos hm]
        refine ⟨_, rfl, ⟨hG.live, ?_, ?_, ?_⟩, fun _ h => h, Or.inr hm⟩
        · intro p n hp e
          obtain ⟨a, b⟩ := hG.clos p n hp e
          constructor
          · rcases a with a | a | a
            · exact Or.inl a
            · exact Or.inr (Or.inl a)
            · by_cases hz : i = n.lson
              · exact Or.inr (Or.inl (hz ▸ hm))
              · rw [one_ne hz] at a; exact Or.inr (Or.inr (by simpa using a))
          · rcases b with a | a | a
            · exact Or.inl a
            · exact Or.inr (Or.inl a)
            · by_cases hz : i = n.rson.idx
              · exact Or.inr (Or.inl (hz ▸ hm))
              · rw [one_ne hz] at a; exact Or.inr (Or.inr (by simpa using a))
        · intro j hj
          have hc := hG.cnt j hj
          have hact : act s { m with rf := bump m.rf i } = act s m := rfl
          rw [hact]
          by_cases hji : j = i
          · subst hji
            rw [one_same] at hc
            show bump m.rf j j = maxRef ∨ _ ≤ bump m.rf j j + pend j
            rcases b2 with b2 | b2
            · exact Or.inl b2
            · rw [b2]
              rcases hc with hc | hc
              · left
                rw [← b2]; exact bump_max _ hc
              · right; omega
          · rw [one_ne (Ne.symm hji)] at hc
            show bump m.rf i j = maxRef ∨ _ ≤ bump m.rf i j + pend j
            rw [bump_ne hji]; simpa using hc
        · intro j hj
          show m.mark j = true ↔ 1 ≤ bump m.rf i j
          by_cases hji : j = i
          · subst hji; exact ⟨fun _ => b1, fun _ => hm⟩
          · rw [bump_ne hji]; exact hG.pos j hj
      · rw [if_neg hm]
        simp only [e, Option.bind_eq_bind, Option.bind_some]
        have hlv := lev_sons hs (f := ⟨false, i⟩) e
        rw [(sons_idx _ n).1, (sons_idx _ n).2] at hlv
        have hln := lev_lt hs e
        have live_of : ∀ j, Below s n.var j → j = 0 ∨ ∃ n, s.tbl j = some n := by
          intro j h
          rcases h with h | ⟨m, h, _⟩
          · exact Or.inl h
          · exact Or.inr ⟨m, h⟩
        have hmem : i < s.size := hs.live_lt i ((hs.live_iff i).2 (by rw [e]; rfl))
        -- state after marking `i`
        have hG1 : GI s ext ⟨upd m.mark i true, bump m.rf i⟩
            (fun j => (fun j => pend j + one n.rson.idx j) j + one n.lson j) := by
          refine ⟨?_, ?_, ?_, ?_⟩
          · intro p hp
            by_cases hpi : p = i
            · exact ⟨n, hpi ▸ e⟩
            · simp only [upd_ne _ _ hpi] at hp; exact hG.live p hp
          · intro p n' hp e'
            by_cases hpi : p = i
            · subst hpi
              rw [e] at e'; cases e'
              constructor
              · right; right; simp [one_same]
              · right; right; simp [one_same]
            · simp only [upd_ne _ _ hpi] at hp
              obtain ⟨a, b⟩ := hG.clos p n' hp e'
              have aux : ∀ k, (k = 0 ∨ m.mark k = true ∨ 0 < pend k + one i k) →
                  (k = 0 ∨ upd m.mark i true k = true ∨
                    0 < pend k + one n.rson.idx k + one n.lson k) := by
                intro k hk
                by_cases hki : k = i
                · subst hki; right; left; exact upd_same _ _ _
                · rw [upd_ne _ _ hki, one_ne (Ne.symm hki)] at *
                  rcases hk with hk | hk | hk
                  · exact Or.inl hk
                  · exact Or.inr (Or.inl hk)
                  · right; right; omega
              exact ⟨aux _ a, aux _ b⟩
          · intro j hj
            have hc := hG.cnt j hj
            have hact : act s ⟨upd m.mark i true, bump m.rf i⟩ = upd (act s m) i (some n) := by
              funext p
              by_cases hpi : p = i
              · subst hpi; simp [act, e]
              · simp only [act, upd_ne _ _ hpi]
            have hpc := pc_upd (act s m) hmem (some n) j
            have h0' : act s m i = none := by simp [act, hm]
            rw [h0'] at hpc
            have hz : ed none j = 0 := rfl
            rw [hz, ed_some] at hpc
            rw [hact]
            by_cases hji : j = i
            · subst hji
              rw [one_same] at hc
              show bump m.rf j j = maxRef ∨ _ ≤ bump m.rf j j + (pend j + one n.rson.idx j + one n.lson j)
              rcases b2 with b2 | b2
              · exact Or.inl b2
              · rcases hc with hc | hc
                · exact Or.inl (bump_max _ hc)
                · right; rw [b2]; omega
            · rw [one_ne (Ne.symm hji)] at hc
              show bump m.rf i j = maxRef ∨ _ ≤ bump m.rf i j + (pend j + one n.rson.idx j + one n.lson j)
              rw [bump_ne hji]
              rcases hc with hc | hc
              · exact Or.inl hc
              · right; omega
          · intro j hj
            show upd m.mark i true j = true ↔ 1 ≤ bump m.rf i j
            by_cases hji : j = i
            · subst hji; exact ⟨fun _ => b1, fun _ => upd_same _ _ _⟩
            · rw [bump_ne hji, upd_ne _ _ hji]; exact hG.pos j hj
        obtain ⟨m1, e1, hG2, mono1, mk1⟩ := ih _ n.lson _ hG1 (live_of _ (hs.below_l _ _ e))
          (by simp only at hlv; omega)
        simp only [e1, Option.bind_some]
        obtain ⟨m2, e2, hG3, mono2, mk2⟩ := ih m1 n.rson.idx _ hG2 (live_of _ (hs.below_r _ _ e))
          (by simp only at hlv; omega)
        refine ⟨m2, e2, hG3, ?_, Or.inr ?_⟩
        · intro p hp
          apply mono2; apply mono1
          by_cases hpi : p = i
          · subst hpi; exact upd_same _ _ _
          · show upd m.mark i true p = true
            rw [upd_ne _ _ hpi]; exact hp
        · apply mono2; apply mono1; exact upd_same _ _ _

/-- How often a node is listed. -/
def cntF (fs : List F) (j : Nat) : Nat := (fs.map F.idx).count j

theorem cntF_cons (f : F) (fs : List F) (j : Nat) : cntF (f :: fs) j = cntF fs j + one f.idx j := by
  simp only [cntF, List.map_cons, List.count_cons, one, beq_iff_eq]

theorem markList_spec {s : S} (hs : SInv s) (ext : Nat → Nat) : ∀ (fs : List F) (m : MR)
    (pend : Nat → Nat), GI s ext m (fun j => pend j + cntF fs j) →
    (∀ f ∈ fs, ∃ g, Denotes s f g) →
    ∃ m', markList s m fs = some m' ∧ GI s ext m' pend ∧ (∀ p, m.mark p = true → m'.mark p = true) ∧
      (∀ f ∈ fs, f.idx = 0 ∨ m'.mark f.idx = true) := by
  intro fs
  induction fs with
  | nil =>
    intro m pend hG _
    exact ⟨m, rfl, by simpa [cntF] using hG, fun _ h => h, by simp⟩
  | cons f fs ih =>
    intro m pend hG hd
    unfold markList
    obtain ⟨g, hg⟩ := hd f List.mem_cons_self
    have hG' : GI s ext m (fun j => (fun j => pend j + cntF fs j) j + one f.idx j) := by
      have : (fun j => (fun j => pend j + cntF fs j) j + one f.idx j) =
          (fun j => pend j + cntF (f :: fs) j) := by
        funext j; rw [cntF_cons]; show pend j + cntF fs j + _ = _; omega
      rw [this]; exact hG
    obtain ⟨m1, e1, hG1, mono1, mk1⟩ := gcMark_spec hs ext s.fuel m f.idx _ hG' hg.live
      (by unfold S.fuel; omega)
    simp only [e1, Option.bind_eq_bind, Option.bind_some]
    obtain ⟨m2, e2, hG2, mono2, mk2⟩ := ih m1 pend hG1 (fun f hf => hd f (List.mem_cons_of_mem _ hf))
    refine ⟨m2, e2, hG2, fun p hp => mono2 p (mono1 p hp), ?_⟩
    intro f' hf'
    rcases List.mem_cons.1 hf' with rfl | hf'
    · rcases mk1 with h | h
      · exact Or.inl h
      · exact Or.inr (mono2 _ h)
    · exact mk2 f' hf'

/-- The node of a variable has constant sons. -/
theorem var_sons {s : S} (hs : SInv s) {f : F} {v : Nat} (h : Denotes s f (fun ρ => ρ v)) :
    ∃ n, s.tbl f.idx = some n ∧ n.var = v ∧ n.lson = 0 ∧ n.rson.idx = 0 := by
  have h0 : f.idx ≠ 0 := by
    intro h0
    rcases idx_zero h0 with rfl | rfl
    · have := congrFun (h.det (denotes_zero s)) (fun _ => true)
      simp at this
    · have := congrFun (h.det (denotes_one s)) (fun _ => false)
      simp at this
  obtain ⟨n, e⟩ := h.node_of_ne h0
  obtain ⟨gl, gr, dl, dr, hg⟩ := h.split e h0
  have hv : n.var = v := by
    obtain ⟨ρ, hρ⟩ := top_essential hs e h
    by_contra hne
    exact hρ (by simp [set1, Ne.symm hne])
  obtain ⟨c1, c2⟩ := cof_eq hs e dl dr hg
  subst hv
  rw [c1] at dl
  rw [c2] at dr
  simp only [set1_same] at dl dr
  have a1 := canon hs dl (denotes_one s)
  have a2 := canon hs dr (denotes_zero s)
  refine ⟨n, e, rfl, ?_, ?_⟩
  · rw [← (sons_idx f n).1, a1]; rfl
  · rw [← (sons_idx f n).2, a2]; rfl

theorem markVars_spec {s : S} (hs : SInv s) (ext pend : Nat → Nat) : ∀ (vs : List (String × F)) (m : MR),
    GI s ext m pend → (∀ x ∈ vs, ∃ v, Denotes s x.2 (fun ρ => ρ v)) →
    GI s ext (markVars m vs) pend ∧ (∀ p, m.mark p = true → (markVars m vs).mark p = true) ∧
    (∀ p, m.rf p = maxRef → (markVars m vs).rf p = maxRef) ∧
    (∀ x ∈ vs, (markVars m vs).mark x.2.idx = true ∧ (markVars m vs).rf x.2.idx = maxRef) := by
  intro vs
  induction vs with
  | nil => intro m hG _; exact ⟨hG, fun _ h => h, fun _ h => h, by simp⟩
  | cons x vs ih =>
    intro m hG hd
    obtain ⟨name, f⟩ := x
    unfold markVars
    obtain ⟨v, hv⟩ := hd (name, f) List.mem_cons_self
    obtain ⟨n, e, _, z1, z2⟩ := var_sons hs hv
    have hmem : f.idx < s.size := hs.live_lt _ ((hs.live_iff _).2 (by rw [e]; rfl))
    have hG1 : GI s ext ⟨upd m.mark f.idx true, upd m.rf f.idx maxRef⟩ pend := by
      refine ⟨?_, ?_, ?_, ?_⟩
      · intro p hp
        by_cases hpi : p = f.idx
        · exact ⟨n, hpi ▸ e⟩
        · simp only [upd_ne _ _ hpi] at hp; exact hG.live p hp
      · intro p n' hp e'
        by_cases hpi : p = f.idx
        · subst hpi
          rw [e] at e'; cases e'
          exact ⟨Or.inl z1, Or.inl z2⟩
        · simp only [upd_ne _ _ hpi] at hp
          obtain ⟨a, b⟩ := hG.clos p n' hp e'
          have aux : ∀ k, (k = 0 ∨ m.mark k = true ∨ 0 < pend k) →
              (k = 0 ∨ upd m.mark f.idx true k = true ∨ 0 < pend k) := by
            intro k hk
            by_cases hki : k = f.idx
            · subst hki; right; left; exact upd_same _ _ _
            · rw [upd_ne _ _ hki]; exact hk
          exact ⟨aux _ a, aux _ b⟩
      · intro j hj
        by_cases hji : j = f.idx
        · subst hji; left; exact upd_same _ _ _
        · show upd m.rf f.idx maxRef j = maxRef ∨ _ ≤ upd m.rf f.idx maxRef j + _
          rw [upd_ne _ _ hji]
          have hact : pc (act s ⟨upd m.mark f.idx true, upd m.rf f.idx maxRef⟩) s.size j =
              pc (act s m) s.size j := by
            unfold pc
            apply Finset.sum_congr rfl
            intro p _
            by_cases hpi : p = f.idx
            · subst hpi
              have hz : ed (some n) j = 0 := by
                rw [ed_some, z1, z2, one_ne (Ne.symm hj)]
              simp only [act, e, upd_same, if_true, hz]
              split
              · exact hz.symm
              · rfl
            · simp only [act, upd_ne _ _ hpi]
          rw [hact]
          exact hG.cnt j hj
      · intro j hj
        show upd m.mark f.idx true j = true ↔ 1 ≤ upd m.rf f.idx maxRef j
        by_cases hji : j = f.idx
        · subst hji; simp [maxRef]
        · rw [upd_ne _ _ hji, upd_ne _ _ hji]; exact hG.pos j hj
    obtain ⟨hG2, m1, m2, m3⟩ := ih _ hG1 (fun x hx => hd x (List.mem_cons_of_mem _ hx))
    have r1 : ∀ p, m.rf p = maxRef → upd m.rf f.idx maxRef p = maxRef := by
      intro p hp
      by_cases hpi : p = f.idx
      · subst hpi; exact upd_same _ _ _
      · rw [upd_ne _ _ hpi]; exact hp
    refine ⟨hG2, ?_, fun p hp => m2 p (r1 p hp), ?_⟩
    · intro p hp
      apply m1
      by_cases hpi : p = f.idx
      · subst hpi; exact upd_same _ _ _
      · show upd m.mark f.idx true p = true
        rw [upd_ne _ _ hpi]; exact hp
    · intro x hx
      rcases List.mem_cons.1 hx with rfl | hx
      · exact ⟨m1 _ (upd_same _ _ _), m2 _ (upd_same _ _ _)⟩
      · exact m3 x hx

/-- Marking never lowers a saturated counter. -/
theorem gcMark_max {s : S} : ∀ (fuel : Nat) (m m' : MR) (i : Nat), gcMark fuel s m i = some m' →
    ∀ p, m.rf p = maxRef → m'.rf p = maxRef := by
  intro fuel
  induction fuel with
  | zero => intro m m' i h; simp [gcMark] at h
  | succ fuel ih =>
    intro m m' i h p hp
    unfold gcMark at h
    split at h
    · cases h; exact hp
    · split at h
      · cases h; exact bump_max _ hp
      · simp only [Option.bind_eq_bind] at h
        rw [Option.bind_eq_some_iff] at h
        obtain ⟨n, _, h⟩ := h
        rw [Option.bind_eq_some_iff] at h
        obtain ⟨m1, h1, h2⟩ := h
        exact ih _ _ _ h2 p (ih _ _ _ h1 p (bump_max _ hp))

theorem markList_max {s : S} : ∀ (fs : List F) (m m' : MR), markList s m fs = some m' →
    ∀ p, m.rf p = maxRef → m'.rf p = maxRef := by
  intro fs
  induction fs with
  | nil => intro m m' h; cases h; exact fun _ h => h
  | cons f fs ih =>
    intro m m' h p hp
    unfold markList at h
    simp only [Option.bind_eq_bind] at h
    rw [Option.bind_eq_some_iff] at h
    obtain ⟨m1, h1, h2⟩ := h
    exact ih _ _ h2 p (gcMark_max _ _ _ _ h1 p hp)

/-- The outcome of the mark phase. -/
structure GI0 (s : S) (ext : Nat → Nat) (m : MR) : Prop where
  live : ∀ p, p ≠ 0 → m.mark p = true → ∃ n, s.tbl p = some n
  clos : ∀ p n, p ≠ 0 → m.mark p = true → s.tbl p = some n →
    (n.lson = 0 ∨ m.mark n.lson = true) ∧ (n.rson.idx = 0 ∨ m.mark n.rson.idx = true)
  cnt : ∀ j, j ≠ 0 → m.rf j = maxRef ∨ pc (act s m) s.size j + ext j ≤ m.rf j
  pos : ∀ j, j ≠ 0 → (m.mark j = true ↔ 1 ≤ m.rf j)
  m0 : 1 ≤ m.rf 0
  vars : ∀ x ∈ s.vars, m.mark x.2.idx = true ∧ m.rf x.2.idx = maxRef
  roots : ∀ j, j ≠ 0 → 0 < ext j → m.mark j = true

theorem cntF_append (a b : List F) (j : Nat) : cntF (a ++ b) j = cntF a j + cntF b j := by
  simp [cntF]

theorem cntF_pos {fs : List F} {j : Nat} (h : 0 < cntF fs j) : ∃ f ∈ fs, f.idx = j := by
  simp only [cntF, List.count_pos_iff, List.mem_map] at h
  exact h

theorem cntF_mem {fs : List F} {f : F} (h : f ∈ fs) : 0 < cntF fs f.idx := by
  simp only [cntF, List.count_pos_iff, List.mem_map]
  exact ⟨f, h, rfl⟩

theorem markPhase_spec {s : S} (hI : Inv s) (roots prot : List F)
    (hr : ∀ f ∈ roots, ∃ g, Denotes s f g) (hp : ∀ f ∈ prot, ∃ g, Denotes s f g) :
    ∃ m, markPhase s roots prot = some m ∧ GI0 s (cntF (roots ++ prot)) m := by
  obtain ⟨hs, hc, hv⟩ := hI
  unfold markPhase
  have hG0 : GI s (cntF (roots ++ prot)) resetRefs (fun j => cntF prot j + cntF roots j) := by
    refine ⟨?_, ?_, ?_, ?_⟩
    · intro p h; simp [resetRefs] at h
    · intro p n h; simp [resetRefs] at h
    · intro j _
      right
      have : pc (act s resetRefs) s.size j = 0 := by
        unfold pc
        apply Finset.sum_eq_zero
        intro p _
        simp [act, resetRefs, ed]
      rw [this, cntF_append]
      simp only [resetRefs]
      omega
    · intro j _; simp [resetRefs]
  obtain ⟨m1, e1, hG1, mono1, mk1⟩ := markList_spec hs _ roots resetRefs _ hG0 hr
  simp only [e1, Option.bind_eq_bind, Option.bind_some]
  obtain ⟨hG2, mono2, _, mk2⟩ := markVars_spec hs _ _ s.vars m1 hG1 (by
    intro x hx
    obtain ⟨v, _, _, h⟩ := hv.var_ok x.1 x.2 hx
    exact ⟨v, h⟩)
  have hG2' : GI s (cntF (roots ++ prot)) (markVars m1 s.vars) (fun j => (fun _ => 0) j + cntF prot j) := by
    simpa using hG2
  obtain ⟨m3, e3, hG3, mono3, mk3⟩ := markList_spec hs _ prot _ _ hG2' hp
  simp only [e3, Option.bind_some]
  have hmx := markList_max _ _ _ e3
  have hm0 : ∀ k, k ≠ 0 → upd m3.mark 0 true k = m3.mark k := fun k hk => upd_ne _ _ hk
  have hr0 : ∀ k, k ≠ 0 → upd m3.rf 0 3 k = m3.rf k := fun k hk => upd_ne _ _ hk
  refine ⟨_, rfl, ?_, ?_, ?_, ?_, ?_, ?_, ?_⟩
  · intro p hp0 h
    simp only [hm0 p hp0] at h
    exact hG3.live p h
  · intro p n hp0 h e
    simp only [hm0 p hp0] at h
    obtain ⟨a, b⟩ := hG3.clos p n h e
    have aux : ∀ k, (k = 0 ∨ m3.mark k = true ∨ 0 < 0) → (k = 0 ∨ upd m3.mark 0 true k = true) := by
      intro k hk
      by_cases hk0 : k = 0
      · exact Or.inl hk0
      · rcases hk with hk | hk | hk
        · exact absurd hk hk0
        · right; rw [hm0 k hk0]; exact hk
        · omega
    exact ⟨aux _ a, aux _ b⟩
  · intro j hj
    simp only [hr0 j hj]
    have hact : act s ⟨upd m3.mark 0 true, upd m3.rf 0 3⟩ = act s m3 := by
      funext p
      by_cases hp0 : p = 0
      · subst hp0; simp [act, hs.tbl0]
      · simp only [act, hm0 p hp0]
    rw [hact]
    simpa using hG3.cnt j hj
  · intro j hj
    simp only [hm0 j hj, hr0 j hj]
    exact hG3.pos j hj
  · simp
  · intro x hx
    obtain ⟨v, _, _, h⟩ := hv.var_ok x.1 x.2 hx
    obtain ⟨n, e, _⟩ := var_sons hs h
    have h0 := idx_ne_zero hs e
    simp only [hm0 _ h0, hr0 _ h0]
    exact ⟨mono3 _ (mk2 x hx).1, hmx _ (mk2 x hx).2⟩
  · intro j hj hpos
    simp only [hm0 j hj]
    obtain ⟨f, hf, rfl⟩ := cntF_pos hpos
    rcases List.mem_append.1 hf with hf | hf
    · exact mono3 _ (mono2 _ ((mk1 f hf).resolve_left hj))
    · exact (mk3 f hf).resolve_left hj

/-! ### Sweep -/

theorem sweep_den {s : S} {ext : Nat → Nat} {m : MR} (hm : GI0 s ext m) {i : Nat} {g : BFun}
    (h : Den s.tbl i g) : (i = 0 ∨ m.mark i = true) → Den (sweep s m).tbl i g := by
  induction h with
  | zero => intro _; exact Den.zero
  | @node i n gl gr h0 e _ _ ihl ihr =>
    intro hi
    have hmi := hi.resolve_left h0
    obtain ⟨a, b⟩ := hm.clos i n h0 hmi e
    refine Den.node h0 ?_ (ihl a) (ihr b)
    simp [sweep, hmi, e]

theorem sweep_tbl {s : S} {m : MR} {i : Nat} {n : Node} (h : (sweep s m).tbl i = some n) :
    m.mark i = true ∧ s.tbl i = some n := by
  simp only [sweep] at h
  split at h
  · next hm => exact ⟨hm, h⟩
  · exact absurd h (by simp)

theorem sweep_denotes {s : S} {ext : Nat → Nat} {m : MR} (hm : GI0 s ext m) {f : F} {g : BFun}
    (h : Denotes s f g) (hf : f.idx = 0 ∨ m.mark f.idx = true) : Denotes (sweep s m) f g := by
  obtain ⟨a, ha, rfl⟩ := h
  exact ⟨a, sweep_den hm ha hf, rfl⟩

theorem sweep_chain {s : S} {ext : Nat → Nat} {m : MR} (hm : GI0 s ext m) {i : Nat} {vs : List Nat}
    (h : Chain s.tbl i vs) : (i = 0 ∨ m.mark i = true) → Chain (sweep s m).tbl i vs := by
  induction h with
  | nil => intro _; exact Chain.nil
  | @cons i n vs h0 e _ ih =>
    intro hi
    have hmi := hi.resolve_left h0
    obtain ⟨a, _⟩ := hm.clos i n h0 hmi e
    refine Chain.cons h0 ?_ (ih a)
    simp [sweep, hmi, e]

theorem sweep_sinv {s : S} (hs : SInv s) {ext : Nat → Nat} {m : MR} (hm : GI0 s ext m) :
    SInv (sweep s m) := by
  have hb : ∀ v j, Below s v j → (j = 0 ∨ m.mark j = true) → Below (sweep s m) v j := by
    intro v j h hj
    rcases h with h | ⟨n, e, h⟩
    · exact Or.inl h
    · have h0 := idx_ne_zero hs e
      refine Or.inr ⟨n, ?_, h⟩
      simp [sweep, hj.resolve_left h0, e]
  constructor
  · simp [sweep, hs.tbl0]
  · intro i
    simp only [sweep, List.mem_filter, hs.live_iff]
    by_cases h : m.mark i = true
    · simp [h]
    · simp [h]
  · exact hs.live_nodup.filter _
  · intro i hi
    simp only [sweep, List.mem_filter] at hi
    exact hs.live_lt i hi.1
  · intro i hi
    simp only [sweep, List.mem_append, List.mem_reverse, List.mem_filter] at hi
    rcases hi with ⟨h1, h2⟩ | h
    · have h0 : i ≠ 0 := by
        rintro rfl
        have := (hs.live_iff 0).1 h1
        rw [hs.tbl0] at this; exact absurd this (by simp)
      refine ⟨h0, hs.live_lt i h1, ?_⟩
      simp only [Bool.not_eq_true'] at h2
      simp [sweep, h2]
    · obtain ⟨a, b, c⟩ := hs.free_ok i h
      refine ⟨a, b, ?_⟩
      simp [sweep, c]
  · simp only [sweep]
    rw [List.nodup_append]
    refine ⟨List.nodup_reverse.2 (hs.live_nodup.filter _), hs.free_nodup, ?_⟩
    intro a ha b hb hab
    subst hab
    simp only [List.mem_reverse, List.mem_filter] at ha
    have h1 := (hs.live_iff a).1 ha.1
    rw [(hs.free_ok a hb).2.2] at h1
    exact absurd h1 (by simp)
  · exact hs.size_pos
  · intro i j n hi hj
    exact hs.uniq i j n (sweep_tbl hi).2 (sweep_tbl hj).2
  · intro i n h; exact hs.var_lt i n (sweep_tbl h).2
  · intro i n h
    obtain ⟨h1, h2⟩ := sweep_tbl h
    exact hb _ _ (hs.below_l i n h2) (hm.clos i n (idx_ne_zero hs h2) h1 h2).1
  · intro i n h
    obtain ⟨h1, h2⟩ := sweep_tbl h
    exact hb _ _ (hs.below_r i n h2) (hm.clos i n (idx_ne_zero hs h2) h1 h2).2
  · intro i n h; exact hs.reduced i n (sweep_tbl h).2
  · exact hs.ord_inj
  · exact hs.ord_lt

theorem sweep_vinv {s : S} (hv : VInv s) {ext : Nat → Nat} {m : MR} (hm : GI0 s ext m) :
    VInv (sweep s m) := by
  constructor
  · intro name f h
    obtain ⟨v, a, b, c⟩ := hv.var_ok name f h
    exact ⟨v, a, b, sweep_denotes hm c (Or.inr (hm.vars (name, f) h).1)⟩
  · intro v h
    obtain ⟨f, a, b⟩ := hv.var_all v h
    exact ⟨f, a, sweep_denotes hm b (Or.inr (hm.vars (_, f) (lookup_mem a)).1)⟩
  · exact hv.name_inj

theorem ref_mark {s : S} {ext : Nat → Nat} {m : MR} (hm : GI0 s ext m) (i : Nat) (h : 1 ≤ m.rf i) :
    i = 0 ∨ m.mark i = true := by
  by_cases h0 : i = 0
  · exact Or.inl h0
  · exact Or.inr ((hm.pos i h0).2 h)

theorem clean_inv {s : S} (hI : Inv s) {ext : Nat → Nat} {m : MR} (hm : GI0 s ext m) :
    Inv (cleanCache (sweep s m)) := by
  obtain ⟨hs, hc, hv⟩ := hI
  have h1 := sweep_sinv hs hm
  have h2 := sweep_vinv hv hm
  refine ⟨?_, ?_, ?_⟩
  · exact ⟨h1.tbl0, h1.live_iff, h1.live_nodup, h1.live_lt, h1.free_ok, h1.free_nodup,
      h1.size_pos, h1.uniq, h1.var_lt, h1.below_l, h1.below_r, h1.reduced, h1.ord_inj, h1.ord_lt⟩
  · intro e he
    simp only [cleanCache, sweep, List.mem_filter, Bool.and_eq_true] at he
    obtain ⟨he, ⟨ha, hb⟩, hr⟩ := he
    have ha := of_decide_eq_true ha
    have hb := of_decide_eq_true hb
    have hr := of_decide_eq_true hr
    have hE := hc e he
    have da : ∀ g, Denotes s e.a g → Denotes (cleanCache (sweep s m)) e.a g :=
      fun g h => sweep_denotes hm h (ref_mark hm _ ha)
    have db : ∀ g, Denotes s e.b g → Denotes (cleanCache (sweep s m)) e.b g :=
      fun g h => sweep_denotes hm h (ref_mark hm _ hb)
    have dr : ∀ g, Denotes s e.res g → Denotes (cleanCache (sweep s m)) e.res g :=
      fun g h => sweep_denotes hm h (ref_mark hm _ hr)
    unfold EntryOK at hE ⊢
    split
    · next h =>
      rw [if_pos h] at hE
      obtain ⟨ga, gb, x, y, z⟩ := hE
      exact ⟨ga, gb, da _ x, db _ y, dr _ z⟩
    · next h =>
      rw [if_neg h] at hE
      split
      · next h' =>
        rw [if_pos h'] at hE
        obtain ⟨g, vs, x, y, z⟩ := hE
        exact ⟨g, vs, da _ x, y, dr _ z⟩
      · next h' =>
        rw [if_neg h'] at hE
        obtain ⟨g, vs, x, y, z⟩ := hE
        exact ⟨g, vs, da _ x, sweep_chain hm y (ref_mark hm _ hb), dr _ z⟩
  · exact ⟨h2.var_ok, h2.var_all, h2.name_inj⟩

end Voss.Bdd
