import Verif.Gc.Dec
/-
Mark and sweep: what is reachable stays, with reference counts for exactly the references there are, and the
rest is returned.
-/
namespace Voss.Gc
open Finset
namespace Heap

/-- What marking goes on to from `a`. -/
def edges (h : Heap) (a : Nat) : List Nat :=
  match h.obj a with
  | .tab b t => h.tab b t
  | o => o.kids

/-- Marked nodes. -/
def marked (h : Heap) (a : Nat) : Prop := a ≠ 0 ∧ getMark (h.rc a) = 1

instance (h : Heap) (a : Nat) : Decidable (h.marked a) := by unfold marked; infer_instance

/-- References from marked nodes. -/
def mrefs (h : Heap) (n : Nat) : Int := ∑ a ∈ range (h.size + 1), if h.marked a then cnt (h.edges a) n else 0

/-- What the two bits say during marking: not visited, visited once, visited more than once or pinned. -/
def VFits (r : Nat) (k : Int) : Prop := r = 0 ∧ k ≤ 0 ∨ r = 2 ∧ k ≤ 1 ∨ r = 3

/-- The state during marking: `E n` visits of `n` from outside. -/
structure MOk (h₀ h : Heap) (E : Nat → Int) : Prop where
  size : h.size = h₀.size
  obj : h.obj = h₀.obj
  tab : h.tab = h₀.tab
  ntab : h.ntab = h₀.ntab
  vis : ∀ n, n ≠ 0 → VFits (h.rc n) (h.mrefs n + E n)
  cm : ∀ a t, h.marked a → h.obj a = .tab false t → h.cmark t = true

theorem VFits.mono {r : Nat} {k k' : Int} (hv : VFits r k) (hk : k' ≤ k) : VFits r k' := by
  unfold VFits at *; omega

theorem MOk.mono {h₀ h : Heap} {E E' : Nat → Int} (hm : MOk h₀ h E) (hE : ∀ n, n ≠ 0 → E' n ≤ E n) : MOk h₀ h E' :=
  ⟨hm.size, hm.obj, hm.tab, hm.ntab, fun n hn => (hm.vis n hn).mono (by have := hE n hn; omega), hm.cm⟩

/-- Not yet visited nodes. -/
def unmarked (h : Heap) : Nat := ((range (h.size + 1)).filter fun a => ¬ h.marked a).card

theorem MOk.marked_iff {h₀ h : Heap} {E : Nat → Int} (hm : MOk h₀ h E) {n : Nat} (hn : n ≠ 0) :
    h.marked n ↔ h.rc n ≠ 0 := by
  have := hm.vis n hn
  unfold marked
  rcases this with ⟨e, -⟩ | ⟨e, -⟩ | e <;> simp [e, getMark, hn]

theorem mrefs_congr {h h' : Heap} (hs : h'.size = h.size) (ho : h'.obj = h.obj) (ht : h'.tab = h.tab)
    (hm : ∀ a, h'.marked a ↔ h.marked a) (n : Nat) : h'.mrefs n = h.mrefs n := by
  unfold mrefs
  rw [hs]
  apply Finset.sum_congr rfl
  intro a _
  have : h'.edges a = h.edges a := by unfold edges; rw [ho, ht]
  simp only [hm a, this]

theorem MOk.pin {h₀ h : Heap} {E : Nat → Int} (hm : MOk h₀ h E) {n : Nat} (hn : n ≠ 0 → h.marked n) (c : Int) :
    MOk h₀ (h.setRc n 3) (fun m => E m + c * one n m) ∧ (∀ a, (h.setRc n 3).marked a ↔ h.marked a) := by
  have hmk : ∀ a, (h.setRc n 3).marked a ↔ h.marked a := by
    intro a
    by_cases e : a = n
    · subst e
      by_cases h0 : a = 0
      · simp [marked, h0]
      · simp only [hn h0, iff_true]
        simp [marked, h0, setRc, upd, getMark]
    · unfold marked; simp [setRc, upd, e]
  refine ⟨⟨hm.size, hm.obj, hm.tab, hm.ntab, ?_, ?_⟩, hmk⟩
  · intro m hm0
    rw [mrefs_congr (h := h) (h' := h.setRc n 3) rfl rfl rfl hmk]
    by_cases e : m = n
    · right; right; simp [setRc, upd, e]
    · have := hm.vis m hm0
      simpa [setRc, upd, e, one] using this
  · intro a t ha
    exact hm.cm a t ((hmk a).1 ha)

theorem MOk.pinAll {h₀ : Heap} {E : Nat → Int} (l : List Nat) : ∀ {h : Heap}, MOk h₀ h E → (∀ n ∈ l, n ≠ 0 → h.marked n) →
    MOk h₀ (h.pinAll l) E ∧ (∀ a, (h.pinAll l).marked a ↔ h.marked a) ∧ (∀ a, h.rc a = 3 → (h.pinAll l).rc a = 3) := by
  induction l with
  | nil => intro h hm _; exact ⟨hm, fun _ => Iff.rfl, fun _ e => e⟩
  | cons n l ih =>
    intro h hm hl
    obtain ⟨h1, h2⟩ := hm.pin (n := n) (hl n (by simp)) 0
    obtain ⟨h3, h4, h5⟩ := ih (h1.mono (E' := E) (fun m _ => by simp)) (fun m hm' h0 => (h2 m).2 (hl m (by simp [hm']) h0))
    refine ⟨h3, fun a => (h4 a).trans (h2 a), fun a ha => h5 a ?_⟩
    by_cases e : a = n
    · simp [setRc, upd, e]
    · simpa [setRc, upd, e] using ha

theorem MOk.visit {h₀ h : Heap} {E : Nat → Int} (hm : MOk h₀ h E) {n : Nat} (hn : n ≠ 0) (hs : n ≤ h.size) (hu : ¬ h.marked n)
    (c : Nat → Bool) (hc : ∀ t, h.cmark t = true → c t = true) (hc' : ∀ t, h.obj n = .tab false t → c t = true) :
    MOk h₀ { h.setMark n 1 with cmark := c } (fun m => E m + one n m - cnt (h.edges n) m) ∧
    (∀ a, ({ h.setMark n 1 with cmark := c } : Heap).marked a ↔ h.marked a ∨ a = n) ∧
    ({ h.setMark n 1 with cmark := c } : Heap).unmarked < h.unmarked ∧
    (∀ a, h.rc a = 3 → ({ h.setMark n 1 with cmark := c } : Heap).rc a = 3) := by
  have hr : h.rc n = 0 := by
    by_contra h0
    exact hu ((hm.marked_iff hn).2 h0)
  have hmk : ∀ a, ({ h.setMark n 1 with cmark := c } : Heap).marked a ↔ h.marked a ∨ a = n := by
    intro a
    by_cases e : a = n
    · subst e
      simp only [or_true, iff_true]
      simp [marked, hn, setMark, upd, hr, setMarkBits, getMark]
    · unfold marked; simp [setMark, upd, e]
  have hmr : ∀ m, ({ h.setMark n 1 with cmark := c } : Heap).mrefs m = h.mrefs m + cnt (h.edges n) m := by
    intro m
    have hmem : n ∈ range (h.size + 1) := by rw [mem_range]; omega
    unfold mrefs
    rw [show ({ h.setMark n 1 with cmark := c } : Heap).size = h.size from rfl]
    rw [← Finset.add_sum_erase _ _ hmem, ← Finset.add_sum_erase (range (h.size + 1)) _ hmem]
    rw [if_pos ((hmk n).2 (Or.inr rfl)), if_neg hu]
    have : ∑ x ∈ (range (h.size + 1)).erase n, (if ({ h.setMark n 1 with cmark := c } : Heap).marked x then
          cnt (({ h.setMark n 1 with cmark := c } : Heap).edges x) m else 0)
        = ∑ x ∈ (range (h.size + 1)).erase n, (if h.marked x then cnt (h.edges x) m else 0) := by
      apply Finset.sum_congr rfl
      intro x hx
      rw [Finset.mem_erase] at hx
      simp only [hmk x, hx.1, or_false]
      rfl
    rw [this]
    have : ({ h.setMark n 1 with cmark := c } : Heap).edges n = h.edges n := rfl
    rw [this]
    omega
  refine ⟨⟨hm.size, hm.obj, hm.tab, hm.ntab, ?_, ?_⟩, hmk, ?_, ?_⟩
  · intro m hm0
    rw [hmr]
    have h1 := hm.vis m hm0
    by_cases e : m = n
    · subst e
      right; left
      refine ⟨by simp [setMark, upd, hr, setMarkBits], ?_⟩
      rw [hr] at h1
      simp only [VFits] at h1
      simp only [one, if_true]
      omega
    · rw [show ({ h.setMark n 1 with cmark := c } : Heap).rc m = h.rc m by simp [setMark, upd, e]]
      exact h1.mono (by simp only [one, e, if_false]; omega)
  · intro a t ha ho
    rcases (hmk a).1 ha with h1 | h1
    · exact hc t (hm.cm a t h1 ho)
    · subst h1; exact hc' t ho
  · apply Finset.card_lt_card
    rw [Finset.ssubset_iff_of_subset]
    · refine ⟨n, ?_, ?_⟩
      · rw [mem_filter, mem_range]; exact ⟨by omega, hu⟩
      · rw [mem_filter]; exact fun hx => hx.2 ((hmk n).2 (Or.inr rfl))
    · intro x hx
      rw [mem_filter] at hx ⊢
      exact ⟨hx.1, fun e => hx.2 ((hmk x).2 (Or.inl e))⟩
  · intro a ha
    by_cases e : a = n
    · subst e; omega
    · simpa [setMark, upd, e] using ha

/-- The result of marking `n`: one more visit of `n`, and new marks only on nodes with `P`. -/
structure MarkRes (h₀ h h' : Heap) (E : Nat → Int) (P : Nat → Prop) (ns : List Nat) : Prop where
  ok : MOk h₀ h' (fun m => E m + cnt ns m)
  mono : ∀ m, h.marked m → h'.marked m
  new : ∀ m, h'.marked m → h.marked m ∨ P m
  self : ∀ n ∈ ns, n ≠ 0 → h'.marked n
  pinned : ∀ m, h.rc m = 3 → h'.rc m = 3

theorem unmarked_mono {h h' : Heap} (hs : h'.size = h.size) (hm : ∀ m, h.marked m → h'.marked m) :
    h'.unmarked ≤ h.unmarked := by
  apply Finset.card_le_card
  intro x hx
  rw [mem_filter] at hx ⊢
  exact ⟨by rw [← hs]; exact hx.1, fun e => hx.2 (hm x e)⟩

theorem foldMarkOk {h₀ : Heap} {P : Nat → Prop} {k : Nat}
    (ih : ∀ (h : Heap) (n : Nat) (E : Nat → Int), MOk h₀ h E → (n ≠ 0 → h₀.obj n ≠ .free) → (n ≠ 0 → P n) → h.unmarked < k →
      ∃ h', h.mark k n = some h' ∧ MarkRes h₀ h h' E P [n]) (l : List Nat) :
    ∀ (h : Heap) (E : Nat → Int), MOk h₀ h E → (∀ n ∈ l, n ≠ 0 → h₀.obj n ≠ .free) → (∀ n ∈ l, n ≠ 0 → P n) → h.unmarked < k →
      ∃ h', foldMark (mark k) h l = some h' ∧ MarkRes h₀ h h' E P l := by
  induction l with
  | nil =>
    intro h E hm _ _ _
    exact ⟨h, rfl, hm.mono (fun _ _ => by simp), fun _ => id, fun _ => Or.inl, by simp, fun _ => id⟩
  | cons n l ihl =>
    intro h E hm hf hP hk
    obtain ⟨h₁, e1, r1⟩ := ih h n E hm (hf n (by simp)) (hP n (by simp)) hk
    obtain ⟨h₂, e2, r2⟩ := ihl h₁ _ r1.ok (fun x hx => hf x (by simp [hx])) (fun x hx => hP x (by simp [hx]))
      (by have := unmarked_mono (r1.ok.size.trans hm.size.symm) r1.mono; omega)
    refine ⟨h₂, by rw [foldMark, e1]; exact e2, ?_, fun m hx => r2.mono m (r1.mono m hx), ?_, ?_, fun m hx => r2.pinned m (r1.pinned m hx)⟩
    · refine r2.ok.mono fun m _ => ?_
      rw [cnt_cons, cnt_cons, cnt_nil]; omega
    · intro m hx
      rcases r2.new m hx with h1 | h1
      · exact r1.new m h1
      · exact Or.inr h1
    · intro m hx h0
      rcases List.mem_cons.1 hx with e | e
      · subst e; exact r2.mono m (r1.self m (by simp) h0)
      · exact r2.self m e h0

theorem cnt_single (n m : Nat) : cnt [n] m = one n m := by rw [cnt_cons]; simp [one]

theorem markOk {h₀ : Heap} {P : Nat → Prop} (hb : h₀.Bounded)
    (hcl : ∀ a, h₀.obj a ≠ .free → ∀ m ∈ h₀.edges a, m ≠ 0 → h₀.obj m ≠ .free)
    (hP : ∀ a, P a → ∀ m ∈ h₀.edges a, m ≠ 0 → P m) (k : Nat) :
    ∀ (h : Heap) (n : Nat) (E : Nat → Int), MOk h₀ h E → (n ≠ 0 → h₀.obj n ≠ .free) → (n ≠ 0 → P n) → h.unmarked < k →
      ∃ h', h.mark k n = some h' ∧ MarkRes h₀ h h' E P [n] := by
  induction k with
  | zero => intro h n E _ _ _ hk; omega
  | succ k ih =>
    intro h n E hm hf hPn hk
    by_cases hn : n = 0
    · refine ⟨h, by simp [mark, hn], hm.mono fun m hm0 => ?_, fun _ => id, fun _ => Or.inl, by simp [hn], fun _ => id⟩
      rw [cnt_single]; simp [one, hn, hm0]
    · by_cases hmk : h.marked n
      · obtain ⟨p1, p2⟩ := hm.pin (n := n) (fun _ => hmk) 1
        refine ⟨h.setRc n 3, by rw [mark, if_neg hn, if_pos hmk.2], p1.mono fun m _ => by rw [cnt_single]; simp, fun m => (p2 m).2,
          fun m hx => Or.inl ((p2 m).1 hx), ?_, ?_⟩
        · intro m hx _
          simp only [List.mem_singleton] at hx
          subst hx; exact (p2 m).2 hmk
        · intro m hx
          by_cases e : m = n
          · simp [setRc, upd, e]
          · simpa [setRc, upd, e] using hx
      · have hg : ¬ getMark (h.rc n) = 1 := fun e => hmk ⟨hn, e⟩
        have hbn := (hb.obj n (hf hn)).2
        have hedge : h.edges n = h₀.edges n := by unfold edges; rw [hm.obj, hm.tab]
        -- the general case: visit `n`, then its edges
        have key : ∀ (c : Nat → Bool) (l : List Nat), (∀ t, h.cmark t = true → c t = true) →
            (∀ t, h.obj n = .tab false t → c t = true) → l = h.edges n →
            ∃ h', foldMark (mark k) { h.setMark n 1 with cmark := c } l = some h' ∧ MarkRes h₀ h h' E P [n] ∧
              ∀ x ∈ l, x ≠ 0 → h'.marked x := by
          intro c l hc hc' hl
          obtain ⟨v1, v2, v3, v4⟩ := hm.visit hn (by rw [hm.size]; exact hbn) hmk c hc hc'
          obtain ⟨h', e, r⟩ := foldMarkOk ih l _ _ v1
            (fun x hx => hcl n (hf hn) x (by rw [← hedge, ← hl]; exact hx))
            (fun x hx => hP n (hPn hn) x (by rw [← hedge, ← hl]; exact hx)) (by omega)
          refine ⟨h', e, ⟨?_, fun m hx => r.mono m ((v2 m).2 (Or.inl hx)), ?_, ?_, fun m hx => r.pinned m (v4 m hx)⟩, r.self⟩
          · refine r.ok.mono fun m _ => ?_
            rw [cnt_single, hl]; omega
          · intro m hx
            rcases r.new m hx with h1 | h1
            · rcases (v2 m).1 h1 with h2 | h2
              · exact Or.inl h2
              · subst h2; exact Or.inr (hPn hn)
            · exact Or.inr h1
          · intro m hx _
            simp only [List.mem_singleton] at hx
            subst hx
            exact r.mono m ((v2 m).2 (Or.inr rfl))
        have hplain : ∀ l, (∀ t, h.obj n ≠ .tab false t) → l = h.edges n →
            ∃ h', foldMark (mark k) (h.setMark n 1) l = some h' ∧ MarkRes h₀ h h' E P [n] ∧
              ∀ x ∈ l, x ≠ 0 → h'.marked x := by
          intro l ht hl
          exact key h.cmark l (fun _ => id) (fun t e => absurd e (ht t)) hl
        rw [mark, if_neg hn, if_neg hg]
        cases ho : h.obj n with
        | free => exact absurd (hm.obj ▸ ho) (hf hn)
        | lam v b =>
          obtain ⟨h', e, r, -⟩ := hplain [v, b] (by simp [ho]) (by simp [edges, ho, Obj.kids])
          exact ⟨h', e, r⟩
        | app v b =>
          obtain ⟨h', e, r, -⟩ := hplain [v, b] (by simp [ho]) (by simp [edges, ho, Obj.kids])
          exact ⟨h', e, r⟩
        | cons v b =>
          obtain ⟨h', e, r, -⟩ := hplain [v, b] (by simp [ho]) (by simp [edges, ho, Obj.kids])
          exact ⟨h', e, r⟩
        | leaf v =>
          obtain ⟨h', e, r, -⟩ := hplain [] (by simp [ho]) (by simp [edges, ho, Obj.kids])
          exact ⟨h', e, r⟩
        | tab b t =>
          cases b with
          | true =>
            obtain ⟨h', e, r, hl⟩ := hplain (h.tab true t) (by simp [ho]) (by simp [edges, ho])
            dsimp only
            rw [e]
            obtain ⟨p1, p2, p3⟩ := r.ok.pinAll (h.tab true t) hl
            exact ⟨_, rfl, p1, fun m hx => (p2 m).2 (r.mono m hx), fun m hx => r.new m ((p2 m).1 hx),
              fun m hx h0 => (p2 m).2 (r.self m hx h0), fun m hx => p3 m (r.pinned m hx)⟩
          | false =>
            obtain ⟨h', e, r, -⟩ := key (upd h.cmark t true) (h.tab false t)
              (fun i hi => by by_cases e : i = t <;> simp [upd, e, hi])
              (fun i hi => by rw [ho] at hi; cases hi; simp [upd]) (by simp [edges, ho])
            exact ⟨h', e, r⟩

theorem markRootsOk {h₀ : Heap} {P : Nat → Prop} (hb : h₀.Bounded)
    (hcl : ∀ a, h₀.obj a ≠ .free → ∀ m ∈ h₀.edges a, m ≠ 0 → h₀.obj m ≠ .free)
    (hP : ∀ a, P a → ∀ m ∈ h₀.edges a, m ≠ 0 → P m) {k : Nat} (rs : List (Nat × Bool)) :
    ∀ (h : Heap) (E : Nat → Int), MOk h₀ h E → (∀ r ∈ rs, r.1 ≠ 0 → h₀.obj r.1 ≠ .free) → (∀ r ∈ rs, r.1 ≠ 0 → P r.1) →
      h.unmarked < k →
      ∃ h', h.markRoots k rs = some h' ∧ MarkRes h₀ h h' E P (rs.map Prod.fst) ∧ ∀ n, (n, true) ∈ rs → h'.rc n = 3 := by
  induction rs with
  | nil =>
    intro h E hm _ _ _
    exact ⟨h, rfl, ⟨hm.mono (fun _ _ => by simp), fun _ => id, fun _ => Or.inl, by simp, fun _ => id⟩, by simp⟩
  | cons r rs ihl =>
    obtain ⟨n, pin⟩ := r
    intro h E hm hf hPr hk
    obtain ⟨h₁, e1, r1⟩ := markOk hb hcl hP k h n E hm (hf (n, pin) (by simp)) (hPr (n, pin) (by simp)) hk
    -- pinning
    have hpin : ∃ h₁', h₁' = (if pin then h₁.setRc n 3 else h₁) ∧ MarkRes h₀ h h₁' E P [n] ∧ (pin = true → h₁'.rc n = 3) := by
      refine ⟨_, rfl, ?_⟩
      cases pin with
      | false => exact ⟨r1, by simp⟩
      | true =>
        obtain ⟨p1, p2⟩ := r1.ok.pin (n := n) (r1.self n (by simp)) 0
        refine ⟨⟨p1.mono fun m _ => by simp, fun m hx => (p2 m).2 (r1.mono m hx), fun m hx => r1.new m ((p2 m).1 hx),
          fun m hx h0 => (p2 m).2 (r1.self m hx h0), fun m hx => ?_⟩, fun _ => by simp [setRc, upd]⟩
        by_cases e : m = n
        · simp [setRc, upd, e]
        · simpa [setRc, upd, e] using r1.pinned m hx
    obtain ⟨h₁', e1', r1', hp⟩ := hpin
    obtain ⟨h₂, e2, r2, hp2⟩ := ihl h₁' _ r1'.ok (fun x hx => hf x (by simp [hx])) (fun x hx => hPr x (by simp [hx]))
      (by have := unmarked_mono (r1'.ok.size.trans hm.size.symm) r1'.mono; omega)
    refine ⟨h₂, ?_, ⟨?_, fun m hx => r2.mono m (r1'.mono m hx), ?_, ?_, fun m hx => r2.pinned m (r1'.pinned m hx)⟩, ?_⟩
    · rw [markRoots, e1]
      dsimp only
      rw [← e1']
      exact e2
    · refine r2.ok.mono fun m _ => ?_
      rw [List.map_cons]
      dsimp only
      rw [cnt_cons, cnt_cons, cnt_nil]; omega
    · intro m hx
      rcases r2.new m hx with h1 | h1
      · exact r1'.new m h1
      · exact Or.inr h1
    · intro m hx h0
      rw [List.map_cons] at hx
      rcases List.mem_cons.1 hx with e | e
      · have e' : m = n := e
        rw [e'] at h0 ⊢
        exact r2.mono n (r1'.self n (by simp) h0)
      · exact r2.self m e h0
    · intro m hx
      rcases List.mem_cons.1 hx with e | e
      · cases e; exact r2.pinned _ (hp rfl)
      · exact hp2 m e

/-- The loop of `sweep`. -/
theorem sweep_fold (l : List Nat) : ∀ (h : Heap), l.Nodup →
    (∀ n, (l.foldl sweepNode h).obj n = if n ∈ l ∧ getMark (h.rc n) = 0 then .free else h.obj n) ∧
    (∀ n, (l.foldl sweepNode h).rc n = if n ∈ l ∧ getMark (h.rc n) ≠ 0 ∧ h.rc n ≠ 3 then setMarkBits (h.rc n) 0 else h.rc n) ∧
    (l.foldl sweepNode h).freeList = (l.filter fun n => getMark (h.rc n) = 0).reverse ++ h.freeList ∧
    (l.foldl sweepNode h).size = h.size ∧ (l.foldl sweepNode h).tab = h.tab ∧ (l.foldl sweepNode h).ntab = h.ntab ∧
    (l.foldl sweepNode h).cmark = h.cmark := by
  induction l with
  | nil => intro h _; simp
  | cons a l ih =>
    intro h hnd
    rw [List.nodup_cons] at hnd
    obtain ⟨i1, i2, i3, i4, i5, i6, i7⟩ := ih (sweepNode h a) hnd.2
    have hrc : ∀ n, n ≠ a → (sweepNode h a).rc n = h.rc n := by
      intro n e
      unfold sweepNode
      split
      · rfl
      · split
        · rfl
        · simp [setMark, upd, e]
    have hobj : ∀ n, (sweepNode h a).obj n = if n = a ∧ getMark (h.rc a) = 0 then .free else h.obj n := by
      intro n
      unfold sweepNode
      split
      · rename_i hg
        simp [upd, hg]
      · rename_i hg
        split <;> simp [setMark, hg]
    have hrca : (sweepNode h a).rc a = if getMark (h.rc a) ≠ 0 ∧ h.rc a ≠ 3 then setMarkBits (h.rc a) 0 else h.rc a := by
      unfold sweepNode
      split
      · rename_i hg; simp [hg]
      · rename_i hg
        split
        · rename_i h3; simp [h3]
        · rename_i h3; simp [hg, h3, setMark, upd]
    have hfl : (sweepNode h a).freeList = if getMark (h.rc a) = 0 then a :: h.freeList else h.freeList := by
      unfold sweepNode
      split
      · rfl
      · split <;> rfl
    have hrest : (sweepNode h a).size = h.size ∧ (sweepNode h a).tab = h.tab ∧ (sweepNode h a).ntab = h.ntab ∧
        (sweepNode h a).cmark = h.cmark := by
      unfold sweepNode
      split
      · exact ⟨rfl, rfl, rfl, rfl⟩
      · split <;> exact ⟨rfl, rfl, rfl, rfl⟩
    refine ⟨?_, ?_, ?_, ?_, ?_, ?_, ?_⟩
    · intro n
      rw [List.foldl_cons, i1 n, hobj n]
      by_cases e : n = a
      · subst e; simp [hnd.1]
      · rw [hrc n e]; simp [e]
    · intro n
      rw [List.foldl_cons, i2 n]
      by_cases e : n = a
      · subst e; simp only [hnd.1, false_and, if_false, List.mem_cons, true_or, true_and]; exact hrca
      · rw [hrc n e]; simp [e]
    · rw [List.foldl_cons, i3, hfl]
      have : (l.filter fun n => getMark ((sweepNode h a).rc n) = 0) = l.filter fun n => getMark (h.rc n) = 0 := by
        apply List.filter_congr
        intro x hx
        have : x ≠ a := fun e => hnd.1 (e ▸ hx)
        rw [hrc x this]
      rw [this, List.filter_cons]
      split
      · rename_i hg; simp [hg]
      · rename_i hg; simp [hg]
    · rw [List.foldl_cons, i4, hrest.1]
    · rw [List.foldl_cons, i5, hrest.2.1]
    · rw [List.foldl_cons, i6, hrest.2.2.1]
    · rw [List.foldl_cons, i7, hrest.2.2.2]

/-- The plain graph of a heap. -/
def graph (h : Heap) : Graph := ⟨h.obj, h.tab⟩

/-- What a collection does. -/
structure GcRes (h h' : Heap) (roots : List (Nat × Bool)) : Prop where
  size : h'.size = h.size
  ntab : h'.ntab = h.ntab
  live : ∀ n, Live h.graph (roots.map Prod.fst) n → h'.obj n = h.obj n
  dead : ∀ n, ¬ Live h.graph (roots.map Prod.fst) n → h'.obj n = .free
  tab : ∀ n b t, Live h.graph (roots.map Prod.fst) n → h.obj n = .tab b t → h'.tab b t = h.tab b t
  pinned : ∀ n, (n, true) ∈ roots → h'.rc n = 3
  counted : h'.Counted (fun m => cnt (roots.map Prod.fst) m)
  free : h'.FreeOk

theorem edges_mem {h : Heap} {a m : Nat} (hm : m ∈ h.edges a) :
    m ∈ (h.obj a).kids ∨ ∃ b t, h.obj a = .tab b t ∧ m ∈ h.tab b t := by
  unfold edges at hm
  split at hm
  · rename_i b t ho; exact Or.inr ⟨b, t, ho, hm⟩
  · exact Or.inl hm

/-- In a counted heap, references lead to nodes in use. -/
theorem Counted.closed {h : Heap} {ext : Nat → Int} (hc : h.Counted ext) (hext : ∀ n, 0 ≤ ext n) (hb : h.Bounded) (a : Nat) :
    ∀ m ∈ h.edges a, m ≠ 0 → h.obj m ≠ .free := by
  intro m hm h0
  have : 0 < h.refs m := by
    rcases edges_mem hm with h1 | ⟨b, t, h1, h2⟩
    · exact refs_pos_kid hb h1
    · exact refs_pos_tab hb h1 h2
  have h2 := hext m
  exact hc.notFree h0 (by omega)

theorem tabRefs_le_edges {h : Heap} (hb : h.Bounded) (b : Bool) (n : Nat) :
    h.tabRefs b n ≤ ∑ a ∈ range (h.size + 1), ∑ t ∈ range (h.ntab b), if h.obj a = .tab b t then cnt (h.tab b t) n else 0 := by
  rw [Finset.sum_comm]
  unfold tabRefs
  apply Finset.sum_le_sum
  intro t _
  split
  · rename_i hl
    obtain ⟨a, ha⟩ := (liveTab_iff hb b t).1 hl
    have hmem : a ∈ range (h.size + 1) := by
      rw [mem_range]; have := (hb.obj a (by rw [ha]; simp)).2; omega
    have := Finset.single_le_sum (f := fun a => if h.obj a = .tab b t then cnt (h.tab b t) n else 0)
      (fun i _ => by split; exacts [cnt_nonneg _ _, le_refl _]) hmem
    simpa [ha] using this
  · apply Finset.sum_nonneg
    intro i _
    split
    exacts [cnt_nonneg _ _, le_refl _]

theorem refs_le_edges {h : Heap} (hb : h.Bounded) (n : Nat) :
    h.refs n ≤ ∑ a ∈ range (h.size + 1), if h.obj a ≠ .free then cnt (h.edges a) n else 0 := by
  have h1 := tabRefs_le_edges hb true n
  have h2 := tabRefs_le_edges hb false n
  unfold refs nodeRefs
  refine le_trans (add_le_add (le_refl _) (add_le_add h1 h2)) ?_
  rw [← Finset.sum_add_distrib, ← Finset.sum_add_distrib]
  apply Finset.sum_le_sum
  intro a _
  cases ho : h.obj a with
  | tab b t =>
    have hbt := hb.tab a b t ho
    cases b with
    | true =>
      simp only [Obj.kids, cnt_nil, edges, ho]
      rw [Finset.sum_eq_single_of_mem t (by simpa using hbt) (by intro x _ hx; rw [if_neg]; simpa using fun e => hx e.symm)]
      simp
    | false =>
      simp only [Obj.kids, cnt_nil, edges, ho]
      rw [Finset.sum_eq_single_of_mem (s := range (h.ntab false)) t (by simpa using hbt)
        (by intro x _ hx; rw [if_neg]; simpa using fun e => hx e.symm)]
      simp
  | _ => simp [edges, ho, Obj.kids]

theorem live_edge {h : Heap} {roots : List Nat} {a m : Nat} (ha : Live h.graph roots a) (hm : m ∈ h.edges a) (h0 : m ≠ 0) :
    Live h.graph roots m := by
  rcases edges_mem hm with h1 | ⟨b, t, h1, h2⟩
  · exact Live.kid ha h1 h0
  · exact Live.tab ha h1 h2 h0

theorem gc_ok {h : Heap} {ext : Nat → Int} {k : Nat} {roots : List (Nat × Bool)} (hb : h.Bounded)
    (hc : h.Counted ext) (hext : ∀ n, 0 ≤ ext n) (hroots : ∀ n ∈ roots.map Prod.fst, n ≠ 0 → h.obj n ≠ .free)
    (hk : h.size + 1 < k) : ∃ h', h.gc k roots = some h' ∧ GcRes h h' roots := by
  classical
  have hnm : ∀ n, ¬ h.clear.marked n := by
    intro n hn
    have := hn.2
    simp [clear, getMark] at this
  have hm0 : MOk h h.clear (fun _ => 0) := by
    refine ⟨rfl, rfl, rfl, rfl, ?_, fun a t ha => absurd ha (hnm a)⟩
    intro n _
    left
    refine ⟨rfl, ?_⟩
    unfold mrefs
    simp only [hnm, if_false]
    simp
  have hu : h.clear.unmarked < k := by
    have : h.clear.unmarked ≤ h.size + 1 := by
      unfold unmarked
      exact (Finset.card_filter_le _ _).trans (by simp [clear])
    omega
  have hmem : ∀ r ∈ roots, r.1 ∈ roots.map Prod.fst := fun r hr => List.mem_map_of_mem hr
  obtain ⟨h₁, e1, r1, hp⟩ := markRootsOk (P := fun n => Live h.graph (roots.map Prod.fst) n) (k := k) hb
    (fun a _ => hc.closed hext hb a) (fun a ha m hm h0 => live_edge ha hm h0) roots h.clear _ hm0
    (fun r hr => hroots r.1 (hmem r hr)) (fun r hr h0 => Live.root (hmem r hr) h0) hu
  -- marked is live
  have hE : ∀ n, 0 ≤ cnt (roots.map Prod.fst) n := fun n => cnt_nonneg _ n
  have hedge : ∀ a, h₁.edges a = h.edges a := by intro a; unfold edges; rw [r1.ok.obj, r1.ok.tab]
  have hmk : ∀ n, h₁.marked n ↔ Live h.graph (roots.map Prod.fst) n := by
    intro n
    constructor
    · intro hx
      rcases r1.new n hx with h1 | h1
      · exact absurd h1 (hnm n)
      · exact h1
    · have hstep : ∀ a m, h₁.marked a → h.obj a ≠ .free → m ∈ h.edges a → m ≠ 0 → h₁.marked m := by
        intro a m ha hfa hm h0
        rw [r1.ok.marked_iff h0]
        have h2 := r1.ok.vis m h0
        intro e
        rw [e] at h2
        have hmem : a ∈ range (h₁.size + 1) := by
          rw [mem_range, r1.ok.size]; have := (hb.obj a hfa).2; omega
        have h3 := Finset.single_le_sum (f := fun a => if h₁.marked a then cnt (h₁.edges a) m else 0)
          (fun i _ => by split; exacts [cnt_nonneg _ _, le_refl _]) hmem
        simp only [ha, if_true, hedge] at h3
        have h4 := cnt_pos hm
        have h5 := hE m
        have h6 : h₁.mrefs m = ∑ a ∈ range (h₁.size + 1), if h₁.marked a then cnt (h.edges a) m else 0 := by
          unfold mrefs; simp only [hedge]
        simp only [VFits] at h2
        omega
      intro hl
      suffices h₁.marked n ∧ h.obj n ≠ .free from this.1
      induction hl with
      | root hr h0 => exact ⟨r1.self _ hr h0, hroots _ hr h0⟩
      | @kid a n ha hn h0 ih =>
        have : n ∈ h.edges a := by
          unfold edges
          have hn' : n ∈ (h.obj a).kids := hn
          cases ho : h.obj a <;> rw [ho] at hn' <;> simp_all [Obj.kids]
        exact ⟨hstep a n ih.1 ih.2 this h0, hc.closed hext hb a n this h0⟩
      | @tab a n b t ha ho hn h0 ih =>
        have : n ∈ h.edges a := by
          have ho' : h.obj a = .tab b t := ho
          unfold edges; rw [ho']; exact hn
        exact ⟨hstep a n ih.1 ih.2 this h0, hc.closed hext hb a n this h0⟩
  have hlive : ∀ n, Live h.graph (roots.map Prod.fst) n → n ≠ 0 ∧ h.obj n ≠ .free := by
    intro n hl
    refine ⟨((hmk n).2 hl).1, ?_⟩
    cases hl with
    | root hr h0 => exact hroots _ hr h0
    | @kid a n ha hn h0 =>
      refine hc.notFree h0 ?_
      have := refs_pos_kid hb (show n ∈ (h.obj a).kids from hn)
      have := hext n
      omega
    | @tab a n b t ha ho hn h0 =>
      refine hc.notFree h0 ?_
      have := refs_pos_tab hb (show h.obj a = .tab b t from ho) hn
      have := hext n
      omega
  -- sweeping
  have hgm : ∀ n, n ≠ 0 → (getMark (h₁.rc n) = 0 ↔ ¬ Live h.graph (roots.map Prod.fst) n) := by
    intro n h0
    rw [← hmk n, r1.ok.marked_iff h0]
    rcases r1.ok.vis n h0 with ⟨e, -⟩ | ⟨e, -⟩ | e <;> simp [e, getMark]
  obtain ⟨s1, s2, s3, s4, s5, s6, s7⟩ := sweep_fold (List.range' 1 h₁.size) { h₁.sweepCaches with freeList := [] }
    (List.nodup_range' (step := 1))
  have hin : ∀ n, n ∈ List.range' 1 h₁.size ↔ 1 ≤ n ∧ n ≤ h.size := by
    intro n; rw [List.mem_range'_1, r1.ok.size]; omega
  have hfin : h.gc k roots = some h₁.sweepCaches.sweep := by rw [gc, e1]
  have hdef : h₁.sweepCaches.sweep = (List.range' 1 h₁.size).foldl sweepNode { h₁.sweepCaches with freeList := [] } := rfl
  rw [← hdef] at s1 s2 s3 s4 s5 s6 s7
  generalize h₁.sweepCaches.sweep = h' at *
  have ho : ∀ n, h'.obj n = if 1 ≤ n ∧ n ≤ h.size ∧ ¬ Live h.graph (roots.map Prod.fst) n then .free else h.obj n := by
    intro n
    rw [s1 n]
    rw [show ({ h₁.sweepCaches with freeList := [] } : Heap).obj n = h.obj n by rw [← r1.ok.obj]; rfl]
    refine if_congr ?_ rfl rfl
    rw [show ({ h₁.sweepCaches with freeList := [] } : Heap).rc n = h₁.rc n from rfl, hin]
    by_cases h0 : n = 0
    · simp [h0]
    · rw [hgm n h0]; simp only [and_assoc]
  have hobjl : ∀ n, Live h.graph (roots.map Prod.fst) n → h'.obj n = h.obj n := by
    intro n hl; rw [ho n, if_neg]; exact fun e => e.2.2 hl
  have hobjd : ∀ n, ¬ Live h.graph (roots.map Prod.fst) n → h'.obj n = .free := by
    intro n hl
    rw [ho n]
    split
    · rfl
    · rename_i hx
      by_contra hne
      have := hb.obj n hne
      exact hx ⟨this.1, this.2, hl⟩
  have hsize : h'.size = h.size := s4.trans r1.ok.size
  have hntab : h'.ntab = h.ntab := s6.trans r1.ok.ntab
  have htab : ∀ n b t, Live h.graph (roots.map Prod.fst) n → h.obj n = .tab b t → h'.tab b t = h.tab b t := by
    intro n b t hl hn
    rw [s5]
    show (if b = false ∧ t < h₁.ntab false ∧ h₁.cmark t = false then [] else h₁.tab b t) = _
    rw [if_neg, r1.ok.tab]
    rintro ⟨rfl, -, hcm⟩
    have := r1.ok.cm n t ((hmk n).2 hl) (by rw [r1.ok.obj]; exact hn)
    rw [this] at hcm; cases hcm
  have hb' : h'.Bounded := by
    constructor
    · intro n hn
      rw [hsize]
      refine hb.obj n ?_
      rw [ho n] at hn
      split at hn
      · exact absurd rfl hn
      · exact hn
    · intro n b t hn
      rw [hntab]
      rw [ho n] at hn
      split at hn
      · cases hn
      · exact hb.tab n b t hn
  refine ⟨h', hfin, hsize, hntab, hobjl, hobjd, htab, ?_, ?_, ?_⟩
  · intro n hn
    rw [s2 n, show ({ h₁.sweepCaches with freeList := [] } : Heap).rc n = h₁.rc n from rfl, hp n hn]
    simp
  · intro n h0
    -- references left
    have hle : h'.refs n ≤ h₁.mrefs n := by
      refine le_trans (refs_le_edges hb' n) ?_
      unfold mrefs
      rw [hsize, r1.ok.size]
      apply Finset.sum_le_sum
      intro a _
      split
      · rename_i hne
        have hl : Live h.graph (roots.map Prod.fst) a := by
          by_contra hd; exact hne (hobjd a hd)
        rw [if_pos ((hmk a).2 hl), hedge]
        have : h'.edges a = h.edges a := by
          unfold edges
          rw [hobjl a hl]
          cases hoa : h.obj a with
          | tab b t => exact htab a b t hl hoa
          | _ => rfl
        rw [this]
      · split
        exacts [cnt_nonneg _ _, le_refl _]
    have hv := r1.ok.vis n h0
    rw [Int.zero_add] at hv
    by_cases hl : Live h.graph (roots.map Prod.fst) n
    · have hne := hlive n hl
      have hbn := hb.obj n hne.2
      unfold Fits
      rw [if_neg (by rw [hobjl n hl]; exact hne.2)]
      have hrc : h'.rc n = if h₁.rc n = 2 then 0 else h₁.rc n := by
        rw [s2 n, show ({ h₁.sweepCaches with freeList := [] } : Heap).rc n = h₁.rc n from rfl]
        have hnin := (hin n).2 hbn
        rcases hv with ⟨e, -⟩ | ⟨e, -⟩ | e
        · exact absurd e ((r1.ok.marked_iff h0).1 ((hmk n).2 hl))
        · simp only [e, hnin, true_and]; simp [getMark, setMarkBits]
        · simp [e]
      rw [hrc]
      rcases hv with ⟨e, -⟩ | ⟨e, hle2⟩ | e
      · exact absurd e ((r1.ok.marked_iff h0).1 ((hmk n).2 hl))
      · simp [e]; omega
      · simp [e]
    · unfold Fits
      rw [if_pos (hobjd n hl)]
      have : h₁.rc n = 0 := by
        by_contra hx
        exact hl ((hmk n).1 ((r1.ok.marked_iff h0).2 hx))
      rcases hv with ⟨-, hv⟩ | ⟨e, -⟩ | e
      · dsimp only; omega
      · omega
      · omega
  · have hfl : h'.freeList = ((List.range' 1 h₁.size).filter fun n => getMark (h₁.rc n) = 0).reverse := by
      rw [s3]
      exact List.append_nil _
    refine ⟨?_, ?_⟩
    · rw [hfl, List.nodup_reverse]
      exact (List.nodup_range' (step := 1)).filter _
    · intro n
      rw [hfl, List.mem_reverse, List.mem_filter, hin, hsize]
      constructor
      · rintro ⟨hn, hg⟩
        exact ⟨hn.1, hn.2, hobjd n ((hgm n (by omega)).1 (by simpa using hg))⟩
      · rintro ⟨hn1, hn2, hfree⟩
        refine ⟨⟨hn1, hn2⟩, ?_⟩
        have := (hgm n (by omega)).2 (fun hl => (hlive n hl).2 ((hobjl n hl).symm.trans hfree))
        simpa using this

theorem GcRes.shrink {h h' : Heap} {roots : List (Nat × Bool)} (hg : GcRes h h' roots) (n : Nat) :
    h'.obj n = h.obj n ∨ h'.obj n = .free := by
  by_cases hl : Live h.graph (roots.map Prod.fst) n
  · exact Or.inl (hg.live n hl)
  · exact Or.inr (hg.dead n hl)

end Heap
end Voss.Gc
