import Verif.Bexpr.NodeLemmas
/- Garbage collection keeps what can be reached, frees the rest and keeps the invariant. -/
namespace Voss.Bexpr

theorem reach_live {s : St} (h : Inv s) {i j : Nat} (hr : Reach s i j) : s.live i → s.live j := by
  induction hr with
  | refl => exact id
  | left h1 _ ih => intro _; exact ih (h.kids _ _ _ h1).1.1
  | right h1 _ ih => intro _; exact ih (h.kids _ _ _ h1).2.1

/-- What one call of `mark` does to the set of marked records. -/
theorem markNode_spec {s : St} (h : Inv s) : ∀ fuel i m, (s.nd i).sat < fuel →
    (∀ x ∈ m, x ∈ markNode s fuel i m) ∧ i ∈ markNode s fuel i m ∧
      ∀ x ∈ markNode s fuel i m, x ∈ m ∨ (Reach s i x ∧
        ∀ l r, (s.nd x).node = .and l r → l.idx ∈ markNode s fuel i m ∧ r.idx ∈ markNode s fuel i m) := by
  intro fuel
  induction fuel with
  | zero => intro i m hf; omega
  | succ fuel ih =>
    intro i m hf
    simp only [markNode]
    split
    · rename_i hi; exact ⟨fun x hx => hx, hi, fun x hx => .inl hx⟩
    · rename_i hi
      cases hd : (s.nd i).node with
      | and l r =>
        simp only
        obtain ⟨⟨_, _, k1⟩, _, _, k2⟩ := h.kids i l r hd
        obtain ⟨a1, a2, a3⟩ := ih l.idx (i :: m) (by omega)
        obtain ⟨b1, b2, b3⟩ := ih r.idx (markNode s fuel l.idx (i :: m)) (by omega)
        refine ⟨fun x hx => b1 x (a1 x (by simp [hx])), b1 i (a1 i (by simp)), fun x hx => ?_⟩
        rcases b3 x hx with hx | ⟨hx1, hx2⟩
        · rcases a3 x hx with hx | ⟨hx1, hx2⟩
          · rcases List.mem_cons.1 hx with rfl | hx
            · refine .inr ⟨.refl _, fun l' r' he => ?_⟩
              rw [hd] at he
              cases he
              exact ⟨b1 _ a2, b2⟩
            · exact .inl hx
          · refine .inr ⟨.left hd hx1, fun l' r' he => ?_⟩
            exact ⟨b1 _ (hx2 l' r' he).1, b1 _ (hx2 l' r' he).2⟩
        · exact .inr ⟨.right hd hx1, hx2⟩
      | free =>
        refine ⟨fun x hx => by simp [hx], by simp, fun x hx => ?_⟩
        rcases List.mem_cons.1 hx with rfl | hx
        · exact .inr ⟨.refl _, fun l r he => by rw [hd] at he; cases he⟩
        · exact .inl hx
      | one =>
        refine ⟨fun x hx => by simp [hx], by simp, fun x hx => ?_⟩
        rcases List.mem_cons.1 hx with rfl | hx
        · exact .inr ⟨.refl _, fun l r he => by rw [hd] at he; cases he⟩
        · exact .inl hx
      | var n =>
        refine ⟨fun x hx => by simp [hx], by simp, fun x hx => ?_⟩
        rcases List.mem_cons.1 hx with rfl | hx
        · exact .inr ⟨.refl _, fun l r he => by rw [hd] at he; cases he⟩
        · exact .inl hx

theorem markFold {s : St} (h : Inv s) (es : List Edge) : ∀ m,
    (∀ x ∈ m, x ∈ es.foldl (fun m e => markNode s ((s.nd e.idx).sat + 1) e.idx m) m) ∧
    (∀ e ∈ es, e.idx ∈ es.foldl (fun m e => markNode s ((s.nd e.idx).sat + 1) e.idx m) m) ∧
    ∀ x ∈ es.foldl (fun m e => markNode s ((s.nd e.idx).sat + 1) e.idx m) m, x ∈ m ∨
      ((∃ e ∈ es, Reach s e.idx x) ∧ ∀ l r, (s.nd x).node = .and l r →
        l.idx ∈ es.foldl (fun m e => markNode s ((s.nd e.idx).sat + 1) e.idx m) m ∧
        r.idx ∈ es.foldl (fun m e => markNode s ((s.nd e.idx).sat + 1) e.idx m) m) := by
  induction es with
  | nil => intro m; exact ⟨fun x hx => hx, by simp, fun x hx => .inl hx⟩
  | cons e es ih =>
    intro m
    simp only [List.foldl_cons]
    obtain ⟨a1, a2, a3⟩ := markNode_spec h ((s.nd e.idx).sat + 1) e.idx m (by omega)
    obtain ⟨b1, b2, b3⟩ := ih (markNode s ((s.nd e.idx).sat + 1) e.idx m)
    refine ⟨fun x hx => b1 x (a1 x hx), ?_, fun x hx => ?_⟩
    · intro e' he'
      rcases List.mem_cons.1 he' with rfl | he'
      · exact b1 _ a2
      · exact b2 e' he'
    · rcases b3 x hx with hx | ⟨⟨e', he', hx1⟩, hx2⟩
      · rcases a3 x hx with hx | ⟨hx1, hx2⟩
        · exact .inl hx
        · refine .inr ⟨⟨e, by simp, hx1⟩, fun l r hd => ?_⟩
          exact ⟨b1 _ (hx2 l r hd).1, b1 _ (hx2 l r hd).2⟩
      · exact .inr ⟨⟨e', by simp [he'], hx1⟩, hx2⟩

/-- The marked records: exactly those reachable from the roots or the constant. -/
theorem mem_markRoots {s : St} (h : Inv s) (roots : List Edge) (x : Nat) :
    x ∈ markRoots s roots ↔ x = 0 ∨ ∃ e ∈ roots, Reach s e.idx x := by
  obtain ⟨_, a2, a3⟩ := markFold h (roots ++ [bF, bT]) []
  have hcl : ∀ i j, Reach s i j → i ∈ markRoots s roots → j ∈ markRoots s roots := by
    intro i j hr
    induction hr with
    | refl => exact id
    | left h1 _ ih =>
      intro hi
      rcases a3 _ hi with h2 | ⟨_, h2⟩
      · simp at h2
      · exact ih (h2 _ _ h1).1
    | right h1 _ ih =>
      intro hi
      rcases a3 _ hi with h2 | ⟨_, h2⟩
      · simp at h2
      · exact ih (h2 _ _ h1).2
  constructor
  · intro hx
    rcases a3 x hx with h1 | ⟨⟨e, he, hr⟩, _⟩
    · simp at h1
    · rcases List.mem_append.1 he with he | he
      · exact .inr ⟨e, he, hr⟩
      · have he0 : e.idx = 0 := by
          simp only [List.mem_cons, List.not_mem_nil, or_false] at he
          rcases he with rfl | rfl <;> rfl
        left
        rw [he0] at hr
        cases hr with
        | refl => rfl
        | left h1 _ => rw [h.root.1] at h1; cases h1
        | right h1 _ => rw [h.root.1] at h1; cases h1
  · rintro (rfl | ⟨e, he, hr⟩)
    · exact a2 bT (by simp)
    · exact hcl _ _ hr (a2 e (by simp [he]))

theorem markRoots_kids {s : St} (h : Inv s) (roots : List Edge) {x : Nat} {l r : Edge}
    (hx : x ∈ markRoots s roots) (hd : (s.nd x).node = .and l r) :
    l.idx ∈ markRoots s roots ∧ r.idx ∈ markRoots s roots := by
  obtain ⟨_, _, a3⟩ := markFold h (roots ++ [bF, bT]) []
  rcases a3 x hx with h1 | ⟨_, h1⟩
  · simp at h1
  · exact h1 l r hd

theorem insertSig_mem {sg : Nat → BitVec 64} {i : Nat} : ∀ {chs : List (List Nat)} {ch : List Nat},
    ch ∈ insertSig sg i chs →
      ch ∈ chs ∨ ch = [i] ∨ ∃ k ks, (k :: ks) ∈ chs ∧ sg k = sg i ∧ ch = k :: i :: ks := by
  intro chs
  induction chs with
  | nil => intro ch h; simp [insertSig] at h; exact .inr (.inl h)
  | cons c chs ih =>
    intro ch h
    have tail : ch ∈ insertSig sg i chs →
        ch ∈ c :: chs ∨ ch = [i] ∨ ∃ k ks, (k :: ks) ∈ c :: chs ∧ sg k = sg i ∧ ch = k :: i :: ks := by
      intro h
      rcases ih h with h | h | ⟨k, ks, h1, h2⟩
      · exact .inl (by simp [h])
      · exact .inr (.inl h)
      · exact .inr (.inr ⟨k, ks, by simp [h1], h2⟩)
    cases c with
    | nil =>
      simp only [insertSig, List.mem_cons] at h
      rcases h with h | h
      · exact .inl (by simp [h])
      · exact tail h
    | cons k ks =>
      simp only [insertSig] at h
      split at h
      · rename_i hk
        simp only [List.mem_cons] at h
        rcases h with h | h
        · exact .inr (.inr ⟨k, ks, by simp, hk, h⟩)
        · exact .inl (by simp [h])
      · simp only [List.mem_cons] at h
        rcases h with h | h
        · exact .inl (by simp [h])
        · exact tail h

theorem delUniq_mem {s : St} {n : Node} : ∀ {us : List Nat}, us.Nodup →
    (∀ i ∈ us, ∀ j ∈ us, (s.nd i).node = (s.nd j).node → i = j) → ∀ x,
    x ∈ delUniq s n us ↔ x ∈ us ∧ (s.nd x).node ≠ n := by
  intro us
  induction us with
  | nil => intro _ _ x; simp [delUniq]
  | cons k ks ih =>
    intro hn hinj x
    have hn' := List.nodup_cons.1 hn
    simp only [delUniq]
    split
    · rename_i hk
      constructor
      · intro hx
        refine ⟨by simp [hx], fun he => ?_⟩
        have := hinj x (by simp [hx]) k (by simp) (by rw [he, hk])
        subst this
        exact hn'.1 hx
      · rintro ⟨hx, he⟩
        rcases List.mem_cons.1 hx with rfl | hx
        · exact absurd hk he
        · exact hx
    · rename_i hk
      rw [List.mem_cons, ih hn'.2 (fun i hi j hj => hinj i (by simp [hi]) j (by simp [hj])), List.mem_cons]
      constructor
      · rintro (rfl | ⟨h1, h2⟩)
        · exact ⟨.inl rfl, hk⟩
        · exact ⟨.inr h1, h2⟩
      · rintro ⟨rfl | h1, h2⟩
        · exact .inl rfl
        · exact .inr ⟨h1, h2⟩

theorem delUniq_nodup {s : St} {n : Node} : ∀ {us : List Nat}, us.Nodup → (delUniq s n us).Nodup := by
  intro us
  induction us with
  | nil => intro h; exact h
  | cons k ks ih =>
    intro hn
    have hn' := List.nodup_cons.1 hn
    simp only [delUniq]
    split
    · exact hn'.2
    · refine List.nodup_cons.2 ⟨fun hm => hn'.1 ?_, ih hn'.2⟩
      have : ∀ (us : List Nat) x, x ∈ delUniq s n us → x ∈ us := by
        intro us
        induction us with
        | nil => intro x hx; exact hx
        | cons a as ih =>
          intro x hx
          simp only [delUniq] at hx
          split at hx
          · simp [hx]
          · rcases List.mem_cons.1 hx with rfl | hx
            · simp
            · simp [ih x hx]
      exact this ks k hm

/-- The state of the sweep when the records below `k` have been visited. -/
structure Swept (s : St) (M : List Nat) (k : Nat) (t : St) : Prop where
  len : t.heap.length = s.heap.length
  nd : ∀ j, t.nd j = if j < k ∧ j ∉ M then emptyRec else s.nd j
  uniq : ∀ j, j ∈ t.uniq ↔ j ∈ s.uniq ∧ (j < k → j ∈ M)
  nodup : t.uniq.Nodup
  free : t.freeL.Nodup ∧ ∀ j, j ∈ t.freeL ↔ j < k ∧ j ∉ M
  sigs : ∀ ch ∈ t.sigs, ∀ x ∈ ch, (x < k ∧ x ∈ M) ∧ ∀ y ∈ ch, (s.nd y).sig = (s.nd x).sig
  rest : t.nvars = s.nvars ∧ t.clauses = s.clauses

theorem swept_step {s : St} (h : Inv s) {M : List Nat} (hM : ∀ x ∈ M, s.live x) {k : Nat}
    (hk : k < s.heap.length) {t : St} (ht : Swept s M k t) : Swept s M (k + 1) (sweepStep M t k) := by
  have hkk : t.nd k = s.nd k := by rw [ht.nd]; simp
  unfold sweepStep
  split
  · rename_i hm
    refine ⟨ht.len, ?_, ?_, ht.nodup, ?_, ?_, ht.rest⟩
    · intro j
      show t.nd j = _
      rw [ht.nd]
      by_cases hj : j = k
      · subst hj; simp [hm]
      · have : j < k + 1 ↔ j < k := by omega
        simp only [this]
    · intro j
      show j ∈ t.uniq ↔ _
      rw [ht.uniq]
      constructor
      · rintro ⟨h1, h2⟩
        refine ⟨h1, fun hj => ?_⟩
        by_cases hjk : j = k
        · subst hjk; exact hm
        · exact h2 (by omega)
      · rintro ⟨h1, h2⟩; exact ⟨h1, fun hj => h2 (by omega)⟩
    · refine ⟨ht.free.1, fun j => ?_⟩
      show j ∈ t.freeL ↔ _
      rw [ht.free.2]
      constructor
      · rintro ⟨h1, h2⟩; exact ⟨by omega, h2⟩
      · rintro ⟨h1, h2⟩
        refine ⟨?_, h2⟩
        by_cases hjk : j = k
        · subst hjk; exact absurd hm h2
        · omega
    · intro ch hch x hx
      have hsg : ∀ y, y ∈ M → (t.nd y).sig = (s.nd y).sig := by
        intro y hy; rw [ht.nd]; simp [hy]
      rcases insertSig_mem hch with h1 | h1 | ⟨k', ks, h1, h2, h3⟩
      · obtain ⟨⟨a1, a2⟩, a3⟩ := ht.sigs ch h1 x hx
        exact ⟨⟨by omega, a2⟩, a3⟩
      · subst h1
        simp only [List.mem_singleton] at hx
        subst hx
        exact ⟨⟨by omega, hm⟩, by simp⟩
      · have hall := ht.sigs _ h1
        have hk' := hall k' (by simp)
        rw [hsg k' hk'.1.2, hsg k hm] at h2
        have hsame : ∀ y ∈ ch, (s.nd y).sig = (s.nd k').sig := by
          intro y hy
          subst h3
          simp only [List.mem_cons] at hy
          rcases hy with rfl | rfl | hy
          · rfl
          · exact h2.symm
          · exact hk'.2 y (by simp [hy])
        refine ⟨?_, fun y hy => by rw [hsame y hy, hsame x hx]⟩
        subst h3
        simp only [List.mem_cons] at hx
        rcases hx with rfl | rfl | hx
        · exact ⟨by omega, hk'.1.2⟩
        · exact ⟨by omega, hm⟩
        · have := hall x (by simp [hx])
          exact ⟨by omega, this.1.2⟩
  · rename_i hm
    split
    · rename_i hfr
      rw [hkk] at hfr
      refine ⟨ht.len, ?_, ?_, ht.nodup, ?_, ?_, ht.rest⟩
      · intro j
        show t.nd j = _
        rw [ht.nd]
        by_cases hj : j = k
        · subst hj
          simp only [Nat.lt_irrefl, false_and, if_false, Nat.lt_succ_self, true_and]
          rw [if_pos hm]
          -- a free record was cleared before
          exact h.empty j fun hl => hl hfr
        · have : j < k + 1 ↔ j < k := by omega
          simp only [this]
      · intro j
        show j ∈ t.uniq ↔ _
        rw [ht.uniq]
        constructor
        · rintro ⟨h1, h2⟩
          refine ⟨h1, fun hj => ?_⟩
          by_cases hjk : j = k
          · subst hjk; exact absurd hfr ((h.uniq j).1 h1).1
          · exact h2 (by omega)
        · rintro ⟨h1, h2⟩; exact ⟨h1, fun hj => h2 (by omega)⟩
      · refine ⟨List.nodup_cons.2 ⟨fun hc => ?_, ht.free.1⟩, fun j => ?_⟩
        · have := (ht.free.2 k).1 hc; omega
        · show j ∈ k :: t.freeL ↔ _
          rw [List.mem_cons, ht.free.2]
          constructor
          · rintro (rfl | ⟨h1, h2⟩)
            · exact ⟨by omega, hm⟩
            · exact ⟨by omega, h2⟩
          · rintro ⟨h1, h2⟩
            by_cases hjk : j = k
            · exact .inl hjk
            · exact .inr ⟨by omega, h2⟩
      · intro ch hch x hx
        obtain ⟨⟨a1, a2⟩, a3⟩ := ht.sigs ch hch x hx
        exact ⟨⟨by omega, a2⟩, a3⟩
    · rename_i hnf
      rw [hkk] at hnf
      have huni : ∀ i ∈ t.uniq, ∀ j ∈ t.uniq, (t.nd i).node = (t.nd j).node → i = j := by
        intro i hi j hj he
        obtain ⟨i1, i2⟩ := (ht.uniq i).1 hi
        obtain ⟨j1, j2⟩ := (ht.uniq j).1 hj
        rw [ht.nd, ht.nd, if_neg (by rintro ⟨a, b⟩; exact b (i2 a)), if_neg (by rintro ⟨a, b⟩; exact b (j2 a))] at he
        exact h.inj i j ((h.uniq i).1 i1).1 he
      refine ⟨by simp [ht.len], ?_, ?_, delUniq_nodup ht.nodup, ?_, ?_, ht.rest⟩
      · intro j
        have hset : ∀ u : St, u.heap = t.heap.set k emptyRec → u.nd j = if j = k then emptyRec else t.nd j := by
          intro u hu
          unfold St.nd
          rw [hu]
          by_cases hj : j = k
          · subst hj; simp [ht.len, hk]
          · simp [hj, Ne.symm hj]
        rw [hset _ rfl, ht.nd]
        by_cases hj : j = k
        · subst hj; simp [hm]
        · have : j < k + 1 ↔ j < k := by omega
          simp only [this, if_neg hj]
      · intro j
        show j ∈ delUniq t (t.nd k).node t.uniq ↔ _
        rw [delUniq_mem ht.nodup huni, ht.uniq, hkk]
        constructor
        · rintro ⟨⟨h1, h2⟩, h3⟩
          refine ⟨h1, fun hj => ?_⟩
          by_cases hjk : j = k
          · subst hjk; rw [hkk] at h3; exact absurd rfl h3
          · exact h2 (by omega)
        · rintro ⟨h1, h2⟩
          refine ⟨⟨h1, fun hj => h2 (by omega)⟩, fun he => ?_⟩
          rw [ht.nd, if_neg (by rintro ⟨a, b⟩; exact b (h2 (by omega)))] at he
          have := h.inj j k ((h.uniq j).1 h1).1 he
          subst this
          exact hm (h2 (by omega))
      · refine ⟨List.nodup_cons.2 ⟨fun hc => ?_, ht.free.1⟩, fun j => ?_⟩
        · have := (ht.free.2 k).1 hc; omega
        · show j ∈ k :: t.freeL ↔ _
          rw [List.mem_cons, ht.free.2]
          constructor
          · rintro (rfl | ⟨h1, h2⟩)
            · exact ⟨by omega, hm⟩
            · exact ⟨by omega, h2⟩
          · rintro ⟨h1, h2⟩
            by_cases hjk : j = k
            · exact .inl hjk
            · exact .inr ⟨by omega, h2⟩
      · intro ch hch x hx
        obtain ⟨⟨a1, a2⟩, a3⟩ := ht.sigs ch hch x hx
        exact ⟨⟨by omega, a2⟩, a3⟩

theorem swept_all {s : St} (h : Inv s) {M : List Nat} (hM : ∀ x ∈ M, s.live x) : ∀ k, k ≤ s.heap.length →
    Swept s M k ((List.range k).foldl (sweepStep M) { s with freeL := [], sigs := [] }) := by
  intro k
  induction k with
  | zero =>
    intro _
    refine ⟨rfl, fun j => by simp; rfl, fun j => by simp, h.nodup, ⟨by simp, by simp⟩, by simp, rfl, rfl⟩
  | succ k ih =>
    intro hk
    rw [List.range_succ, List.foldl_append]
    exact swept_step h hM (by omega) (ih (by omega))

/-- Collection: the invariant, the surviving records and the free list. -/
theorem beClean_spec {s : St} (h : Inv s) {roots : List Edge} (hr : ∀ e ∈ roots, s.live e.idx) :
    Inv (beClean s roots) ∧
    (∀ j, (beClean s roots).nd j = if j ∈ markRoots s roots then s.nd j else emptyRec) ∧
    (∀ j, j ∈ (beClean s roots).freeL ↔ j < s.heap.length ∧ j ∉ markRoots s roots) := by
  obtain ⟨M, hMe⟩ : ∃ M, M = markRoots s roots := ⟨_, rfl⟩
  have hM : ∀ x ∈ M, s.live x := by
    intro x hx
    rw [hMe] at hx
    rcases (mem_markRoots h roots x).1 hx with rfl | ⟨e, he, hre⟩
    · unfold St.live; rw [h.root.1]; simp
    · exact reach_live h hre (hr e he)
  have hsw := swept_all h hM s.heap.length (Nat.le_refl _)
  have ht : beClean s roots = (List.range s.heap.length).foldl (sweepStep M) { s with freeL := [], sigs := [] } := by
    rw [hMe]; rfl
  rw [← ht] at hsw
  rw [← hMe]
  generalize beClean s roots = t at hsw
  have hnd : ∀ j, t.nd j = if j ∈ M then s.nd j else emptyRec := by
    intro j
    rw [hsw.nd]
    by_cases hj : j ∈ M
    · simp [hj]
    · simp only [hj, not_false_eq_true, and_true, if_false]
      split
      · rfl
      · rw [nd_big (by omega)]
  have hlive : ∀ j, t.live j ↔ j ∈ M := by
    intro j
    unfold St.live
    rw [hnd]
    by_cases hj : j ∈ M
    · simp only [hj, if_true, iff_true]; exact hM j hj
    · simp [hj, emptyRec]
  have hin : ∀ j, j ∈ M → t.nd j = s.nd j := fun j hj => by rw [hnd, if_pos hj]
  have hnode : ∀ j, (t.nd j).node ≠ .free → j ∈ M := fun j hj => (hlive j).1 hj
  have h0 : 0 ∈ M := by rw [hMe]; exact (mem_markRoots h roots 0).2 (.inl rfl)
  have hkid : ∀ x l r, x ∈ M → (s.nd x).node = .and l r → l.idx ∈ M ∧ r.idx ∈ M := by
    intro x l r hx hd
    rw [hMe] at hx ⊢
    exact markRoots_kids h roots hx hd
  have hden : ∀ j f, Den t j f → Den s j f := by
    intro j f hf
    refine den_mono (fun i hi => ?_) hf
    rw [hin i ((hlive i).1 hi)]
  refine ⟨⟨by rw [hin 0 h0]; exact h.root, ?_, ?_, hsw.nodup, ?_, ?_, ?_, ?_, ?_, ?_, ?_, ?_, ?_⟩, hnd, ?_⟩
  · intro i hi
    have him := hnode i (by rw [hi]; simp)
    rw [hin i him] at hi
    exact h.oneOnly i hi
  · intro i
    rw [hsw.uniq, h.uniq, hlive]
    constructor
    · rintro ⟨⟨h1, h2⟩, h3⟩; exact ⟨h3 (live_lt h1), h2⟩
    · rintro ⟨h1, h2⟩; exact ⟨⟨hM i h1, h2⟩, fun _ => h1⟩
  · intro i j hi he
    have him := (hlive i).1 hi
    have hjm : j ∈ M := hnode j (by rw [← he]; exact hi)
    rw [hin i him, hin j hjm] at he
    exact h.inj i j (hM i him) he
  · intro i l r hd
    have him := hnode i (by rw [hd]; simp)
    rw [hin i him] at hd
    obtain ⟨hl, hrr⟩ := hkid i l r him hd
    obtain ⟨⟨a1, a2, a3⟩, b1, b2, b3⟩ := h.kids i l r hd
    rw [hin i him, hin _ hl, hin _ hrr]
    exact ⟨⟨(hlive _).2 hl, a2, a3⟩, (hlive _).2 hrr, b2, b3⟩
  · intro i hi hi0
    have him := (hlive i).1 hi
    rw [hin i him, hsw.rest.1]
    exact h.satRange i (hM i him) hi0
  · refine ⟨hsw.free.1, fun i hi => ?_⟩
    have := (hsw.free.2 i).1 hi
    refine ⟨by rw [hsw.len]; exact this.1, fun hl => this.2 ((hlive i).1 hl)⟩
  · intro i hi; rw [hnd, if_neg fun hm => hi ((hlive i).2 hm)]
  · intro ch hch x hx
    obtain ⟨⟨a1, a2⟩, a3⟩ := hsw.sigs ch hch x hx
    refine ⟨(hlive x).2 a2, fun y hy => ?_⟩
    rw [hin x a2, hin y (hsw.sigs ch hch y hy).1.2]
    exact a3 y hy
  · rw [hsw.rest.1, hsw.rest.2]; exact h.cls
  · intro i l r hd
    have him := hnode i (by rw [hd]; simp)
    rw [hin i him] at hd
    obtain ⟨hl, hrr⟩ := hkid i l r him hd
    have := h.andCls i l r hd
    rw [hsw.rest.2, hin i him]
    unfold St.lit at this ⊢
    rw [hin _ hl, hin _ hrr]
    exact this
  · intro ρ
    obtain ⟨σ, s1, s2⟩ := h.ext ρ
    refine ⟨σ, by rw [hsw.rest.2]; exact s1, fun i f hf hi0 => ?_⟩
    rw [hin i ((hlive i).1 (den_live hf))]
    exact s2 i f (hden i f hf) hi0
  · exact hsw.free.2

/-- Expressions kept by a collection keep their functions. -/
theorem beClean_means {s : St} (h : Inv s) {roots : List Edge} (hr : ∀ e ∈ roots, s.live e.idx) {e : Edge} {f : Fn}
    (he : e ∈ roots) (hm : Means s e f) : Means (beClean s roots) e f := by
  obtain ⟨g, hg, hf⟩ := hm
  refine ⟨g, ?_, hf⟩
  have hnd := (beClean_spec h hr).2.1
  have : ∀ i f, Den s i f → i ∈ markRoots s roots → Den (beClean s roots) i f := by
    intro i f hd
    induction hd with
    | one h1 => intro hm; exact .one (by rw [hnd, if_pos hm]; exact h1)
    | var h1 => intro hm; exact .var (by rw [hnd, if_pos hm]; exact h1)
    | and h1 _ _ ih1 ih2 =>
      intro hm
      have := markRoots_kids h roots hm h1
      exact .and (by rw [hnd, if_pos hm]; exact h1) (ih1 this.1) (ih2 this.2)
  exact this _ _ hg ((mem_markRoots h roots _).2 (.inr ⟨e, he, .refl _⟩))

end Voss.Bexpr
