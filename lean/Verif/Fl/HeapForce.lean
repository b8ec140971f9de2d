import Verif.Fl.HeapRun
/-
What is marked FORCED is evaluated all the way down, as long as no evaluation fails.
-/
namespace Voss.Fl
variable {B E D : Type} {A : Alg D} {bs : Bools B E} {ar : Nat → Nat}

/-- Marked cells are no failures, and their sons are marked or in `T`. -/
def ClosedTo (T : Nat → Prop) (st : St B) : Prop :=
  ∀ n, st.forced n = true → st.node n ≠ some .fail ∧
    ∀ h t, st.node n = some (.cons h t) → (st.forced h = true ∨ T h) ∧ (st.forced t = true ∨ T t)

/-- Keeps marks and what is said about marked cells. -/
structure CS (st st' : St B) : Prop where
  mono : ∀ n, st.forced n = true → st'.forced n = true
  closed : ∀ T, ClosedTo T st → ClosedTo T st'

theorem CS.refl (st : St B) : CS st st := ⟨fun _ h => h, fun _ h => h⟩

theorem CS.trans {a b c : St B} (h1 : CS a b) (h2 : CS b c) : CS a c :=
  ⟨fun n h => h2.mono n (h1.mono n h), fun T h => h2.closed T (h1.closed T h)⟩

theorem forced_put_mono (st : St B) (n m : Nat) (nd : Node B) (mk : Bool) (h : st.forced m = true) :
    (st.put n nd mk).forced m = true := by
  by_cases hm : m = n
  · subst hm
    unfold St.forced at h ⊢
    unfold St.put
    simp only [List.getElem?_modify]
    cases hc : st.heap[m]? with
    | none => rw [hc] at h; cases h
    | some c => rw [hc] at h; simp at h; simp [h]
  · rw [st.forced_put_ne hm]; exact h

theorem CS.put {st : St B} {n : Nat} (hn : st.forced n = false) (hlt : n < st.size) (nd : Node B) (mk : Bool)
    (hmk : mk = true → nd ≠ .fail ∧ ∀ h t, nd ≠ .cons h t) : CS st (st.put n nd mk) := by
  refine ⟨fun m h => forced_put_mono st n m nd mk h, fun T hT m hm => ?_⟩
  by_cases h : m = n
  · subst h
    rcases st.forced_put_same m nd mk hm with h1 | h1
    · rw [hn] at h1; cases h1
    · obtain ⟨g1, g2⟩ := hmk h1
      rw [st.node_put_same hlt]
      exact ⟨fun h => g1 (Option.some.inj h), fun h t hh => absurd (Option.some.inj hh) (g2 h t)⟩
  · rw [st.forced_put_ne h] at hm
    rw [st.node_put_ne h]
    obtain ⟨g1, g2⟩ := hT m hm
    refine ⟨g1, fun a b hab => ?_⟩
    obtain ⟨k1, k2⟩ := g2 a b hab
    exact ⟨k1.imp (forced_put_mono st n a nd mk) id, k2.imp (forced_put_mono st n b nd mk) id⟩

theorem forced_alloc_lt (st : St B) {m : Nat} (h : m < st.size) (nd : Node B) (mk : Bool) :
    (st.alloc nd mk).1.forced m = st.forced m := by
  have h : m < st.heap.length := h
  unfold St.forced St.alloc
  simp only [List.getElem?_append_left h]

theorem CS.alloc (st : St B) (nd : Node B) (mk : Bool)
    (hmk : mk = true → nd ≠ .fail ∧ ∀ h t, nd ≠ .cons h t) : CS st (st.alloc nd mk).1 := by
  have mono : ∀ m, st.forced m = true → (st.alloc nd mk).1.forced m = true := fun m h => by
    rw [forced_alloc_lt st (st.forced_lt h)]; exact h
  refine ⟨mono, fun T hT m hm => ?_⟩
  rcases st.forced_alloc nd mk m hm with ⟨h1, h2⟩ | ⟨h1, h2⟩
  · rw [st.node_alloc_lt (st.forced_lt h2)]
    obtain ⟨g1, g2⟩ := hT m h2
    refine ⟨g1, fun a b hab => ?_⟩
    obtain ⟨k1, k2⟩ := g2 a b hab
    exact ⟨k1.imp (mono a) id, k2.imp (mono b) id⟩
  · subst h1
    obtain ⟨g1, g2⟩ := hmk h2
    rw [st.node_alloc_new]
    exact ⟨fun h => g1 (Option.some.inj h), fun h t hh => absurd (Option.some.inj hh) (g2 h t)⟩

theorem CS.alloc_plain (st : St B) (nd : Node B) : CS st (st.alloc nd false).1 :=
  CS.alloc st nd false (fun h => by cases h)

theorem CS.set {st st' : St B} (hh : st'.heap = st.heap) : CS st st' := by
  have hn : ∀ n, st'.node n = st.node n := fun n => by unfold St.node; rw [hh]
  have hf : ∀ n, st'.forced n = st.forced n := fun n => by unfold St.forced; rw [hh]
  refine ⟨fun n h => (hf n).trans h, fun T hT n h => ?_⟩
  rw [hf] at h
  rw [hn]
  obtain ⟨g1, g2⟩ := hT n h
  exact ⟨g1, fun a b hab => by rw [hf, hf]; exact g2 a b hab⟩

theorem unforced {st : St B} {n : Nat} (hi : Inv ar st) (hn : ¬ Whnf ar st n) : st.forced n = false := by
  cases h : st.forced n with
  | false => rfl
  | true => exact absurd (hi n h) hn

variable [DecidableEq B]

/-- The evaluation of `n` failed, or what is marked is still evaluated all the way down. -/
abbrev FailOr (st st' : St B) (n : Nat) : Prop := st'.isFail n = true ∨ CS st st'

def TrC (ar : Nat → Nat) (tr : St B → Nat → Option (St B × Nat)) : Prop :=
  ∀ st n st' n', tr st n = some (st', n') → Inv ar st → FailOr st st' n

def FoC (ar : Nat → Nat) (fo : St B → Nat → Option (St B × Nat)) : Prop :=
  ∀ st n st' n', fo st n = some (st', n') → Inv ar st →
    st'.isFail n = true ∨ CS st st' ∧ st'.forced n = true

omit [DecidableEq B] in
theorem failOr_trans {a b c : St B} {n : Nat} (h1 : CS a b) (h2 : FailOr b c n) : FailOr a c n :=
  h2.imp id h1.trans

theorem rewrite_fail {st st' : St B} {redex : Nat} {old : Node B} {mk : Bool}
    (h : st.rewrite redex old .fail mk = some st') : st'.isFail redex = true := by
  unfold St.rewrite at h
  split at h
  · rename_i hn
    cases h
    rw [St.isFail_iff, st.node_put_same (St.node_lt hn)]
  · cases h

theorem rewrite_cs {st st' : St B} {redex : Nat} {old nd : Node B} {mk : Bool} {c as}
    (h : st.rewrite redex old nd mk = some st') (hi : Inv ar st) (hr : RedexOf ar st old c as)
    (hmk : mk = true → nd ≠ .fail ∧ ∀ h t, nd ≠ .cons h t) : CS st st' := by
  unfold St.rewrite at h
  split at h
  · rename_i hn
    cases h
    exact CS.put (unforced hi (hr.not_whnf hn)) (St.node_lt hn) nd mk hmk
  · cases h

theorem overwrite_fail {st st' : St B} {redex n : Nat} {old : Node B} (h : st.overwrite redex old n = some st')
    (hf : st.isFail n = true) : st'.isFail redex = true := by
  unfold St.overwrite at h
  rw [St.isFail_iff] at hf
  rw [hf] at h
  exact rewrite_fail h

theorem overwrite_cs {st st' : St B} {redex n : Nat} {old : Node B} {c as} (h : st.overwrite redex old n = some st')
    (hi : Inv ar st) (hr : RedexOf ar st old c as) : CS st st' := by
  unfold St.overwrite at h
  split at h
  · cases h
  · exact rewrite_cs h hi hr (fun h => by cases h)

section rules
variable {tr : St B → Nat → Option (St B × Nat)}

theorem project_c (htr : TrOk A bs ar tr) (hc : TrC ar tr) {st st' : St B} {redex n : Nat} {old : Node B} {c as}
    (h : project tr st redex old n = some st') (hi : Inv ar st) (hr : RedexOf ar st old c as) :
    FailOr st st' redex := by
  unfold project at h
  split at h
  · cases h
  · rename_i st1 n1 h1
    obtain ⟨e1, hw, hs⟩ := htr _ _ _ _ h1 hi
    subst e1
    rcases hc _ _ _ _ h1 hi with hf | hf
    · exact .inl (overwrite_fail h hf)
    · exact .inr (hf.trans (overwrite_cs h (hs.base.inv hi) (hr.step hs.base)))

theorem fireSeq_c (htr : TrOk A bs ar tr) (hc : TrC ar tr) {st st' : St B} {redex x y : Nat} {old : Node B} {c as}
    (h : fireSeq tr st redex old x y = some st') (hi : Inv ar st) (hr : RedexOf ar st old c as) :
    FailOr st st' redex := by
  unfold fireSeq at h
  split at h
  · cases h
  · rename_i st1 x1 h1
    obtain ⟨e1, hw, hs⟩ := htr _ _ _ _ h1 hi
    subst e1
    split at h
    · rename_i hf; exact .inl (overwrite_fail h hf)
    · rename_i hf
      exact failOr_trans ((hc _ _ _ _ h1 hi).resolve_left hf)
        (project_c htr hc h (hs.base.inv hi) (hr.step hs.base))

theorem firePcatch_c (htr : TrOk A bs ar tr) (hc : TrC ar tr) {st st' : St B} {redex x y : Nat} {old : Node B} {c as}
    (h : firePcatch tr st redex old x y = some st') (hi : Inv ar st) (hr : RedexOf ar st old c as) :
    FailOr st st' redex := by
  unfold firePcatch at h
  split at h
  · cases h
  · rename_i st1 x1 h1
    obtain ⟨e1, hw, hs⟩ := htr _ _ _ _ h1 hi
    subst e1
    split at h
    · rename_i hn
      have hf : st1.isFail x1 ≠ true := by rw [ne_eq, St.isFail_iff, hn]; simp
      exact failOr_trans ((hc _ _ _ _ h1 hi).resolve_left hf)
        (project_c htr hc h (hs.base.inv hi) (hr.step hs.base))
    · rcases hc _ _ _ _ h1 hi with hf | hf
      · exact .inl (overwrite_fail h hf)
      · exact .inr (hf.trans (overwrite_cs h (hs.base.inv hi) (hr.step hs.base)))

theorem fireError_c {st st' : St B} {redex x : Nat} {old : Node B}
    (h : fireError tr st redex old x = some st') : FailOr st st' redex := by
  unfold fireError at h
  split at h
  · cases h
  · split at h
    · rename_i hf; exact .inl (overwrite_fail h hf)
    · exact .inl (rewrite_fail h)

theorem fireTest_c (htr : TrOk A bs ar tr) (hc : TrC ar tr) {st st' : St B} {redex x : Nat} {old : Node B} {d : Con}
    {c as} (h : fireTest bs tr st redex old d x = some st') (hi : Inv ar st) (hr : RedexOf ar st old c as) :
    FailOr st st' redex := by
  unfold fireTest at h
  split at h
  · cases h
  · rename_i st1 x1 h1
    obtain ⟨e1, hw, hs⟩ := htr _ _ _ _ h1 hi
    subst e1
    split at h
    · rename_i hf; exact .inl (overwrite_fail h hf)
    · rename_i hf
      have c1 := (hc _ _ _ _ h1 hi).resolve_left hf
      split at h
      · cases h
      · split at h
        · cases h
        · exact .inr (c1.trans (rewrite_cs h (hs.base.inv hi) (hr.step hs.base) (fun h => by cases h)))

theorem fireField_c (htr : TrOk A bs ar tr) (hc : TrC ar tr) {st st' : St B} {redex x : Nat} {old : Node B} {d : Con}
    {c as} (h : fireField tr st redex old d x = some st') (hi : Inv ar st) (hr : RedexOf ar st old c as) :
    FailOr st st' redex := by
  unfold fireField at h
  split at h
  · cases h
  · rename_i st1 x1 h1
    obtain ⟨e1, hw, hs⟩ := htr _ _ _ _ h1 hi
    subst e1
    split at h
    · rename_i hf; exact .inl (overwrite_fail h hf)
    · rename_i hf
      have c1 := (hc _ _ _ _ h1 hi).resolve_left hf
      split at h
      · exact failOr_trans c1 (project_c htr hc h (hs.base.inv hi) (hr.step hs.base))
      · exact .inl (rewrite_fail h)
      · cases h

theorem fireCmp_c (htr : TrOk A bs ar tr) (hc : TrC ar tr) {st st' : St B} {redex x y : Nat} {old : Node B} {d : Con}
    {c as} (h : fireCmp bs tr st redex old d x y = some st') (hi : Inv ar st) (hr : RedexOf ar st old c as) :
    FailOr st st' redex := by
  unfold fireCmp at h
  split at h
  · cases h
  · rename_i st1 x1 h1
    obtain ⟨e1, hw, hs⟩ := htr _ _ _ _ h1 hi
    subst e1
    split at h
    · rename_i hf; exact .inl (overwrite_fail h hf)
    · rename_i hf
      have c1 := (hc _ _ _ _ h1 hi).resolve_left hf
      split at h
      · cases h
      · rename_i st2 y1 h2
        obtain ⟨e2, hw2, hs2⟩ := htr _ _ _ _ h2 (hs.base.inv hi)
        subst e2
        split at h
        · rename_i hf; exact .inl (overwrite_fail h hf)
        · rename_i hf2
          have c2 := (hc _ _ _ _ h2 (hs.base.inv hi)).resolve_left hf2
          split at h
          · split at h
            · cases h
            · rename_i f syn ht
              have hset : Step0 ar st2 ({ st2 with taint := st2.taint || syn } : St B) :=
                Step0.set rfl (fun g => by
                  have g' : (st2.taint || syn) = false := g
                  simp at g'; exact g'.1)
              have cset : CS st2 ({ st2 with taint := st2.taint || syn } : St B) := CS.set rfl
              exact .inr (((c1.trans c2).trans cset).trans
                (rewrite_cs h (hset.inv (hs2.base.inv (hs.base.inv hi)))
                  (((hr.step hs.base).step hs2.base).step hset) (fun h => by cases h)))
          · cases h

theorem evalArgs_c (htr : TrOk A bs ar tr) (hc : TrC ar tr) : ∀ (as : List Nat) {st st' : St B} {ns},
    evalArgs tr st as = some (st', .inl ns) → Inv ar st → CS st st'
  | [], st, st', ns, h, _ => by cases h; exact CS.refl _
  | a :: as, st, st', ns, h, hi => by
    unfold evalArgs at h
    split at h
    · cases h
    · rename_i st1 a1 h1
      obtain ⟨e1, hw, hs⟩ := htr _ _ _ _ h1 hi
      subst e1
      split at h
      · cases h
      · rename_i hf
        have c1 := (hc _ _ _ _ h1 hi).resolve_left hf
        split at h
        · cases h
        · cases h
        · rename_i st2 ns h2
          cases h
          exact c1.trans (evalArgs_c htr hc as h2 (hs.base.inv hi))

omit [DecidableEq B] in
theorem ext_node_scalar (ext : Ext B) (p : Nat) (ss : List (Scalar B)) :
    ext.node p ss = .fail ∨ ext.node p ss ≠ .fail ∧ ∀ h t, ext.node p ss ≠ .cons h t := by
  unfold Ext.node
  split
  · rename_i s _
    right
    cases s <;> exact ⟨nofun, fun _ _ => nofun⟩
  · exact .inl rfl

theorem fireExt_c {ext : Ext B} (htr : TrOk A bs ar tr) (hc : TrC ar tr) {st st' : St B} {redex : Nat} {old : Node B}
    {p : Nat} {xs : List Nat} {c as} (h : fireExt ext tr st redex old p xs = some st') (hi : Inv ar st)
    (hr : RedexOf ar st old c as) : FailOr st st' redex := by
  unfold fireExt at h
  split at h
  · cases h
  · rename_i st1 n h1
    obtain ⟨hs, g2, _⟩ := evalArgs_step htr xs h1 hi
    exact .inl (overwrite_fail h (g2 n rfl))
  · rename_i st1 ns h1
    obtain ⟨hs, _, g3⟩ := evalArgs_step htr xs h1 hi
    have c1 := evalArgs_c htr hc xs h1 hi
    split at h
    · cases h
    · rename_i ss hss
      rcases ext_node_scalar ext p ss with hf | hf
      · rw [hf] at h; exact .inl (rewrite_fail h)
      · exact .inr (c1.trans (rewrite_cs h (hs.base.inv hi) (hr.step hs.base) (fun _ => hf)))

end rules

/-! ### Merging -/

/-- Merging changes no old cell. -/
structure MC (st st' : St B) : Prop where
  cs : CS st st'
  old : ∀ m < st.size, st'.forced m = st.forced m
  size : st.size ≤ st'.size

omit [DecidableEq B] in
theorem MC.refl (st : St B) : MC st st := ⟨CS.refl _, fun _ _ => rfl, Nat.le_refl _⟩

omit [DecidableEq B] in
theorem MC.trans {a b c : St B} (h1 : MC a b) (h2 : MC b c) : MC a c :=
  ⟨h1.cs.trans h2.cs, fun m hm => (h2.old m (Nat.lt_of_lt_of_le hm h1.size)).trans (h1.old m hm),
    Nat.le_trans h1.size h2.size⟩

omit [DecidableEq B] in
theorem MC.alloc (st : St B) (nd : Node B) (mk : Bool)
    (hmk : mk = true → nd ≠ .fail ∧ ∀ h t, nd ≠ .cons h t) : MC st (st.alloc nd mk).1 :=
  ⟨CS.alloc st nd mk hmk, fun _ hm => forced_alloc_lt st hm nd mk, by rw [st.size_alloc]; omega⟩

omit [DecidableEq B] in
theorem mergeSons_c {mk : Nat → Nat → Node B} {rec : St B → Memo → Nat → Nat → Option (St B × Memo × Nat)}
    (hrec : ∀ {st st' : St B} {memo memo' : Memo} {l r n : Nat}, rec st memo l r = some (st', memo', n) → MC st st')
    {st st' : St B} {memo memo' : Memo} {l r a b a' b' n : Nat}
    (h : mergeSons rec mk st memo l r a b a' b' = some (st', memo', n)) : MC st st' := by
  unfold mergeSons at h
  simp only at h
  have m0 := MC.alloc st .hole false (fun h => by cases h)
  have nf : (st.alloc .hole false).1.forced st.size = false := by
    unfold St.forced St.alloc St.size; simp
  have sz := st.size_alloc (.hole) false
  split at h
  · cases h
  · rename_i st1 memo1 x h1
    have m1 := m0.trans (hrec h1)
    split at h
    · cases h; exact m1
    · split at h
      · cases h
      · rename_i st2 memo2 y h2
        have m2 := m1.trans (hrec h2)
        have nf2 : st2.forced st.size = false := by
          rw [((hrec h1).trans (hrec h2)).old _ (by omega)]; exact nf
        have sz2 := ((hrec h1).trans (hrec h2)).size
        split at h
        · cases h; exact m2
        · split at h
          · cases h; exact m2
          · split at h
            · cases h; exact m2
            · cases h
              refine ⟨m2.cs.trans (CS.put nf2 (by omega) _ _ (fun h => by cases h)), fun m hm => ?_, ?_⟩
              · rw [st2.forced_put_ne (by omega), m2.old m hm]
              · rw [st2.size_put]; omega

theorem merge_c (c : B) : ∀ (k : Nat) {st st' : St B} {memo memo' : Memo} {l r n : Nat},
    merge bs c k st memo l r = some (st', memo', n) → MC st st'
  | 0, _, _, _, _, _, _, _, h => by cases h
  | k + 1, st, st', memo, memo', l, r, n, h => by
    unfold merge at h
    split at h
    · rename_i nl nr hl hr
      generalize hst : (if isNone nl = isNone nr then st else { st with taint := true } : St B) = st1 at h
      have hh : st1.heap = st.heap := by subst hst; split <;> rfl
      have m0 : MC st st1 := ⟨CS.set hh, fun m _ => by unfold St.forced; rw [hh], by unfold St.size; rw [hh]; exact Nat.le_refl _⟩
      refine m0.trans ?_
      clear hst hh m0
      generalize (if isNone nl = true then r else l) = l1 at h
      generalize (if isNone nl = true then r else if isNone nr = true then l else r) = r1 at h
      have hfail : ∀ {st : St B} {memo : Memo}, mergeFail st memo = some (st', memo', n) → MC st st' := by
        intro st memo h; cases h; exact MC.alloc _ _ _ (fun h => by cases h)
      unfold mergeNodes at h
      split at h
      · cases h; exact MC.refl _
      · split at h
        · exact mergeSons_c (fun h => merge_c c k h) h
        · exact mergeSons_c (fun h => merge_c c k h) h
        · simp only at h
          split at h
          · cases h; exact MC.refl _
          · split at h
            · cases h; exact MC.refl _
            · cases h; exact MC.alloc _ _ _ (fun _ => ⟨nofun, fun _ _ => nofun⟩)
        · split at h
          · cases h; exact MC.refl _
          · exact hfail h
        · cases h
        · cases h
        · cases h
        · cases h
        · exact hfail h
    · cases h

/-! ### The reducer -/

theorem fireCond_c {tr fo : St B → Nat → Option (St B × Nat)} (htr : TrOk A bs ar tr) (hfo : FoOk A bs ar fo)
    (hc : TrC ar tr) (hfc : FoC ar fo) {k : Nat} {st st' : St B} {redex a1 a2 a3 : Nat} {old : Node B} {c as}
    (h : fireCond bs tr fo k st redex old a1 a2 a3 = some st') (hi : Inv ar st)
    (hr : RedexOf ar st old c as) : FailOr st st' redex := by
  unfold fireCond at h
  split at h
  · cases h
  · rename_i st1 x1 h1
    obtain ⟨e1, hw, hs⟩ := htr _ _ _ _ h1 hi
    subst e1
    have hi1 := hs.base.inv hi
    have hr1 := hr.step hs.base
    split at h
    · rename_i hf; exact .inl (overwrite_fail h hf)
    · rename_i hf
      refine failOr_trans ((hc _ _ _ _ h1 hi).resolve_left hf) ?_
      clear h1 hi hr
      split at h
      · rename_i f hx
        split at h
        · exact project_c htr hc h hi1 hr1
        · split at h
          · exact project_c htr hc h hi1 hr1
          · have ctx : ∀ {b : B} {a : Nat} {st' : St B},
                (project tr { st1 with cond := b, taint := true } redex old a).map
                  (fun st => ({ st with cond := st1.cond } : St B)) = some st' → FailOr st1 st' redex := by
              intro b a st' h
              obtain ⟨st2, h2, h3⟩ := Option.map_eq_some_iff.mp h
              have b0 : Step0 ar st1 ({ st1 with cond := b, taint := true } : St B) :=
                Step0.set rfl (fun h => nomatch h)
              subst h3
              rcases project_c htr hc h2 (b0.inv hi1) (hr1.step b0) with p | p
              · exact .inl p
              · have c0 : CS st1 ({ st1 with cond := b, taint := true } : St B) := CS.set rfl
                have c4 : CS st2 ({ st2 with cond := st1.cond } : St B) := CS.set rfl
                exact .inr ((c0.trans p).trans c4)
            simp only at h
            split at h
            · exact ctx h
            · split at h
              · exact ctx h
              · split at h
                · cases h
                · rename_i st2 y2 h2
                  have b0 : Step A bs ar st1 ({ st1 with cond := bs.and st1.cond f } : St B) := StepF.set rfl id
                  obtain ⟨e2, hs2⟩ := hfo _ _ _ _ h2 (b0.base.inv hi1)
                  subst e2
                  have s12 : Step A bs ar st1 st2 := b0.trans hs2 (fun _ _ _ _ _ _ => trivial)
                  split at h
                  · rename_i hf; exact .inl (overwrite_fail h hf)
                  · rename_i hf2
                    have c0 : CS st1 ({ st1 with cond := bs.and st1.cond f } : St B) := CS.set rfl
                    have c2 : CS st1 st2 := c0.trans
                      ((hfc _ _ _ _ h2 (b0.base.inv hi1)).resolve_left hf2).1
                    split at h
                    · cases h
                    · rename_i st3 y3 h3
                      have b3 : Step A bs ar st2 ({ st2 with cond := bs.and st1.cond (bs.not f) } : St B) :=
                        StepF.set rfl id
                      have hi3 := b3.base.inv (s12.base.inv hi1)
                      obtain ⟨e3, hs3⟩ := hfo _ _ _ _ h3 hi3
                      subst e3
                      have b4 : Step A bs ar st3 ({ st3 with cond := st1.cond } : St B) := StepF.set rfl id
                      have s14 : Step A bs ar st1 ({ st3 with cond := st1.cond } : St B) :=
                        ((s12.trans b3 (fun _ _ _ _ _ _ => trivial)).trans hs3 (fun _ _ _ _ _ _ => trivial)).trans
                          b4 (fun _ _ _ _ _ _ => trivial)
                      split at h
                      · rename_i hf; exact .inl (overwrite_fail h hf)
                      · rename_i hf3
                        have c3' : CS st2 ({ st2 with cond := bs.and st1.cond (bs.not f) } : St B) := CS.set rfl
                        have c3 : CS st1 ({ st3 with cond := st1.cond } : St B) :=
                          ((c2.trans c3').trans ((hfc _ _ _ _ h3 hi3).resolve_left hf3).1).trans (CS.set rfl)
                        split at h
                        · cases h
                        · rename_i st5 memo5 n h5
                          have m := mergeTo_ok (A := A) (ar := ar) f k h5
                          have s15 : Step0 ar st1 st5 := s14.base.trans m.base
                          exact .inr ((c3.trans (merge_c f k h5).cs).trans
                            (overwrite_cs h (s15.inv hi1) (hr1.step s15)))
      · cases h

omit [DecidableEq B] in
theorem contract_c {st st' : St B} {redex : Nat} {old : Node B} {c as}
    (h : contract st redex c as = some st') (hi : Inv ar st) (hn : st.node redex = some old)
    (hr : RedexOf ar st old c as) : CS st st' := by
  have hlt := St.node_lt hn
  have nf := unforced hi (hr.not_whnf hn)
  have al : ∀ {st : St B} (nd : Node B), redex < st.size → st.forced redex = false →
      redex < (st.alloc nd false).1.size ∧ (st.alloc nd false).1.forced redex = false := by
    intro st nd h1 h2
    exact ⟨by rw [st.size_alloc]; omega, by rw [forced_alloc_lt st h1]; exact h2⟩
  have p0 : ∀ {st : St B} (nd : Node B), redex < st.size → st.forced redex = false → CS st (st.put redex nd false) :=
    fun nd h1 h2 => CS.put h2 h1 nd false (fun h => by cases h)
  have pal : ∀ {st st' : St B} (nd : Node B), redex < st.size → st.forced redex = false →
      (redex < (st.alloc nd false).1.size → (st.alloc nd false).1.forced redex = false →
        CS (st.alloc nd false).1 st') → CS st st' :=
    fun nd h1 h2 h3 => (CS.alloc_plain _ nd).trans (h3 (al nd h1 h2).1 (al nd h1 h2).2)
  unfold contract at h
  split at h <;> first
    | (cases h; done)
    | (simp only [Option.some.injEq] at h
       subst h
       first
       | exact p0 _ hlt nf
       | exact pal _ hlt nf fun h1 h2 => p0 _ h1 h2
       | exact pal _ hlt nf fun h1 h2 => pal _ h1 h2 fun h1 h2 => p0 _ h1 h2
       | exact pal _ hlt nf fun h1 h2 => pal _ h1 h2 fun h1 h2 => pal _ h1 h2 fun h1 h2 => p0 _ h1 h2)

theorem fire_c {ext : Ext B} {tr fo : St B → Nat → Option (St B × Nat)} (htr : TrOk A bs ar tr) (hfo : FoOk A bs ar fo)
    (hc : TrC ar tr) (hfc : FoC ar fo) {k : Nat} {st st' : St B} {redex : Nat}
    {old : Node B} {c as} (h : fire bs ext tr fo k st redex old c as = some st') (hi : Inv ar st)
    (hn : st.node redex = some old) (hr : RedexOf ar st old c as) : FailOr st st' redex := by
  unfold fire at h
  split at h
  · exact project_c htr hc h hi hr
  · exact project_c htr hc h hi hr
  · exact project_c htr hc h hi hr
  · exact fireSeq_c htr hc h hi hr
  · exact firePcatch_c htr hc h hi hr
  · exact fireError_c h
  · exact fireCond_c htr hfo hc hfc h hi hr
  · exact fireCmp_c htr hc h hi hr
  · exact fireCmp_c htr hc h hi hr
  · exact fireCmp_c htr hc h hi hr
  · exact fireTest_c htr hc h hi hr
  · exact fireTest_c htr hc h hi hr
  · exact fireTest_c htr hc h hi hr
  · exact fireField_c htr hc h hi hr
  · exact fireField_c htr hc h hi hr
  · exact fireField_c htr hc h hi hr
  · exact fireField_c htr hc h hi hr
  · exact fireExt_c htr hc h hi hr
  · exact .inr (contract_c h hi hn hr)

/-- A failing function fails. -/
theorem loop_fail {ext : Ext B} {tr fo : St B → Nat → Option (St B × Nat)} {k : Nat} {st st' : St B} {root n : Nat}
    {spine : List Nat} (h : loop bs ext tr fo k st root spine = some (st', n)) (hf : st.isFail root = true) :
    st'.isFail n = true := by
  rw [St.isFail_iff] at hf
  cases k with
  | zero => cases h
  | succ k =>
    unfold loop at h
    rw [hf] at h
    simp only at h
    split at h
    · cases h
    · cases h; rwa [St.isFail_iff]
    · rename_i as r hr hl
      cases h
      have hlast : spine.getLastD root = n := by rw [List.getLastD_eq_getLast?, hl]; rfl
      have hne : spine ≠ [] := by intro h; subst h; cases hl
      obtain ⟨l1, r1, hnode⟩ := rights_node hr hne
      rw [hlast] at hnode
      rw [St.isFail_iff, st.node_put_same (St.node_lt hnode)]

theorem loop_c {dt : Data A} {ext : Ext B} (ops : Ops A dt bs ext) {tr fo : St B → Nat → Option (St B × Nat)}
    (htr : TrOk A bs ext.arity tr) (hfo : FoOk A bs ext.arity fo) (hc : TrC ext.arity tr) (hfc : FoC ext.arity fo) :
    ∀ (k : Nat) {st st' : St B} {root n : Nat} {spine : List Nat},
      loop bs ext tr fo k st root spine = some (st', n) → Inv ext.arity st → FailOr st st' n
  | 0, _, _, _, _, _, h, _ => by cases h
  | k + 1, st, st', root, n, spine, h, hi => by
    have h0 := h
    unfold loop at h
    split at h
    · cases h
    · cases h
    · exact loop_c ops htr hfo hc hfc k h hi
    · split at h
      · cases h; exact .inr (CS.refl _)
      · cases h
    · split at h
      · cases h; exact .inr (CS.refl _)
      · cases h
    · rename_i hn
      exact .inl (loop_fail h0 (St.isFail_iff st |>.mpr hn))
    · rename_i c hn
      split at h
      · cases h
      · rename_i as hr
        simp only at h
        split at h
        · rename_i ha0
          split at h
          · rename_i p
            have hnw : ¬ Whnf ext.arity st root := by
              intro hw
              cases hw with
              | cons h' => rw [hn] at h'; cases h'
              | bool h' => rw [hn] at h'; cases h'
              | fail h' => rw [hn] at h'; cases h'
              | leaf h' hl => rw [hn] at h'; cases h'; cases hl
              | part hp hl =>
                obtain ⟨e1, e2⟩ := Part.det (.con hn) hp
                subst e1; subst e2
                rw [ha0] at hl; cases hl
            have hlt := St.node_lt hn
            have s1 : Step0 ext.arity st (st.put root (ext.node p []) true) :=
              Step0.put hnw _ _ hlt (fun _ st' h' => ext_node_whnf ext p [] st' root h')
            rcases ext_node_scalar ext p [] with hf | hf
            · exact .inl (loop_fail h (by rw [St.isFail_iff, st.node_put_same hlt, hf]))
            · exact failOr_trans (CS.put (unforced hi hnw) hlt _ _ (fun _ => hf))
                (loop_c ops htr hfo hc hfc k h (s1.inv hi))
          · split at h
            · cases h; exact .inr (CS.refl _)
            · cases h
        · split at h
          · cases h; exact .inr (CS.refl _)
          · rename_i hlt
            split at h
            · cases h
            · rename_i redex hred
              split at h
              · cases h
              · rename_i old hold
                split at h
                · cases h
                · rename_i st1 hf
                  have hpos : 0 < arity ext.arity c := by omega
                  obtain ⟨hp, hlen⟩ := rights_part (.con hn) hr
                  obtain ⟨hp1, hlen1⟩ := rights_part (.con hn) (rights_take (arity ext.arity c) hr)
                  rw [getLastD_take hred hpos, List.nil_append] at hp1
                  have hl2 : (as.take (arity ext.arity c)).length = arity ext.arity c := by
                    rw [hlen1]; simp; omega
                  obtain ⟨l, r, as0, q1, q2, q3⟩ := part_ne_nil hp1 (by
                    intro h; rw [h] at hl2; simp at hl2; omega)
                  rw [hold] at q1; cases q1
                  have hro : RedexOf ext.arity st (.app l r) c (as.take (arity ext.arity c)) :=
                    ⟨l, r, as0, rfl, q2, q3, by rw [q2] at hl2; simpa using hl2⟩
                  have s1 := fire_step ops htr hfo hf hi hold hro
                  rcases fire_c htr hfo hc hfc hf hi hold hro with g | g
                  · exact .inl (loop_fail h g)
                  · exact failOr_trans g (loop_c ops htr hfo hc hfc k h (s1.base.inv hi))

omit [DecidableEq B] in
theorem forced_mark_mono (st : St B) (n m : Nat) (h : st.forced m = true) : (st.mark n).forced m = true := by
  unfold St.forced at h ⊢
  unfold St.mark
  simp only [List.getElem?_modify]
  cases hc : st.heap[m]? with
  | none => rw [hc] at h; cases h
  | some c => rw [hc] at h; simp at h; by_cases hnm : n = m <;> simp [h, hnm]

omit [DecidableEq B] in
theorem forced_mark_same (st : St B) {n : Nat} (h : n < st.size) : (st.mark n).forced n = true := by
  have h : n < st.heap.length := h
  unfold St.forced St.mark
  simp [List.getElem?_modify, List.getElem?_eq_getElem h]

omit [DecidableEq B] in
theorem closed_mark {st : St B} {cur : Nat} {T T' : Nat → Prop} (hlt : cur < st.size) (hf : st.isFail cur ≠ true)
    (hT : ∀ m, T m → m = cur ∨ T' m) (hc : ∀ h t, st.node cur = some (.cons h t) → T' h ∧ T' t)
    (h : ClosedTo T st) : ClosedTo T' (st.mark cur) := by
  have key : ∀ m, st.forced m = true ∨ T m → (st.mark cur).forced m = true ∨ T' m := by
    intro m hm
    rcases hm with hm | hm
    · exact .inl (forced_mark_mono st cur m hm)
    · rcases hT m hm with rfl | hm
      · exact .inl (forced_mark_same st hlt)
      · exact .inr hm
  intro m hm
  rw [st.node_mark]
  rcases st.forced_mark cur m hm with h1 | h1
  · subst h1
    rw [ne_eq, St.isFail_iff] at hf
    exact ⟨hf, fun a b hab => ⟨.inr (hc a b hab).1, .inr (hc a b hab).2⟩⟩
  · obtain ⟨g1, g2⟩ := h m h1
    exact ⟨g1, fun a b hab => ⟨key a (g2 a b hab).1, key b (g2 a b hab).2⟩⟩

omit [DecidableEq B] in
theorem forceLoop_c {tr : St B → Nat → Option (St B × Nat)} (htr : TrOk A bs ar tr) (hc : TrC ar tr) (node : Nat) :
    ∀ (k : Nat) {st st' : St B} {todo : List Nat} {n : Nat},
      forceLoop tr node k st todo = some (st', n) → Inv ar st →
      ((∃ a b, st.node node = some (.cons a b)) ∨ st.node node = some .fail) ∨ todo = [] →
      st'.isFail node = true ∨ (∀ m, st.forced m = true → st'.forced m = true) ∧
        ∀ T : Nat → Prop, ClosedTo (fun m => m ∈ todo ∨ T m) st → ClosedTo T st'
  | 0, _, _, _, _, h, _, _ => by cases h
  | k + 1, st, st', [], n, h, hi, _ => by
    cases h
    refine .inr ⟨fun _ h => h, fun T hT m hm => ?_⟩
    obtain ⟨g1, g2⟩ := hT m hm
    exact ⟨g1, fun a b hab => by simpa using g2 a b hab⟩
  | k + 1, st, st', cur :: todo, n, h, hi, hz0 => by
    have hz := hz0.resolve_right (by simp)
    clear hz0
    unfold forceLoop at h
    split at h
    · rename_i hcf
      refine (forceLoop_c htr hc node k h hi (.inl hz)).imp id fun ⟨g1, g2⟩ => ⟨g1, fun T hT => g2 T ?_⟩
      intro m hm
      obtain ⟨q1, q2⟩ := hT m hm
      have key : ∀ a, st.forced a = true ∨ (a ∈ cur :: todo ∨ T a) → st.forced a = true ∨ (a ∈ todo ∨ T a) := by
        intro a ha
        rcases ha with ha | ha | ha
        · exact .inl ha
        · rcases List.mem_cons.mp ha with rfl | ha
          · exact .inl hcf
          · exact .inr (.inl ha)
        · exact .inr (.inr ha)
      exact ⟨q1, fun a b hab => ⟨key a (q2 a b hab).1, key b (q2 a b hab).2⟩⟩
    · split at h
      · cases h
      · rename_i st1 cur1 h1
        obtain ⟨e1, hw, hs⟩ := htr _ _ _ _ h1 hi
        subst e1
        have hz1 := stable_cons hs.base.stable hz
        split at h
        · cases h
          left
          rcases hz1 with ⟨a, b, hz1⟩ | hz1
          · rw [St.isFail_iff, st1.node_put_same (St.node_lt hz1)]
          · rw [St.isFail_iff, st1.node_put_same (St.node_lt hz1)]
        · rename_i hf
          have c1 := (hc _ _ _ _ h1 hi).resolve_left hf
          have s2 : Step A bs ar st (st1.mark cur1) := hs.trans (mark_step hw) (fun _ _ _ _ _ _ => trivial)
          have hz2 : (∃ a b, (st1.mark cur1).node node = some (.cons a b)) ∨
              (st1.mark cur1).node node = some .fail := by rw [st1.node_mark]; exact hz1
          simp only at h
          split at h
          · rename_i a b hn
            rw [st1.node_mark] at hn
            refine (forceLoop_c htr hc node k h (s2.base.inv hi) (.inl hz2)).imp id fun ⟨g1, g2⟩ =>
              ⟨fun m hm => g1 m (forced_mark_mono _ _ _ (c1.mono m hm)), fun T hT => g2 T ?_⟩
            refine closed_mark (whnf_lt hw) hf ?_ ?_ (c1.closed _ hT)
            · intro m hm
              rcases hm with hm | hm
              · rcases List.mem_cons.mp hm with hm | hm
                · exact .inl hm
                · exact .inr (.inl (by simp [hm]))
              · exact .inr (.inr hm)
            · intro x y hxy
              rw [hn] at hxy; cases hxy
              exact ⟨.inl (by simp), .inl (by simp)⟩
          · rename_i hn
            refine (forceLoop_c htr hc node k h (s2.base.inv hi) (.inl hz2)).imp id fun ⟨g1, g2⟩ =>
              ⟨fun m hm => g1 m (forced_mark_mono _ _ _ (c1.mono m hm)), fun T hT => g2 T ?_⟩
            refine closed_mark (whnf_lt hw) hf ?_ ?_ (c1.closed _ hT)
            · intro m hm
              rcases hm with hm | hm
              · rcases List.mem_cons.mp hm with hm | hm
                · exact .inl hm
                · exact .inr (.inl hm)
              · exact .inr (.inr hm)
            · intro x y hxy
              exact absurd (by rw [st1.node_mark]; exact hxy) (hn x y)

omit [DecidableEq B] in
theorem force_c {tr : St B → Nat → Option (St B × Nat)} (htr : TrOk A bs ar tr) (hc : TrC ar tr) (k : Nat) :
    FoC ar (force tr k) := by
  intro st node st' n h hi
  unfold force at h
  split at h
  · rename_i hf; cases h; exact .inr ⟨CS.refl _, hf⟩
  · rename_i hnf
    cases k with
    | zero => cases h
    | succ k =>
      unfold forceLoop at h
      rw [if_neg hnf] at h
      split at h
      · cases h
      · rename_i st1 cur1 h1
        obtain ⟨e1, hw, hs⟩ := htr _ _ _ _ h1 hi
        subst e1
        split at h
        · rename_i hf
          cases h
          left
          rw [St.isFail_iff, st1.node_put_same (whnf_lt hw)]
        · rename_i hf
          have c1 := (hc _ _ _ _ h1 hi).resolve_left hf
          have s2 : Step A bs ar st (st1.mark cur1) := hs.trans (mark_step hw) (fun _ _ _ _ _ _ => trivial)
          have fin : ∀ {todo : List Nat}, (∀ x y, st1.node cur1 = some (.cons x y) → x ∈ todo ∧ y ∈ todo) →
              (st'.isFail cur1 = true ∨ (∀ m, (st1.mark cur1).forced m = true → st'.forced m = true) ∧
                ∀ T : Nat → Prop, ClosedTo (fun m => m ∈ todo ∨ T m) (st1.mark cur1) → ClosedTo T st') →
              st'.isFail cur1 = true ∨ CS st st' ∧ st'.forced cur1 = true := by
            intro todo ht g
            refine g.imp id fun ⟨g1, g2⟩ => ⟨⟨fun m hm => g1 m (forced_mark_mono _ _ _ (c1.mono m hm)),
              fun T hT => g2 T ?_⟩, g1 _ (forced_mark_same st1 (whnf_lt hw))⟩
            refine closed_mark (whnf_lt hw) hf (fun m hm => .inr (.inr hm)) ?_ (c1.closed _ hT)
            intro x y hxy
            exact ⟨.inl (ht x y hxy).1, .inl (ht x y hxy).2⟩
          simp only at h
          split at h
          · rename_i a b hn
            refine fin ?_ (forceLoop_c htr hc cur1 k h (s2.base.inv hi) (.inl (.inl ⟨a, b, hn⟩)))
            intro x y hxy
            rw [st1.node_mark] at hn
            rw [hn] at hxy; cases hxy; simp
          · rename_i hn
            refine fin ?_ (forceLoop_c htr hc cur1 k h (s2.base.inv hi) (.inr rfl))
            intro x y hxy
            exact absurd (by rw [st1.node_mark]; exact hxy) (hn x y)

theorem trav_c {dt : Data A} {ext : Ext B} (ops : Ops A dt bs ext) : ∀ k : Nat, TrC ext.arity (trav bs ext k)
  | 0 => fun _ _ _ _ h _ => by cases h
  | k + 1 => fun st n st' n' h hi => by
    have hok := trav_ok ops (k + 1) _ _ _ _ h hi
    unfold trav at h
    split at h
    · cases h; exact .inr (CS.refl _)
    · rw [← hok.1]
      exact loop_c ops (trav_ok ops k) (force_ok (trav_ok ops k) k) (trav_c ops k)
        (force_c (trav_ok ops k) (trav_c ops k) k) k h hi

omit [DecidableEq B] in
theorem load_c {link : Name → Option Nat} : ∀ (c : Code) {st st' : St B} {n : Nat},
    load bs link c st = some (st', n) → CS st st'
  | .var x, st, st', n, h => by
    obtain ⟨m, h1, h2⟩ := Option.map_eq_some_iff.mp h
    cases h2; exact CS.refl _
  | .con c, st, st', n, h => by
    have fin : ∀ (nd : Node B) (mk : Bool), st.alloc nd mk = (st', n) →
        (mk = true → nd ≠ .fail ∧ ∀ h t, nd ≠ .cons h t) → CS st st' := by
      intro nd mk h hm
      have : st' = (st.alloc nd mk).1 := by rw [h]
      rw [this]; exact CS.alloc st nd mk hm
    cases c <;> first
      | exact fin _ _ (Option.some.inj h) (fun _ => ⟨nofun, fun _ _ => nofun⟩)
      | exact fin _ _ (Option.some.inj h) (fun h => by cases h)
  | .app a b, st, st', n, h => by
    unfold load at h
    split at h
    · cases h
    · rename_i st1 l h1
      split at h
      · cases h
      · rename_i st2 r h2
        cases h
        exact ((load_c a h1).trans (load_c b h2)).trans (CS.alloc_plain _ _)

omit [DecidableEq B] in
theorem load_step0 {link : Name → Option Nat} : ∀ (c : Code) {st st' : St B} {n : Nat},
    load bs link c st = some (st', n) → Step0 ar st st'
  | .var x, st, st', n, h => by
    obtain ⟨m, h1, h2⟩ := Option.map_eq_some_iff.mp h
    cases h2; exact Step0.refl _ _
  | .con c, st, st', n, h => by
    have fin : ∀ (nd : Node B) (mk : Bool), st.alloc nd mk = (st', n) →
        (mk = true → ∀ (st' : St B) n, st'.node n = some nd → Whnf ar st' n) → Step0 ar st st' := by
      intro nd mk h hm
      have : st' = (st.alloc nd mk).1 := by rw [h]
      rw [this]; exact Step0.alloc ar st nd mk hm
    cases c <;> first
      | exact fin _ _ (Option.some.inj h) (fun _ _ _ h => .leaf h rfl)
      | exact fin _ _ (Option.some.inj h) (fun _ _ _ h => .bool h)
      | exact fin _ _ (Option.some.inj h) (fun h => by cases h)
  | .app a b, st, st', n, h => by
    unfold load at h
    split at h
    · cases h
    · rename_i st1 l h1
      split at h
      · cases h
      · rename_i st2 r h2
        cases h
        exact ((load_step0 a h1).trans (load_step0 b h2)).trans (Step0.alloc_plain _ _ _)

end Voss.Fl
