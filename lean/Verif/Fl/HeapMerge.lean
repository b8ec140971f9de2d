import Verif.Fl.HeapFire
/-
Merging of two structures under a symbolic condition.
-/
namespace Voss.Fl
variable {B E D : Type} {A : Alg D} {bs : Bools B E} {ar : Nat → Nat}

/-- The value that is `x` where `c` holds and `y` elsewhere. -/
def sel (bs : Bools B E) (c : B) (e : E) (x y : D) : D := if bs.sat c e then x else y

/-- The table of merged pairs is right. -/
def MemoOk (bs : Bools B E) (c : B) (size : Nat) (memo : Memo) (v : Nat → E → D) : Prop :=
  ∀ l r res, ((l, r), res) ∈ memo →
    l < size ∧ r < size ∧ res < size ∧ ∀ e, v res e = sel bs c e (v l e) (v r e)

theorem MemoOk.mono {c : B} {s s' : Nat} {memo : Memo} {v v' : Nat → E → D} (h : MemoOk bs c s memo v)
    (hs : s ≤ s') (he : ∀ n < s, v' n = v n) : MemoOk bs c s' memo v' := by
  intro l r res hm
  obtain ⟨h1, h2, h3, h4⟩ := h l r res hm
  exact ⟨by omega, by omega, by omega, fun e => by rw [he _ h1, he _ h2, he _ h3]; exact h4 e⟩

theorem MemoOk.cons {c : B} {s : Nat} {memo : Memo} {v : Nat → E → D} (h : MemoOk bs c s memo v)
    {l r res : Nat} (hl : l < s) (hr : r < s) (hres : res < s)
    (hv : ∀ e, v res e = sel bs c e (v l e) (v r e)) : MemoOk bs c s (((l, r), res) :: memo) v := by
  intro l' r' res' hm
  rcases List.mem_cons.mp hm with hm | hm
  · cases hm; exact ⟨hl, hr, hres, hv⟩
  · exact h l' r' res' hm

theorem lookup_mem {k : Nat × Nat} {x : Nat} : ∀ {memo : Memo}, memo.lookup k = some x → (k, x) ∈ memo
  | [], h => by cases h
  | (k', x') :: memo, h => by
    rw [List.lookup_cons] at h
    by_cases hk : k = k'
    · subst hk; simp at h; subst h; exact List.mem_cons_self
    · have : (k == k') = false := by simpa using hk
      rw [this] at h
      exact List.mem_cons_of_mem _ (lookup_mem h)

/-- What merging does: old nodes stay as they are; the result has the merged value, or is a failure. -/
structure MergeOk (A : Alg D) (bs : Bools B E) (ar : Nat → Nat) (c : B) (st : St B) (memo : Memo) (l r : Nat)
    (st' : St B) (memo' : Memo) (n : Nat) : Prop where
  base : Step0 ar st st'
  old : ∀ m < st.size, st'.node m = st.node m
  val : st'.taint = false → ∀ v, Describes A bs v st → MemoOk bs c st.size memo v →
    ∃ v', Describes A bs v' st' ∧ (∀ m < st.size, v' m = v m) ∧ MemoOk bs c st'.size memo' v' ∧
      (st'.isFail n = true ∨ n < st'.size ∧ ∀ e, v' n e = sel bs c e (v' l e) (v' r e))

/-- A node is made for a pair of sons, with the value `op` of their values. -/
def Builds (A : Alg D) (bs : Bools B E) (mk : Nat → Nat → Node B) (op : D → D → D) : Prop :=
  ∀ s v n a b, Holds A bs s v n (mk a b) ↔ a < s ∧ b < s ∧ ∀ e, v n e = op (v a e) (v b e)

theorem builds_app : Builds A bs Node.app A.app := fun _ _ _ _ _ => Iff.rfl
theorem builds_cons : Builds A bs Node.cons A.pair := fun _ _ _ _ _ => Iff.rfl

theorem sel_op (op : D → D → D) (c : B) (e : E) (a b a' b' : D) :
    sel bs c e (op a b) (op a' b') = op (sel bs c e a a') (sel bs c e b b') := by
  unfold sel; split <;> rfl

variable [DecidableEq B]

omit [DecidableEq B] in
/-- The failing result. -/
theorem mergeOk_fail (c : B) (st : St B) (memo : Memo) (l r : Nat) :
    MergeOk A bs ar c st memo l r (st.alloc .fail false).1 memo (st.alloc .fail false).2 := by
  refine ⟨Step0.alloc_plain _ _ _, fun m hm => st.node_alloc_lt hm _ _, fun _ v hv hm => ?_⟩
  refine ⟨v, ?_, fun _ _ => rfl, hm.mono (by rw [st.size_alloc]; omega) (fun _ _ => rfl), .inl ?_⟩
  · intro n nd hn
    by_cases h : n < st.size
    · rw [st.node_alloc_lt h] at hn
      exact (hv n nd hn).mono (by rw [st.size_alloc]; omega) (fun _ _ => rfl) h
    · have h2 := St.node_lt hn
      rw [st.size_alloc] at h2
      have : n = st.size := by omega
      subst this
      rw [st.node_alloc_new] at hn; cases hn; trivial
  · rw [St.isFail_iff, st.alloc_id, st.node_alloc_new]

omit [DecidableEq B] in
/-- One of the two structures is the result. -/
theorem mergeOk_same {c : B} {st : St B} {memo memo' : Memo} {l r n : Nat}
    (h : ∀ v, Describes A bs v st → MemoOk bs c st.size memo v →
      MemoOk bs c st.size memo' v ∧ n < st.size ∧ ∀ e, v n e = sel bs c e (v l e) (v r e)) :
    MergeOk A bs ar c st memo l r st memo' n :=
  ⟨Step0.refl _ _, fun _ _ => rfl, fun _ v hv hm =>
    ⟨v, hv, fun _ _ => rfl, (h v hv hm).1, .inr (h v hv hm).2⟩⟩

omit [DecidableEq B] in
/-- The case of two nodes with two sons each. -/
theorem mergeOk_two {mk : Nat → Nat → Node B} {op : D → D → D} (hb : Builds A bs mk op) {c : B} {st st1 st2 : St B}
    {memo memo1 memo2 : Memo} {l r a b a' b' x y : Nat} (hl : st.node l = some (mk a b))
    (hr : st.node r = some (mk a' b'))
    (h1 : MergeOk A bs ar c (st.alloc .hole false).1 (((l, r), st.size) :: memo) a a' st1 memo1 x) :
    (st1.isFail x = true → MergeOk A bs ar c st memo l r st1 memo1 x) ∧
    (MergeOk A bs ar c st1 memo1 b b' st2 memo2 y →
      (st2.isFail y = true → MergeOk A bs ar c st memo l r st2 memo2 y) ∧
      (st1.isFail x ≠ true → st2.isFail y ≠ true → x = a → y = b →
        MergeOk A bs ar c st memo l r st2 (((l, r), l) :: memo2) l) ∧
      (st1.isFail x ≠ true → st2.isFail y ≠ true → x = a' → y = b' →
        MergeOk A bs ar c st memo l r st2 (((l, r), r) :: memo2) r) ∧
      (st1.isFail x ≠ true → st2.isFail y ≠ true →
        MergeOk A bs ar c st memo l r (st2.put st.size (mk x y) false) memo2 st.size)) := by
  have sz0 := st.size_alloc (.hole) false
  have hlt := St.node_lt hl
  have hrt := St.node_lt hr
  have b01 : Step0 ar st st1 := (Step0.alloc_plain _ _ _).trans h1.base
  have o01 : ∀ m < st.size, st1.node m = st.node m := fun m hm => by
    rw [h1.old m (by omega), st.node_alloc_lt hm]
  have sz1 := h1.base.size
  -- the values after the first recursive call
  have val1 : st1.taint = false → ∀ v, Describes A bs v st → MemoOk bs c st.size memo v →
      ∃ v', Describes A bs v' st1 ∧ (∀ m < st.size, v' m = v m) ∧
        (∀ e, v' st.size e = sel bs c e (v l e) (v r e)) ∧ MemoOk bs c st1.size memo1 v' ∧
        (st1.isFail x = true ∨ x < st1.size ∧ ∀ e, v' x e = sel bs c e (v' a e) (v' a' e)) := by
    intro ht v hv hm
    have hv0 := hv.alloc (nd := .hole) false (fun e => sel bs c e (v l e) (v r e)) trivial
    have hm0 : MemoOk bs c (st.alloc (.hole) false).1.size (((l, r), st.size) :: memo)
        (extend v st.size fun e => sel bs c e (v l e) (v r e)) := by
      apply (hm.mono (by omega) (fun n hn => extend_lt v _ hn)).cons (by omega) (by omega) (by omega)
      intro e
      rw [extend_eq, extend_lt v _ hlt, extend_lt v _ hrt]
    obtain ⟨v', g1, g2, g3, g4⟩ := h1.val ht _ hv0 hm0
    refine ⟨v', g1, fun m hm => ?_, fun e => ?_, g3, g4⟩
    · rw [g2 m (by omega), extend_lt v _ hm]
    · rw [g2 _ (by omega), extend_eq]
  refine ⟨fun hf => ⟨b01, o01, fun ht v hv hm => ?_⟩, fun h2 => ?_⟩
  · obtain ⟨v', g1, g2, _, g3, _⟩ := val1 ht v hv hm
    exact ⟨v', g1, g2, g3, .inl hf⟩
  have b02 := b01.trans h2.base
  have sz2 := h2.base.size
  have o02 : ∀ m < st.size, st2.node m = st.node m := fun m hm => by
    rw [h2.old m (by omega), o01 m hm]
  have nres : st2.node st.size = some .hole := by
    rw [h2.old _ (by omega), h1.old _ (by omega), st.node_alloc_new]
  -- the values after the second one
  have val2 : st2.taint = false → ∀ v, Describes A bs v st → MemoOk bs c st.size memo v →
      ∃ v', Describes A bs v' st2 ∧ (∀ m < st.size, v' m = v m) ∧
        (∀ e, v' st.size e = sel bs c e (v' l e) (v' r e)) ∧ MemoOk bs c st2.size memo2 v' ∧
        (st1.isFail x = true ∨ x < st2.size ∧ ∀ e, v' x e = sel bs c e (v' a e) (v' a' e)) ∧
        (st2.isFail y = true ∨ y < st2.size ∧ ∀ e, v' y e = sel bs c e (v' b e) (v' b' e)) ∧
        (∀ e, sel bs c e (v' l e) (v' r e) = op (sel bs c e (v' a e) (v' a' e)) (sel bs c e (v' b e) (v' b' e))) := by
    intro ht v hv hm
    obtain ⟨p1, p2, p3⟩ := (hb _ _ _ _ _).mp (hv _ _ hl)
    obtain ⟨q1, q2, q3⟩ := (hb _ _ _ _ _).mp (hv _ _ hr)
    obtain ⟨v1, g1, g2, g3, g4, g5⟩ := val1 (h2.base.taint ht) v hv hm
    obtain ⟨v2, k1, k2, k3, k4⟩ := h2.val ht v1 g1 g4
    have k2' : ∀ m < st.size, v2 m = v m := fun m hm => by rw [k2 m (by omega), g2 m hm]
    refine ⟨v2, k1, k2', fun e => ?_, k3, ?_, ?_, fun e => ?_⟩
    · rw [k2 _ (by omega), g3 e, k2' _ hlt, k2' _ hrt]
    · rcases g5 with g5 | ⟨g5, g6⟩
      · exact .inl g5
      · refine .inr ⟨by omega, fun e => ?_⟩
        rw [k2 _ g5, g6 e, g2 _ p1, g2 _ q1, k2' _ p1, k2' _ q1]
    · exact k4
    · rw [k2' _ hlt, k2' _ hrt, p3 e, q3 e, sel_op, k2' _ p1, k2' _ p2, k2' _ q1, k2' _ q2]
  refine ⟨fun hf => ⟨b02, o02, fun ht v hv hm => ?_⟩, fun fx fy hx hy => ⟨b02, o02, fun ht v hv hm => ?_⟩,
    fun fx fy hx hy => ⟨b02, o02, fun ht v hv hm => ?_⟩, fun hx hy => ⟨?_, ?_, fun ht v hv hm => ?_⟩⟩
  · obtain ⟨v', g1, g2, _, g3, _⟩ := val2 ht v hv hm
    exact ⟨v', g1, g2, g3, .inl hf⟩
  · obtain ⟨p1, p2, p3⟩ := (hb _ _ _ _ _).mp (hv _ _ hl)
    obtain ⟨v', g1, g2, g3, g4, g5, g6, g7⟩ := val2 ht v hv hm
    obtain ⟨_, t1⟩ := g5.resolve_left fx
    obtain ⟨_, t2⟩ := g6.resolve_left fy
    have key : ∀ e, v' l e = sel bs c e (v' l e) (v' r e) := by
      intro e
      rw [g7 e, ← t1 e, ← t2 e, hx, hy, g2 _ hlt, g2 _ p1, g2 _ p2]; exact p3 e
    exact ⟨v', g1, g2, g4.cons (by omega) (by omega) (by omega) key, .inr ⟨by omega, key⟩⟩
  · obtain ⟨p1, p2, p3⟩ := (hb _ _ _ _ _).mp (hv _ _ hr)
    obtain ⟨v', g1, g2, g3, g4, g5, g6, g7⟩ := val2 ht v hv hm
    obtain ⟨_, t1⟩ := g5.resolve_left fx
    obtain ⟨_, t2⟩ := g6.resolve_left fy
    have key : ∀ e, v' r e = sel bs c e (v' l e) (v' r e) := by
      intro e
      rw [g7 e, ← t1 e, ← t2 e, hx, hy, g2 _ hrt, g2 _ p1, g2 _ p2]; exact p3 e
    exact ⟨v', g1, g2, g4.cons (by omega) (by omega) (by omega) key, .inr ⟨by omega, key⟩⟩
  · exact b02.trans (Step0.put_plain (hole_not_whnf nres) _ (by omega))
  · intro m hm
    rw [st2.node_put_ne (by omega), o02 m hm]
  · obtain ⟨v', g1, g2, g3, g4, g5, g6, g7⟩ := val2 ht v hv hm
    obtain ⟨p1, p2⟩ := g5.resolve_left hx
    obtain ⟨q1, q2⟩ := g6.resolve_left hy
    refine ⟨v', g1.put _ ((hb _ _ _ _ _).mpr ⟨p1, q1, fun e => ?_⟩), g2, ?_, .inr ⟨?_, g3⟩⟩
    · rw [g3 e, g7 e, p2 e, q2 e]
    · rw [st2.size_put]; exact g4
    · rw [st2.size_put]; omega

omit [DecidableEq B] in
theorem isNone_iff {nd : Node B} (h : isNone nd = true) : nd = .con (.str (cname ['N', 'O', 'N', 'E'])) := by
  unfold isNone at h
  split at h
  · simp at h; rw [h]
  · cases h

omit [DecidableEq B] in
theorem mergeSons_ok {mk : Nat → Nat → Node B} {op : D → D → D} (hb : Builds A bs mk op) {c : B}
    {rec : St B → Memo → Nat → Nat → Option (St B × Memo × Nat)}
    (hrec : ∀ {st st' : St B} {memo memo' : Memo} {l r n : Nat}, rec st memo l r = some (st', memo', n) →
      MergeOk A bs ar c st memo l r st' memo' n)
    {st st' : St B} {memo memo' : Memo} {l r a b a' b' n : Nat} (hl : st.node l = some (mk a b))
    (hr : st.node r = some (mk a' b')) (h : mergeSons rec mk st memo l r a b a' b' = some (st', memo', n)) :
    MergeOk A bs ar c st memo l r st' memo' n := by
  unfold mergeSons at h
  simp only at h
  split at h
  · cases h
  · rename_i st1 memo1 x h1
    have m1 := hrec h1
    split at h
    · rename_i hx
      cases h
      exact (mergeOk_two (st2 := st') (memo2 := memo') (y := n) hb hl hr m1).1 hx
    · rename_i hx
      split at h
      · cases h
      · rename_i st2 memo2 y h2
        have m2 := hrec h2
        obtain ⟨_, k⟩ := mergeOk_two hb hl hr m1
        obtain ⟨k1, k2, k3, k4⟩ := k m2
        split at h
        · rename_i hy; cases h; exact k1 hy
        · rename_i hy
          split at h
          · rename_i hxy; cases h; exact k2 hx hy hxy.1 hxy.2
          · split at h
            · rename_i hxy; cases h; exact k3 hx hy hxy.1 hxy.2
            · cases h; exact k4 hx hy

theorem mergeNodes_ok (c : B) {rec : St B → Memo → Nat → Nat → Option (St B × Memo × Nat)}
    (hrec : ∀ {st st' : St B} {memo memo' : Memo} {l r n : Nat}, rec st memo l r = some (st', memo', n) →
      MergeOk A bs ar c st memo l r st' memo' n)
    {st st' : St B} {memo memo' : Memo} {l r n : Nat}
    (h : mergeNodes bs c rec st memo l r = some (st', memo', n)) : MergeOk A bs ar c st memo l r st' memo' n := by
  unfold mergeNodes at h
  split at h
  · rename_i res hm
    cases h
    exact mergeOk_same fun v hv hmm => ⟨hmm, (hmm _ _ _ (lookup_mem hm)).2.2⟩
  · split at h
    · rename_i hl hr
      exact mergeSons_ok builds_app hrec hl hr h
    · rename_i hl hr
      exact mergeSons_ok builds_cons hrec hl hr h
    · rename_i f g hl hr
      have hlt := St.node_lt hl
      have hrt := St.node_lt hr
      have key : ∀ v : Nat → E → D, Describes A bs v st → ∀ e,
          A.bool (bs.sat (bs.or (bs.and c f) (bs.and (bs.not c) g)) e) = sel bs c e (v l e) (v r e) := by
        intro v hv e
        rw [hv _ _ hl e, hv _ _ hr e, bs.sat_or, bs.sat_and, bs.sat_and, bs.sat_not]
        unfold sel
        cases bs.sat c e <;> simp
      simp only at h
      split at h
      · rename_i hf
        cases h
        refine mergeOk_same fun v hv hmm => ?_
        have k : ∀ e, v l e = sel bs c e (v l e) (v r e) := fun e => by
          rw [← key v hv e, hf]; exact hv _ _ hl e
        exact ⟨hmm.cons hlt hrt hlt k, hlt, k⟩
      · split at h
        · rename_i hf
          cases h
          refine mergeOk_same fun v hv hmm => ?_
          have k : ∀ e, v r e = sel bs c e (v l e) (v r e) := fun e => by
            rw [← key v hv e, hf]; exact hv _ _ hr e
          exact ⟨hmm.cons hlt hrt hrt k, hrt, k⟩
        · cases h
          refine ⟨Step0.alloc _ _ _ _ (fun _ st' n hn => .bool hn), fun m hm => st.node_alloc_lt hm _ _,
            fun _ v hv hmm => ?_⟩
          have sz := st.size_alloc (.bool (bs.or (bs.and c f) (bs.and (bs.not c) g))) true
          let d : E → D := fun e => A.bool (bs.sat (bs.or (bs.and c f) (bs.and (bs.not c) g)) e)
          have k : ∀ e, extend v st.size d st.size e =
              sel bs c e (extend v st.size d l e) (extend v st.size d r e) := fun e => by
            rw [extend_eq, extend_lt v _ hlt, extend_lt v _ hrt]; exact key v hv e
          refine ⟨extend v st.size d, hv.alloc true d (fun e => by rw [extend_eq]),
            fun m hm => extend_lt v _ hm, ?_, .inr ⟨by omega, k⟩⟩
          exact (hmm.mono (by omega) (fun n hn => extend_lt v _ hn)).cons (by omega) (by omega) (by omega) k
    · rename_i a b hl hr
      have hlt := St.node_lt hl
      have hrt := St.node_lt hr
      split at h
      · rename_i hab
        obtain ⟨hab, _⟩ := hab
        subst hab
        cases h
        refine mergeOk_same fun v hv hmm => ?_
        have k : ∀ e, v l e = sel bs c e (v l e) (v r e) := fun e => by
          unfold sel; rw [hv _ _ hl e, hv _ _ hr e]; split <;> rfl
        exact ⟨hmm.cons hlt hrt hlt k, hlt, k⟩
      · cases h; exact mergeOk_fail c st memo l r
    · cases h
    · cases h
    · cases h
    · cases h
    · cases h; exact mergeOk_fail c st memo l r

theorem mergeTo_ok (c : B) : ∀ (k : Nat) {st st' : St B} {memo memo' : Memo} {l r n : Nat},
    merge bs c k st memo l r = some (st', memo', n) → MergeOk A bs ar c st memo l r st' memo' n
  | 0, _, _, _, _, _, _, _, h => by cases h
  | k + 1, st, st', memo, memo', l, r, n, h => by
    unfold merge at h
    split at h
    · rename_i nl nr hl hr
      have m := mergeNodes_ok (A := A) (ar := ar) c (fun h => mergeTo_ok c k h) h
      by_cases hNN : isNone nl = isNone nr
      · rw [if_pos hNN] at m
        by_cases hL : isNone nl = true
        · have e1 := isNone_iff hL
          have e2 := isNone_iff (hNN ▸ hL)
          rw [if_pos hL, if_pos hL] at m
          refine ⟨m.base, m.old, fun ht v hv hm => ?_⟩
          obtain ⟨v', g1, g2, g3, g4⟩ := m.val ht v hv hm
          refine ⟨v', g1, g2, g3, g4.imp id (fun ⟨g5, g6⟩ => ⟨g5, fun e => ?_⟩)⟩
          subst e1; subst e2
          have h1 := hv _ _ hl e
          have h2 := hv _ _ hr e
          rw [g6 e, g2 _ (St.node_lt hl), g2 _ (St.node_lt hr), h1, h2]
        · have hR : ¬ isNone nr = true := hNN ▸ hL
          rw [if_neg hL, if_neg hL, if_neg hR] at m
          exact m
      · rw [if_neg hNN] at m
        have b0 : Step0 ar st ({ st with taint := true } : St B) := Step0.set rfl (fun h => nomatch h)
        refine ⟨b0.trans m.base, m.old, fun ht => ?_⟩
        have := m.base.taint ht
        cases this
    · cases h

end Voss.Fl
