import Verif.Fl.HeapLemmas
/-
The rules of the reducer keep the values of all nodes.
-/
namespace Voss.Fl
variable {B E D : Type} {A : Alg D} {bs : Bools B E} {ar : Nat → Nat}

/-- A node with the contents `old` is `c` applied to all the arguments of its rule. -/
def RedexOf (ar : Nat → Nat) (st : St B) (old : Node B) (c : Con) (as : List Nat) : Prop :=
  ∃ l r as0, old = .app l r ∧ as = as0 ++ [r] ∧ Part st l c as0 ∧ as0.length + 1 = arity ar c

theorem RedexOf.step {st st' : St B} {old c as} (h : RedexOf ar st old c as) (hs : Step0 ar st st') :
    RedexOf ar st' old c as := by
  obtain ⟨l, r, as0, h1, h2, h3, h4⟩ := h
  exact ⟨l, r, as0, h1, h2, hs.stable.part h3 (by omega), h4⟩

theorem RedexOf.not_whnf {st : St B} {old c as n} (h : RedexOf ar st old c as) (hn : st.node n = some old) :
    ¬ Whnf ar st n := by
  obtain ⟨l, r, as0, h1, h2, h3, h4⟩ := h
  subst h1
  exact Part.not_whnf hn (.app hn h3) (by simp; omega)

/-- The redex has the value of `c` applied to the values of the arguments. -/
structure RedVal (A : Alg D) (size redex : Nat) (c : Con) (as : List Nat) (v : Nat → E → D) : Prop where
  lt : redex < size
  args : ∀ a ∈ as, a < size
  val : ∀ e, v redex e = A.apps (A.con c) (as.map fun a => v a e)

theorem RedVal.mono {s s' redex c as} {v v' : Nat → E → D} (h : RedVal A s redex c as v) (hs : s ≤ s')
    (he : ∀ n < s, v' n = v n) : RedVal A s' redex c as v' := by
  refine ⟨Nat.lt_of_lt_of_le h.lt hs, fun a ha => Nat.lt_of_lt_of_le (h.args a ha) hs, fun e => ?_⟩
  rw [he _ h.lt, h.val e]
  congr 1
  apply List.map_congr_left
  intro a ha
  rw [he a (h.args a ha)]

theorem RedexOf.val {st : St B} {old c as n} (h : RedexOf ar st old c as) (hn : st.node n = some old)
    {v : Nat → E → D} (hv : Describes A bs v st) : RedVal A st.size n c as v := by
  obtain ⟨l, r, as0, h1, h2, h3, h4⟩ := h
  subst h1
  have hp : Part st n c (as0 ++ [r]) := .app hn h3
  obtain ⟨g1, g2, g3⟩ := hp.val hv
  subst h2
  exact ⟨g2, g3, g1⟩

theorem Holds.congr {s : Nat} {v : Nat → E → D} {n m : Nat} {nd : Node B} (h : Holds A bs s v n nd)
    (he : ∀ e, v m e = v n e) : Holds A bs s v m nd := by
  cases nd with
  | app l r => exact ⟨h.1, h.2.1, fun e => (he e).trans (h.2.2 e)⟩
  | cons l r => exact ⟨h.1, h.2.1, fun e => (he e).trans (h.2.2 e)⟩
  | con c => exact fun e => (he e).trans (h e)
  | bool f => exact fun e => (he e).trans (h e)
  | fail => trivial
  | hole => trivial

variable [DecidableEq B]

theorem rewrite_step {P : (Nat → E → D) → Prop} {st st' : St B} {redex : Nat} {old nd : Node B} {mk : Bool}
    {c as} (h : st.rewrite redex old nd mk = some st') (hr : RedexOf ar st old c as)
    (hmk : mk = true → ∀ st' : St B, st'.node redex = some nd → Whnf ar st' redex)
    (hP : st.taint = false → ∀ v, Describes A bs v st → P v → Holds A bs st.size v redex nd) :
    StepF A bs ar P st st' := by
  unfold St.rewrite at h
  split at h
  · rename_i hn
    cases h
    refine ⟨Step0.put (hr.not_whnf hn) nd mk (St.node_lt hn) hmk, fun ht v hv hp => ?_⟩
    exact ⟨v, hv.put mk (hP ht v hv hp), fun _ _ => rfl⟩
  · cases h

theorem overwrite_step {P : (Nat → E → D) → Prop} {st st' : St B} {redex n : Nat} {old : Node B}
    {c as} (h : st.overwrite redex old n = some st') (hr : RedexOf ar st old c as)
    (hP : st.isFail n = true ∨ (st.taint = false → ∀ v, Describes A bs v st → P v → ∀ e, v redex e = v n e)) :
    StepF A bs ar P st st' := by
  unfold St.overwrite at h
  split at h
  · cases h
  · rename_i nd hn
    refine rewrite_step h hr (fun h => by cases h) ?_
    intro ht v hv hp
    rcases hP with hP | hP
    · rw [St.isFail_iff] at hP
      rw [hP] at hn; cases hn; trivial
    · exact (hv n nd hn).congr (hP ht v hv hp)

/-- What the rules need of the recursive call of the reducer. -/
def TrOk (A : Alg D) (bs : Bools B E) (ar : Nat → Nat) (tr : St B → Nat → Option (St B × Nat)) : Prop :=
  ∀ st n st' n', tr st n = some (st', n') → Inv ar st → n' = n ∧ Whnf ar st' n ∧ Step A bs ar st st'

/-- What the rules need of the recursive call of `force`. -/
def FoOk (A : Alg D) (bs : Bools B E) (ar : Nat → Nat) (fo : St B → Nat → Option (St B × Nat)) : Prop :=
  ∀ st n st' n', fo st n = some (st', n') → Inv ar st → n' = n ∧ Step A bs ar st st'

omit [DecidableEq B] in
theorem StepF.any {P : (Nat → E → D) → Prop} {a b : St B} (h : Step A bs ar a b) : StepF A bs ar P a b :=
  h.weaken fun _ _ _ => trivial

theorem project_step {tr} (htr : TrOk A bs ar tr) {st st' : St B} {redex n : Nat} {old : Node B} {c as}
    (h : project tr st redex old n = some st') (hi : Inv ar st) (hr : RedexOf ar st old c as) :
    StepF A bs ar (fun v => redex < st.size ∧ n < st.size ∧ ∀ e, v redex e = v n e) st st' := by
  unfold project at h
  split at h
  · cases h
  · rename_i st1 n1 h1
    obtain ⟨e1, hw, hs⟩ := htr _ _ _ _ h1 hi
    subst e1
    refine StepF.trans (Q := fun v => ∀ e, v redex e = v n1 e) hs.any
      (overwrite_step h (hr.step hs.base) (.inr fun _ _ _ hp => hp)) ?_
    intro v v' _ hp _ he e
    rw [he _ hp.1, he _ hp.2.1]; exact hp.2.2 e

section rules
variable {dt : Data A} {tr : St B → Nat → Option (St B × Nat)}

theorem fireSeq_step (htr : TrOk A bs ar tr) (dt : Data A) {st st' : St B} {redex x y : Nat} {old : Node B}
    (h : fireSeq tr st redex old x y = some st') (hi : Inv ar st) (hr : RedexOf ar st old .seq [x, y]) :
    StepF A bs ar (RedVal A st.size redex .seq [x, y]) st st' := by
  unfold fireSeq at h
  split at h
  · cases h
  · rename_i st1 x1 h1
    obtain ⟨e1, hw, hs⟩ := htr _ _ _ _ h1 hi
    subst e1
    refine StepF.trans (Q := RedVal A st1.size redex .seq [x1, y]) hs.any ?_
      (fun v v' _ hp _ he => hp.mono hs.base.size he)
    split at h
    · rename_i hf
      exact overwrite_step h (hr.step hs.base) (.inl hf)
    · refine (project_step htr h (hs.base.inv hi) (hr.step hs.base)).weaken ?_
      intro v _ hp
      refine ⟨hp.lt, hp.args y (by simp), fun e => ?_⟩
      rw [hp.val e]; exact dt.seq _ _

theorem whnf_proper {ext : Ext B} (ops : Ops A dt bs ext) {st : St B} {n : Nat} (hw : Whnf ext.arity st n)
    (hf : st.node n ≠ some .fail) (hp : st.node n ≠ some (.con .pfail)) {v : Nat → E → D}
    (hv : Describes A bs v st) (e : E) : dt.proper (v n e) := by
  cases hw with
  | cons h => rw [(hv _ _ h).2.2 e]; exact dt.proper_cons _ _
  | bool h => rw [hv _ _ h e]; exact dt.proper_bool _
  | fail h => exact absurd h hf
  | leaf h hl =>
    rw [hv _ _ h e]
    rename_i c
    cases c with
    | nil => exact dt.proper_nil
    | int n => exact dt.proper_int n
    | str s => exact dt.proper_str s
    | tt => exact dt.proper_bool true
    | ff => exact dt.proper_bool false
    | _ => cases hl
  | part hpart hl =>
    rename_i c as
    rw [(hpart.val hv).1 e]
    apply ops.proper_part
    · rintro rfl
      cases hpart with
      | con h => exact hp h
      | app h _ => simp [arity] at hl
    · simpa using hl

theorem firePcatch_step {ext : Ext B} (ops : Ops A dt bs ext) (htr : TrOk A bs ext.arity tr) {st st' : St B}
    {redex x y : Nat} {old : Node B}
    (h : firePcatch tr st redex old x y = some st') (hi : Inv ext.arity st)
    (hr : RedexOf ext.arity st old .pcatch [x, y]) :
    StepF A bs ext.arity (RedVal A st.size redex .pcatch [x, y]) st st' := by
  unfold firePcatch at h
  split at h
  · cases h
  · rename_i st1 x1 h1
    obtain ⟨e1, hw, hs⟩ := htr _ _ _ _ h1 hi
    subst e1
    refine StepF.trans (Q := RedVal A st1.size redex .pcatch [x1, y]) hs.any ?_
      (fun v v' _ hp _ he => hp.mono hs.base.size he)
    split at h
    · rename_i hn
      refine (project_step htr h (hs.base.inv hi) (hr.step hs.base)).weaken ?_
      intro v hv hp
      refine ⟨hp.lt, hp.args y (by simp), fun e => ?_⟩
      rw [hp.val e]
      show A.app (A.app (A.con .pcatch) (v x1 e)) (v y e) = v y e
      rw [hv _ _ hn e]; exact dt.pcatch_pfail _
    · rename_i hn
      by_cases hf : st1.isFail x1 = true
      · exact overwrite_step h (hr.step hs.base) (.inl hf)
      · refine overwrite_step h (hr.step hs.base) (.inr fun _ v hv hp e => ?_)
        rw [hp.val e]
        show A.app (A.app (A.con .pcatch) (v x1 e)) (v y e) = v x1 e
        exact dt.pcatch_proper _ _ (whnf_proper ops hw (fun g => hf (st1.isFail_iff.mpr g)) hn hv e)

theorem fireError_step (htr : TrOk A bs ar tr) {st st' : St B} {redex x : Nat} {old : Node B}
    (h : fireError tr st redex old x = some st') (hi : Inv ar st) {c as} (hr : RedexOf ar st old c as)
    (P : (Nat → E → D) → Prop) : StepF A bs ar P st st' := by
  unfold fireError at h
  split at h
  · cases h
  · rename_i st1 x1 h1
    obtain ⟨e1, hw, hs⟩ := htr _ _ _ _ h1 hi
    refine StepF.trans (Q := fun _ => True) hs.any ?_ (fun _ _ _ _ _ _ => trivial)
    split at h
    · rename_i hf
      exact overwrite_step h (hr.step hs.base) (.inl hf)
    · exact rewrite_step h (hr.step hs.base) (fun h => by cases h) (fun _ _ _ _ => trivial)

theorem test1_val (dt : Data A) {c : Con} {nd : Node B} {f : B} (h : test1 bs c nd = some f) {s n : Nat}
    {v : Nat → E → D} (hv : Holds A bs s v n nd) (e : E) :
    A.app (A.con c) (v n e) = A.bool (bs.sat f e) := by
  unfold test1 at h
  split at h <;> cases h
  · rw [hv e, bs.sat_one]; exact dt.empty_nil
  · rw [hv.2.2 e, bs.sat_zero]; exact dt.empty_cons _ _
  · rw [hv e, bs.sat_zero]; exact dt.isCons_nil
  · rw [hv.2.2 e, bs.sat_one]; exact dt.isCons_cons _ _
  · rw [hv e, bs.sat_zero]; exact dt.isTuple_str _
  · rw [hv.2.2 e, bs.sat_one]; exact dt.isTuple_cons _ _

theorem fireTest_step (dt : Data A) (htr : TrOk A bs ar tr) {st st' : St B} {redex x : Nat} {old : Node B}
    {c : Con} (h : fireTest bs tr st redex old c x = some st') (hi : Inv ar st) (hr : RedexOf ar st old c [x]) :
    StepF A bs ar (RedVal A st.size redex c [x]) st st' := by
  unfold fireTest at h
  split at h
  · cases h
  · rename_i st1 x1 h1
    obtain ⟨e1, hw, hs⟩ := htr _ _ _ _ h1 hi
    subst e1
    refine StepF.trans (Q := RedVal A st1.size redex c [x1]) hs.any ?_
      (fun v v' _ hp _ he => hp.mono hs.base.size he)
    split at h
    · rename_i hf
      exact overwrite_step h (hr.step hs.base) (.inl hf)
    · split at h
      · cases h
      · rename_i nx hx
        split at h
        · cases h
        · rename_i f hf
          refine rewrite_step h (hr.step hs.base) (fun h => by cases h) (fun _ v hv hp e => ?_)
          rw [hp.val e]
          exact test1_val dt hf (hv _ _ hx) e

theorem fireField_step (dt : Data A) (htr : TrOk A bs ar tr) {st st' : St B} {redex x : Nat} {old : Node B}
    {c : Con} (hc : c = .head ∨ c = .tail ∨ c = .fst ∨ c = .snd)
    (h : fireField tr st redex old c x = some st') (hi : Inv ar st) (hr : RedexOf ar st old c [x]) :
    StepF A bs ar (RedVal A st.size redex c [x]) st st' := by
  unfold fireField at h
  split at h
  · cases h
  · rename_i st1 x1 h1
    obtain ⟨e1, hw, hs⟩ := htr _ _ _ _ h1 hi
    subst e1
    refine StepF.trans (Q := RedVal A st1.size redex c [x1]) hs.any ?_
      (fun v v' _ hp _ he => hp.mono hs.base.size he)
    split at h
    · rename_i hf
      exact overwrite_step h (hr.step hs.base) (.inl hf)
    · split at h
      · rename_i hd tl hx
        refine (project_step htr h (hs.base.inv hi) (hr.step hs.base)).weaken ?_
        intro v hv hp
        obtain ⟨g1, g2, g3⟩ := hv _ _ hx
        refine ⟨hp.lt, ?_, fun e => ?_⟩
        · rcases hc with rfl | rfl | rfl | rfl
          · exact g1
          · exact g2
          · exact g1
          · exact g2
        · rw [hp.val e]
          show A.app (A.con c) (v x1 e) = _
          rw [g3 e]
          rcases hc with rfl | rfl | rfl | rfl
          · exact dt.head_cons _ _
          · exact dt.tail_cons _ _
          · exact dt.fst_cons _ _
          · exact dt.snd_cons _ _
      · exact rewrite_step h (hr.step hs.base) (fun h => by cases h) (fun _ _ _ _ => trivial)
      · cases h

theorem test2_val {ext : Ext B} (ops : Ops A dt bs ext) {c : Con} {nx ny : Node B} {f : B} {syn : Bool}
    (h : test2 bs c nx ny = some (f, syn)) (hs : syn = false) {s x y : Nat} {v : Nat → E → D}
    (hx : Holds A bs s v x nx) (hy : Holds A bs s v y ny) (e : E) :
    A.app (A.app (A.con c) (v x e)) (v y e) = A.bool (bs.sat f e) := by
  have hb : ∀ (p : Prop) [Decidable p], bs.sat (if p then bs.one else bs.zero) e = decide p := by
    intro p _
    by_cases hp : p
    · simp [hp, bs.sat_one]
    · simp [hp, bs.sat_zero]
  unfold test2 at h
  split at h
  · cases h; rw [hx e, hy e, hb]; exact dt.equal_int _ _
  · cases h; rw [hx e, hy e, bs.sat_xnor]; exact ops.equal_bool _ _
  · cases h; rw [hx e, hy e, hb]; exact dt.constrEq_str _ _
  · cases h; rw [hx.2.2 e, hy e, bs.sat_zero]; exact dt.constrEq_pair _ _ _
  · rename_i f1 g1
    cases h
    rw [hx e, hy e, hb, dt.identical_bool]
    congr 1
    simp only [Bool.not_eq_false', Bool.or_eq_true, Bool.and_eq_true, decide_eq_true_eq] at hs
    rcases hs with rfl | ⟨rfl | rfl, rfl | rfl⟩
    · simp
    · simp
    · by_cases hz : bs.one = bs.zero
      · have := bs.sat_one e; rw [hz, bs.sat_zero] at this; cases this
      · simp [hz, bs.sat_one, bs.sat_zero]
    · by_cases hz : bs.zero = bs.one
      · have := bs.sat_one e; rw [← hz, bs.sat_zero] at this; cases this
      · simp [hz, bs.sat_one, bs.sat_zero]
    · simp
  · cases h

theorem fireCmp_step {ext : Ext B} (ops : Ops A dt bs ext) (htr : TrOk A bs ar tr) {st st' : St B}
    {redex x y : Nat} {old : Node B} {c : Con} (h : fireCmp bs tr st redex old c x y = some st')
    (hi : Inv ar st) (hr : RedexOf ar st old c [x, y]) :
    StepF A bs ar (RedVal A st.size redex c [x, y]) st st' := by
  unfold fireCmp at h
  split at h
  · cases h
  · rename_i st1 x1 h1
    obtain ⟨e1, hw, hs⟩ := htr _ _ _ _ h1 hi
    subst e1
    refine StepF.trans (Q := RedVal A st1.size redex c [x1, y]) hs.any ?_
      (fun v v' _ hp _ he => hp.mono hs.base.size he)
    split at h
    · rename_i hf
      exact overwrite_step h (hr.step hs.base) (.inl hf)
    · split at h
      · cases h
      · rename_i st2 y1 h2
        obtain ⟨e2, hw2, hs2⟩ := htr _ _ _ _ h2 (hs.base.inv hi)
        subst e2
        have hr2 := (hr.step hs.base).step hs2.base
        refine StepF.trans (Q := RedVal A st2.size redex c [x1, y1]) hs2.any ?_
          (fun v v' _ hp _ he => hp.mono hs2.base.size he)
        split at h
        · rename_i hf
          exact overwrite_step h hr2 (.inl hf)
        · split at h
          · rename_i nx ny hx hy
            split at h
            · cases h
            · rename_i f syn ht
              have hset : Step0 ar st2 ({ st2 with taint := st2.taint || syn } : St B) :=
                Step0.set rfl (fun g => by
                  have g' : (st2.taint || syn) = false := g
                  simp at g'; exact g'.1)
              have hsf : StepF A bs ar (RedVal A st2.size redex c [x1, y1]) st2
                  ({ st2 with taint := st2.taint || syn } : St B) :=
                ⟨hset, fun _ v hv _ => ⟨v, hv.heap rfl, fun _ _ => rfl⟩⟩
              refine StepF.trans (Q := RedVal A st2.size redex c [x1, y1]) hsf ?_
                (fun v v' _ hp _ he => hp.mono (Nat.le_refl _) he)
              refine rewrite_step h (hr2.step hset) (fun h => by cases h) (fun htt v hv hp e => ?_)
              have g' : (st2.taint || syn) = false := htt
              simp at g'
              rw [hp.val e]
              exact test2_val ops ht g'.2 (hv _ _ hx) (hv _ _ hy) e
          · cases h

theorem evalArgs_step (htr : TrOk A bs ar tr) : ∀ (as : List Nat) {st st' : St B} {res},
    evalArgs tr st as = some (st', res) → Inv ar st →
    Step A bs ar st st' ∧ (∀ n, res = .inr n → st'.isFail n = true) ∧ (∀ ns, res = .inl ns → ns = as)
  | [], st, st', res, h, _ => by
    cases h
    exact ⟨StepF.refl _ _, (fun n h => nomatch h), (fun ns h => (Sum.inl.inj h).symm)⟩
  | a :: as, st, st', res, h, hi => by
    unfold evalArgs at h
    split at h
    · cases h
    · rename_i st1 a1 h1
      obtain ⟨e1, hw, hs⟩ := htr _ _ _ _ h1 hi
      subst e1
      split at h
      · rename_i hf
        cases h
        exact ⟨hs, (fun n h => Sum.inr.inj h ▸ hf), (fun ns h => nomatch h)⟩
      · split at h
        · cases h
        · rename_i st2 n h2
          cases h
          obtain ⟨g1, g2, g3⟩ := evalArgs_step htr as h2 (hs.base.inv hi)
          exact ⟨hs.trans g1 (fun _ _ _ _ _ _ => trivial), (fun m hm => Sum.inr.inj hm ▸ g2 n rfl),
            (fun ns h => nomatch h)⟩
        · rename_i st2 ns h2
          cases h
          obtain ⟨g1, g2, g3⟩ := evalArgs_step htr as h2 (hs.base.inv hi)
          refine ⟨hs.trans g1 (fun _ _ _ _ _ _ => trivial), (fun m hm => nomatch hm), (fun ms h => ?_)⟩
          rw [← Sum.inl.inj h, g3 ns rfl]

omit [DecidableEq B] in
theorem scalars_val {v : Nat → E → D} {st : St B} (hv : Describes A bs v st) (e : E) : ∀ (ns : List Nat) {ss},
    scalars st ns = some ss → ss.map (Scalar.val A bs e) = ns.map (fun n => v n e) ∧ ss.length = ns.length
  | [], ss, h => by cases h; exact ⟨rfl, rfl⟩
  | n :: ns, ss, h => by
    unfold scalars at h
    split at h
    · rename_i s ss1 h1 h2
      cases h
      obtain ⟨g1, g2⟩ := scalars_val hv e ns h2
      obtain ⟨nd, hn, hs⟩ := Option.bind_eq_some_iff.mp h1
      have : s.val A bs e = v n e := by
        unfold Node.scalar at hs
        split at hs <;> cases hs
        · exact (hv _ _ hn e).symm
        · exact (hv _ _ hn e).symm
        · exact (hv _ _ hn e).symm
      exact ⟨by rw [List.map_cons, List.map_cons, g1, this], by simp [g2]⟩
    · cases h

omit [DecidableEq B] in
theorem ext_node_whnf (ext : Ext B) (p : Nat) (ss : List (Scalar B)) (st : St B) (n : Nat)
    (h : st.node n = some (ext.node p ss)) : Whnf ar st n := by
  unfold Ext.node at h
  split at h
  · rename_i s _
    cases s with
    | int i => exact .leaf h rfl
    | str i => exact .leaf h rfl
    | bool f => exact .bool h
  · exact .fail h

omit [DecidableEq B] in
theorem ext_node_val {ext : Ext B} (ops : Ops A dt bs ext) {p : Nat} {ss : List (Scalar B)}
    (hl : ss.length = ext.arity p) {s n : Nat} {v : Nat → E → D}
    (h : ∀ e, v n e = A.apps (A.con (.prim p)) (ss.map (Scalar.val A bs e))) :
    Holds A bs s v n (ext.node p ss) := by
  unfold Ext.node
  split
  · rename_i sc hr
    have h2 : ∀ e, v n e = sc.val A bs e := fun e => (h e).trans (ops.run p ss sc e hl hr)
    cases sc with
    | int i => exact h2
    | str i => exact h2
    | bool f => exact h2
  · trivial

theorem fireExt_step {ext : Ext B} (ops : Ops A dt bs ext) (htr : TrOk A bs ar tr) {st st' : St B}
    {redex : Nat} {old : Node B} {p : Nat} {as : List Nat} (h : fireExt ext tr st redex old p as = some st')
    (hi : Inv ar st) (hr : RedexOf ar st old (.prim p) as) (hl : as.length = ext.arity p) :
    StepF A bs ar (RedVal A st.size redex (.prim p) as) st st' := by
  unfold fireExt at h
  split at h
  · cases h
  · rename_i st1 n h1
    obtain ⟨hs, g2, _⟩ := evalArgs_step htr as h1 hi
    exact StepF.trans (Q := fun _ => True) hs.any (overwrite_step h (hr.step hs.base) (.inl (g2 n rfl)))
      (fun _ _ _ _ _ _ => trivial)
  · rename_i st1 ns h1
    obtain ⟨hs, _, g3⟩ := evalArgs_step htr as h1 hi
    have e1 := g3 ns rfl
    subst e1
    split at h
    · cases h
    · rename_i ss hss
      refine StepF.trans (Q := RedVal A st1.size redex (.prim p) ns) hs.any ?_
        (fun v v' _ hp _ he => hp.mono hs.base.size he)
      refine rewrite_step h (hr.step hs.base) (fun _ st' hst => ext_node_whnf ext p ss st' redex hst)
        (fun _ v hv hp => ?_)
      by_cases hE : Nonempty E
      · obtain ⟨e0⟩ := hE
        apply ext_node_val ops (((scalars_val hv e0 ns hss).2).trans hl)
        intro e
        rw [hp.val e, (scalars_val hv e ns hss).1]
      · have hno : ∀ e : E, False := fun e => hE ⟨e⟩
        unfold Ext.node
        split
        · rename_i sc _
          cases sc <;> exact fun e => (hno e).elim
        · trivial

end rules

/-! ### Rules that rebuild the redex -/

omit [DecidableEq B] in
theorem Describes.alloc_ex {v} {st : St B} (hv : Describes A bs v st) {l r : Nat} (hl : l < st.size)
    (hr : r < st.size) :
    ∃ v', Describes A bs v' (st.alloc (.app l r) false).1 ∧ (∀ n < st.size, v' n = v n) ∧
      (∀ e, v' st.size e = A.app (v l e) (v r e)) :=
  ⟨_, hv.alloc_app hl hr, fun _ h => extend_lt v _ h, fun e => by rw [extend_eq]⟩

omit [DecidableEq B] in
theorem RedexOf.alloc {st : St B} {old c as} (h : RedexOf ar st old c as) {redex : Nat}
    (hn : st.node redex = some old) (nd : Node B) :
    RedexOf ar (st.alloc nd false).1 old c as ∧ (st.alloc nd false).1.node redex = some old :=
  ⟨h.step (Step0.alloc_plain ar st nd), by rw [st.node_alloc_lt (St.node_lt hn)]; exact hn⟩

omit [DecidableEq B] in
theorem contract_step (dt : Data A) {st st' : St B} {redex : Nat} {old : Node B} {c as}
    (h : contract st redex c as = some st') (hn : st.node redex = some old) (hr : RedexOf ar st old c as) :
    StepF A bs ar (RedVal A st.size redex c as) st st' := by
  have hlt := St.node_lt hn
  unfold contract at h
  split at h
  · -- S
    rename_i f g x
    simp only [Option.some.injEq] at h
    obtain ⟨r1, n1⟩ := hr.alloc hn (.app f x)
    obtain ⟨r2, n2⟩ := r1.alloc n1 (.app g x)
    subst h
    refine ⟨((Step0.alloc_plain ar _ _).trans (Step0.alloc_plain ar _ _)).trans
      (Step0.put_plain (r2.not_whnf n2) _ (St.node_lt n2)), fun _ v hv hp => ?_⟩
    have hf := hp.args f (by simp); have hg := hp.args g (by simp); have hx := hp.args x (by simp)
    obtain ⟨v1, hv1, e1, m1⟩ := hv.alloc_ex hf hx
    have sz1 := st.size_alloc (.app f x) false
    obtain ⟨v2, hv2, e2, m2⟩ := hv1.alloc_ex (l := g) (r := x) (by omega) (by omega)
    have sz2 := (st.alloc (.app f x) false).1.size_alloc (.app g x) false
    refine ⟨v2, hv2.put _ ⟨?_, ?_, fun e => ?_⟩, fun n h => ?_⟩
    · rw [St.alloc_id, sz2, sz1]; omega
    · rw [St.alloc_id, sz2]; omega
    · rw [St.alloc_id, St.alloc_id, m2 e, e2 _ (by rw [sz1]; omega), e2 _ (by rw [sz1]; omega), m1 e,
        e1 _ hlt, e1 _ hg, e1 _ hx, hp.val e]
      exact A.law_S _ _ _
    · rw [e2 _ (by rw [sz1]; omega), e1 _ h]
  · -- S'
    rename_i m n o p
    simp only [Option.some.injEq] at h
    obtain ⟨r1, n1⟩ := hr.alloc hn (.app n p)
    obtain ⟨r2, n2⟩ := r1.alloc n1 (.app m st.size)
    obtain ⟨r3, n3⟩ := r2.alloc n2 (.app o p)
    subst h
    refine ⟨(((Step0.alloc_plain ar _ _).trans (Step0.alloc_plain ar _ _)).trans (Step0.alloc_plain ar _ _)).trans
      (Step0.put_plain (r3.not_whnf n3) _ (St.node_lt n3)), fun _ v hv hp => ?_⟩
    have hm := hp.args m (by simp); have hn' := hp.args n (by simp); have ho := hp.args o (by simp)
    have hpp := hp.args p (by simp)
    obtain ⟨v1, hv1, e1, m1⟩ := hv.alloc_ex hn' hpp
    have sz1 := st.size_alloc (.app n p) false
    obtain ⟨v2, hv2, e2, m2⟩ := hv1.alloc_ex (l := m) (r := st.size) (by omega) (by omega)
    have sz2 := (st.alloc (.app n p) false).1.size_alloc (.app m st.size) false
    obtain ⟨v3, hv3, e3, m3⟩ := hv2.alloc_ex (l := o) (r := p) (by omega) (by omega)
    have sz3 := ((st.alloc (.app n p) false).1.alloc (.app m st.size) false).1.size_alloc (.app o p) false
    refine ⟨v3, hv3.put _ ⟨?_, ?_, fun e => ?_⟩, fun k h => ?_⟩
    · rw [St.alloc_id, sz1]; erw [sz3, sz2, sz1]; omega
    · rw [St.alloc_id]; erw [sz3]; exact Nat.lt_succ_self _
    · rw [St.alloc_id, St.alloc_id]
      erw [m3 e, e3 redex (by omega), e3 (st.alloc (.app n p) false).1.size (by omega), m2 e,
        e2 redex (by omega), e2 o (by omega), e2 p (by omega), m1 e, e1 redex hlt, e1 m hm, e1 o ho, e1 p hpp, hp.val e]
      exact A.law_S' _ _ _ _
    · rw [e3 _ (by omega), e2 _ (by omega), e1 _ h]
  · -- C
    rename_i f x y
    simp only [Option.some.injEq] at h
    obtain ⟨r1, n1⟩ := hr.alloc hn (.app f y)
    subst h
    refine ⟨(Step0.alloc_plain ar _ _).trans (Step0.put_plain (r1.not_whnf n1) _ (St.node_lt n1)), fun _ v hv hp => ?_⟩
    have hf := hp.args f (by simp); have hx := hp.args x (by simp); have hy := hp.args y (by simp)
    obtain ⟨v1, hv1, e1, m1⟩ := hv.alloc_ex hf hy
    have sz1 := st.size_alloc (.app f y) false
    refine ⟨v1, hv1.put _ ⟨?_, ?_, fun e => ?_⟩, e1⟩
    · rw [St.alloc_id, sz1]; omega
    · omega
    · rw [St.alloc_id, m1 e, e1 _ hlt, e1 _ hx, hp.val e]
      exact A.law_C _ _ _
  · -- C'
    rename_i m n o p
    simp only [Option.some.injEq] at h
    obtain ⟨r1, n1⟩ := hr.alloc hn (.app n p)
    obtain ⟨r2, n2⟩ := r1.alloc n1 (.app m st.size)
    subst h
    refine ⟨((Step0.alloc_plain ar _ _).trans (Step0.alloc_plain ar _ _)).trans
      (Step0.put_plain (r2.not_whnf n2) _ (St.node_lt n2)), fun _ v hv hp => ?_⟩
    have hm := hp.args m (by simp); have hn' := hp.args n (by simp); have ho := hp.args o (by simp)
    have hpp := hp.args p (by simp)
    obtain ⟨v1, hv1, e1, m1⟩ := hv.alloc_ex hn' hpp
    have sz1 := st.size_alloc (.app n p) false
    obtain ⟨v2, hv2, e2, m2⟩ := hv1.alloc_ex (l := m) (r := st.size) (by omega) (by omega)
    have sz2 := (st.alloc (.app n p) false).1.size_alloc (.app m st.size) false
    refine ⟨v2, hv2.put _ ⟨?_, ?_, fun e => ?_⟩, fun k h => ?_⟩
    · rw [St.alloc_id]; erw [sz2]; exact Nat.lt_succ_self _
    · erw [sz2]; omega
    · rw [St.alloc_id]
      erw [m2 e, e2 redex (by omega), e2 o (by omega), m1 e, e1 redex hlt, e1 m hm, e1 o ho, hp.val e]
      exact A.law_C' _ _ _ _
    · rw [e2 _ (by omega), e1 _ h]
  · -- B
    rename_i f g x
    simp only [Option.some.injEq] at h
    obtain ⟨r1, n1⟩ := hr.alloc hn (.app g x)
    subst h
    refine ⟨(Step0.alloc_plain ar _ _).trans (Step0.put_plain (r1.not_whnf n1) _ (St.node_lt n1)), fun _ v hv hp => ?_⟩
    have hf := hp.args f (by simp); have hg := hp.args g (by simp); have hx := hp.args x (by simp)
    obtain ⟨v1, hv1, e1, m1⟩ := hv.alloc_ex hg hx
    have sz1 := st.size_alloc (.app g x) false
    refine ⟨v1, hv1.put _ ⟨?_, ?_, fun e => ?_⟩, e1⟩
    · omega
    · rw [St.alloc_id, sz1]; omega
    · rw [St.alloc_id, m1 e, e1 _ hlt, e1 _ hf, hp.val e]
      exact A.law_B _ _ _
  · -- Bstar
    rename_i c f g x
    simp only [Option.some.injEq] at h
    obtain ⟨r1, n1⟩ := hr.alloc hn (.app g x)
    obtain ⟨r2, n2⟩ := r1.alloc n1 (.app f st.size)
    subst h
    refine ⟨((Step0.alloc_plain ar _ _).trans (Step0.alloc_plain ar _ _)).trans
      (Step0.put_plain (r2.not_whnf n2) _ (St.node_lt n2)), fun _ v hv hp => ?_⟩
    have hc := hp.args c (by simp); have hf := hp.args f (by simp); have hg := hp.args g (by simp)
    have hx := hp.args x (by simp)
    obtain ⟨v1, hv1, e1, m1⟩ := hv.alloc_ex hg hx
    have sz1 := st.size_alloc (.app g x) false
    obtain ⟨v2, hv2, e2, m2⟩ := hv1.alloc_ex (l := f) (r := st.size) (by omega) (by omega)
    have sz2 := (st.alloc (.app g x) false).1.size_alloc (.app f st.size) false
    refine ⟨v2, hv2.put _ ⟨?_, ?_, fun e => ?_⟩, fun k h => ?_⟩
    · erw [sz2]; omega
    · rw [St.alloc_id]; erw [sz2]; exact Nat.lt_succ_self _
    · rw [St.alloc_id]
      erw [m2 e, e2 redex (by omega), e2 c (by omega), m1 e, e1 redex hlt, e1 f hf, e1 c hc, hp.val e]
      exact A.law_Bstar _ _ _ _
    · rw [e2 _ (by omega), e1 _ h]
  · -- B'
    rename_i c f g x
    simp only [Option.some.injEq] at h
    obtain ⟨r1, n1⟩ := hr.alloc hn (.app c f)
    obtain ⟨r2, n2⟩ := r1.alloc n1 (.app g x)
    subst h
    refine ⟨((Step0.alloc_plain ar _ _).trans (Step0.alloc_plain ar _ _)).trans
      (Step0.put_plain (r2.not_whnf n2) _ (St.node_lt n2)), fun _ v hv hp => ?_⟩
    have hc := hp.args c (by simp); have hf := hp.args f (by simp); have hg := hp.args g (by simp)
    have hx := hp.args x (by simp)
    obtain ⟨v1, hv1, e1, m1⟩ := hv.alloc_ex hc hf
    have sz1 := st.size_alloc (.app c f) false
    obtain ⟨v2, hv2, e2, m2⟩ := hv1.alloc_ex (l := g) (r := x) (by omega) (by omega)
    have sz2 := (st.alloc (.app c f) false).1.size_alloc (.app g x) false
    refine ⟨v2, hv2.put _ ⟨?_, ?_, fun e => ?_⟩, fun n h => ?_⟩
    · rw [St.alloc_id, sz2, sz1]; omega
    · rw [St.alloc_id, sz2]; omega
    · rw [St.alloc_id, St.alloc_id, m2 e, e2 _ (by rw [sz1]; omega), e2 _ (by rw [sz1]; omega), m1 e,
        e1 _ hlt, e1 _ hg, e1 _ hx, hp.val e]
      exact A.law_B' _ _ _ _
    · rw [e2 _ (by rw [sz1]; omega), e1 _ h]
  · -- Y
    rename_i f
    cases h
    refine ⟨Step0.put_plain (hr.not_whnf hn) _ hlt, fun _ v hv hp => ⟨v, hv.put _ ?_, fun _ _ => rfl⟩⟩
    refine ⟨hp.args f (by simp), hlt, fun e => ?_⟩
    rw [hp.val e]; exact A.law_Y _
  · -- cons
    rename_i x y
    cases h
    refine ⟨Step0.put_plain (hr.not_whnf hn) _ hlt, fun _ v hv hp => ⟨v, hv.put _ ?_, fun _ _ => rfl⟩⟩
    exact ⟨hp.args x (by simp), hp.args y (by simp), fun e => hp.val e⟩
  · -- tuple
    rename_i x y
    cases h
    refine ⟨Step0.put_plain (hr.not_whnf hn) _ hlt, fun _ v hv hp => ⟨v, hv.put _ ?_, fun _ _ => rfl⟩⟩
    refine ⟨hp.args x (by simp), hp.args y (by simp), fun e => ?_⟩
    rw [hp.val e]; exact dt.tuple_cons _ _
  · cases h

end Voss.Fl
