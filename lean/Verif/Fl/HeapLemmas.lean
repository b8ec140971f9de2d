import Verif.Fl.HeapSpec
/-
Lemmas about the reducer.
-/
namespace Voss.Fl
variable {B E D : Type}

namespace St
variable (st : St B)

theorem node_lt {st : St B} {n : Nat} {nd : Node B} (h : st.node n = some nd) : n < st.size := by
  unfold node at h
  cases h1 : st.heap[n]? with
  | none => rw [h1] at h; simp at h
  | some c =>
    obtain ⟨h2, _⟩ := List.getElem?_eq_some_iff.mp h1
    exact h2

theorem size_put (n : Nat) (nd : Node B) (mk : Bool) : (st.put n nd mk).size = st.size := by
  simp [put, size]

theorem node_put_ne {n m : Nat} (h : m ≠ n) (nd : Node B) (mk : Bool) : (st.put n nd mk).node m = st.node m := by
  unfold node put
  simp only [List.getElem?_modify]
  have h' : ¬ n = m := fun g => h g.symm
  cases st.heap[m]? <;> simp [h']

theorem node_put_same {n : Nat} (h : n < st.size) (nd : Node B) (mk : Bool) :
    (st.put n nd mk).node n = some nd := by
  unfold node put
  simp only [List.getElem?_modify]
  have : st.heap[n]? = some st.heap[n] := List.getElem?_eq_getElem h
  rw [this]
  simp

theorem forced_put_ne {n m : Nat} (h : m ≠ n) (nd : Node B) (mk : Bool) :
    (st.put n nd mk).forced m = st.forced m := by
  unfold forced put
  simp only [List.getElem?_modify]
  have h' : ¬ n = m := fun g => h g.symm
  cases st.heap[m]? <;> simp [h']

theorem forced_put_same (n : Nat) (nd : Node B) (mk : Bool) :
    (st.put n nd mk).forced n = true → st.forced n = true ∨ mk = true := by
  unfold forced put
  simp only [List.getElem?_modify]
  cases st.heap[n]? with
  | none => simp
  | some c => simp

theorem size_mark (n : Nat) : (st.mark n).size = st.size := by simp [mark, size]

theorem node_mark (n m : Nat) : (st.mark n).node m = st.node m := by
  unfold node mark
  simp only [List.getElem?_modify]
  by_cases h : n = m
  · cases st.heap[m]? <;> simp [h]
  · cases st.heap[m]? <;> simp [h]

theorem forced_mark (n m : Nat) (h : (st.mark n).forced m = true) : m = n ∨ st.forced m = true := by
  by_cases hm : m = n
  · exact .inl hm
  · right
    unfold forced mark at h
    simp only [List.getElem?_modify] at h
    have h' : ¬ n = m := fun g => hm g.symm
    unfold forced
    cases h1 : st.heap[m]? with
    | none => rw [h1] at h; simp at h
    | some c => rw [h1] at h; simpa [h'] using h

theorem size_alloc (nd : Node B) (mk : Bool) : (st.alloc nd mk).1.size = st.size + 1 := by
  simp [alloc, size]

theorem alloc_id (nd : Node B) (mk : Bool) : (st.alloc nd mk).2 = st.size := rfl

theorem node_alloc_lt {m : Nat} (h : m < st.size) (nd : Node B) (mk : Bool) :
    (st.alloc nd mk).1.node m = st.node m := by
  unfold node alloc
  simp only
  rw [List.getElem?_append_left h]

theorem node_alloc_new (nd : Node B) (mk : Bool) : (st.alloc nd mk).1.node st.size = some nd := by
  unfold node alloc size
  simp

theorem forced_alloc (nd : Node B) (mk : Bool) (m : Nat) (h : (st.alloc nd mk).1.forced m = true) :
    (m < st.size ∧ st.forced m = true) ∨ (m = st.size ∧ mk = true) := by
  unfold forced alloc at h
  simp only at h
  by_cases hm : m < st.size
  · rw [List.getElem?_append_left hm] at h
    exact .inl ⟨hm, h⟩
  · right
    have hm' : st.heap.length ≤ m := Nat.le_of_not_lt hm
    rw [List.getElem?_append_right hm'] at h
    by_cases h0 : m - st.heap.length = 0
    · have : m = st.size := by unfold size; omega
      refine ⟨this, ?_⟩
      rw [h0] at h; simpa using h
    · obtain ⟨j, hj⟩ := Nat.exists_eq_succ_of_ne_zero h0
      rw [hj] at h; simp at h

theorem forced_lt {n : Nat} (h : st.forced n = true) : n < st.size := by
  unfold forced at h
  cases h1 : st.heap[n]? with
  | none => rw [h1] at h; simp at h
  | some c =>
    obtain ⟨h2, _⟩ := List.getElem?_eq_some_iff.mp h1
    exact h2

theorem isFail_iff {n : Nat} : st.isFail n = true ↔ st.node n = some .fail := by
  unfold isFail
  split
  · rename_i h; simp [h]
  · rename_i h
    simp only [Bool.false_eq_true, false_iff]
    exact h

end St

theorem apps_snoc (A : Alg D) (ds : List D) (d f : D) : A.apps f (ds ++ [d]) = A.app (A.apps f ds) d := by
  induction ds generalizing f with
  | nil => rfl
  | cons x ds ih => exact ih _

/-! ### Partial applications and evaluated nodes -/

theorem Part.det {st : St B} {n c as} (h : Part st n c as) : ∀ {c' as'}, Part st n c' as' → c = c' ∧ as = as' := by
  induction h with
  | con h =>
    intro c' as' h'
    cases h' with
    | con h2 => rw [h] at h2; cases h2; exact ⟨rfl, rfl⟩
    | app h2 _ => rw [h] at h2; cases h2
  | app h hp ih =>
    intro c' as' h'
    cases h' with
    | con h2 => rw [h] at h2; cases h2
    | app h2 hp2 =>
      rw [h] at h2; cases h2
      obtain ⟨h3, h4⟩ := ih hp2
      exact ⟨h3, by rw [h4]⟩

theorem Part.not_whnf {ar : Nat → Nat} {st : St B} {n l r c as} (hn : st.node n = some (.app l r))
    (h : Part st n c as) (hl : arity ar c ≤ as.length) : ¬ Whnf ar st n := by
  intro hw
  cases hw with
  | cons h' => rw [hn] at h'; cases h'
  | bool h' => rw [hn] at h'; cases h'
  | fail h' => rw [hn] at h'; cases h'
  | leaf h' _ => rw [hn] at h'; cases h'
  | part hp hl' =>
    obtain ⟨h1, h2⟩ := h.det hp
    rw [h1, h2] at hl; omega

theorem hole_not_whnf {ar : Nat → Nat} {st : St B} {n} (hn : st.node n = some .hole) : ¬ Whnf ar st n := by
  intro hw
  cases hw with
  | cons h' => rw [hn] at h'; cases h'
  | bool h' => rw [hn] at h'; cases h'
  | fail h' => rw [hn] at h'; cases h'
  | leaf h' _ => rw [hn] at h'; cases h'
  | part hp hl' =>
    cases hp with
    | con h' => rw [hn] at h'; cases h'
    | app h' _ => rw [hn] at h'; cases h'

theorem Part.val {A : Alg D} {bs : Bools B E} {v : Nat → E → D} {st : St B} (hv : Describes A bs v st)
    {n c as} (h : Part st n c as) :
    (∀ e, v n e = A.apps (A.con c) (as.map fun a => v a e)) ∧ n < st.size ∧ ∀ a ∈ as, a < st.size := by
  induction h with
  | con h => exact ⟨hv _ _ h, St.node_lt h, by simp⟩
  | app h hp ih =>
    obtain ⟨h1, h2, h3⟩ := ih
    obtain ⟨g1, g2, g3⟩ := hv _ _ h
    refine ⟨fun e => ?_, St.node_lt h, ?_⟩
    · rw [g3 e, h1 e, List.map_append, List.map_cons, List.map_nil, apps_snoc]
    · intro a ha
      rcases List.mem_append.mp ha with ha | ha
      · exact h3 a ha
      · rw [List.mem_singleton.mp ha]; exact g2

/-- Evaluated nodes stay as they are, unless a list or pair fails while it is forced. -/
def Stable (ar : Nat → Nat) (st st' : St B) : Prop :=
  ∀ n, Whnf ar st n → st'.node n = st.node n ∨ (∃ h t, st.node n = some (.cons h t)) ∧ st'.node n = some .fail

theorem Stable.part {ar : Nat → Nat} {st st' : St B} (hs : Stable ar st st') {n c as} (h : Part st n c as) :
    as.length < arity ar c → Part st' n c as := by
  induction h with
  | con h =>
    intro hl
    rcases hs _ (.part (.con h) hl) with h1 | ⟨⟨_, _, h1⟩, _⟩
    · exact .con (h1.trans h)
    · rw [h] at h1; cases h1
  | app h hp ih =>
    intro hl
    rcases hs _ (.part (.app h hp) hl) with h1 | ⟨⟨_, _, h1⟩, _⟩
    · exact .app (h1.trans h) (ih (by simp at hl; omega))
    · rw [h] at h1; cases h1

theorem Stable.whnf {ar : Nat → Nat} {st st' : St B} (hs : Stable ar st st') {n} (h : Whnf ar st n) :
    Whnf ar st' n := by
  rcases hs n h with h1 | ⟨_, h1⟩
  · cases h with
    | cons h => exact .cons (h1.trans h)
    | bool h => exact .bool (h1.trans h)
    | fail h => exact .fail (h1.trans h)
    | leaf h hl => exact .leaf (h1.trans h) hl
    | part hp hl => exact .part (hs.part hp hl) hl
  · exact .fail h1

theorem Stable.refl (ar : Nat → Nat) (st : St B) : Stable ar st st := fun _ _ => .inl rfl

theorem Stable.trans {ar : Nat → Nat} {a b c : St B} (h1 : Stable ar a b) (h2 : Stable ar b c) : Stable ar a c := by
  intro n hn
  rcases h2 n (h1.whnf hn) with g2 | ⟨⟨h, t, g2⟩, g3⟩
  · rcases h1 n hn with g1 | ⟨g1, g1'⟩
    · exact .inl (g2.trans g1)
    · exact .inr ⟨g1, g2.trans g1'⟩
  · rcases h1 n hn with g1 | ⟨g1, g1'⟩
    · exact .inr ⟨⟨h, t, g1.symm.trans g2⟩, g3⟩
    · exact .inr ⟨g1, g3⟩

/-- The parts of correctness that do not speak about values. -/
structure Step0 (ar : Nat → Nat) (st st' : St B) : Prop where
  size : st.size ≤ st'.size
  stable : Stable ar st st'
  inv : Inv ar st → Inv ar st'
  taint : st'.taint = false → st.taint = false

theorem Step0.refl (ar : Nat → Nat) (st : St B) : Step0 ar st st :=
  ⟨Nat.le_refl _, Stable.refl _ _, id, id⟩

theorem Step0.trans {ar : Nat → Nat} {a b c : St B} (h1 : Step0 ar a b) (h2 : Step0 ar b c) : Step0 ar a c :=
  ⟨Nat.le_trans h1.size h2.size, h1.stable.trans h2.stable, fun h => h2.inv (h1.inv h), fun h => h1.taint (h2.taint h)⟩

theorem Step0.put {ar : Nat → Nat} {st : St B} {n : Nat} (hn : ¬ Whnf ar st n) (nd : Node B) (mk : Bool)
    (hlt : n < st.size)
    (hmk : mk = true → ∀ st' : St B, st'.node n = some nd → Whnf ar st' n) : Step0 ar st (st.put n nd mk) := by
  have hs : Stable ar st (st.put n nd mk) := by
    intro m hm
    have : m ≠ n := fun h => hn (h ▸ hm)
    exact .inl (st.node_put_ne this nd mk)
  refine ⟨Nat.le_of_eq (st.size_put n nd mk).symm, hs, ?_, id⟩
  intro hi m hm
  by_cases h : m = n
  · subst h
    rcases st.forced_put_same m nd mk hm with h1 | h1
    · exact absurd (hi m h1) hn
    · exact hmk h1 _ (st.node_put_same hlt nd mk)
  · rw [st.forced_put_ne h] at hm
    exact hs.whnf (hi m hm)

theorem Step0.put_plain {ar : Nat → Nat} {st : St B} {n : Nat} (hn : ¬ Whnf ar st n) (nd : Node B)
    (hlt : n < st.size) : Step0 ar st (st.put n nd false) :=
  Step0.put hn nd false hlt (fun h => by cases h)

theorem whnf_lt {ar : Nat → Nat} {st : St B} {n : Nat} (h : Whnf ar st n) : n < st.size := by
  cases h with
  | cons h => exact St.node_lt h
  | bool h => exact St.node_lt h
  | fail h => exact St.node_lt h
  | leaf h _ => exact St.node_lt h
  | part h _ =>
    cases h with
    | con h => exact St.node_lt h
    | app h _ => exact St.node_lt h

theorem Step0.alloc (ar : Nat → Nat) (st : St B) (nd : Node B) (mk : Bool)
    (hmk : mk = true → ∀ (st' : St B) n, st'.node n = some nd → Whnf ar st' n) :
    Step0 ar st (st.alloc nd mk).1 := by
  have hs : Stable ar st (st.alloc nd mk).1 := fun m hm => .inl (st.node_alloc_lt (whnf_lt hm) nd mk)
  refine ⟨by rw [st.size_alloc]; omega, hs, ?_, id⟩
  intro hi m hm
  rcases st.forced_alloc nd mk m hm with ⟨_, h⟩ | ⟨h1, h2⟩
  · exact hs.whnf (hi m h)
  · subst h1
    exact hmk h2 _ _ (st.node_alloc_new nd mk)

theorem Step0.alloc_plain (ar : Nat → Nat) (st : St B) (nd : Node B) : Step0 ar st (st.alloc nd false).1 :=
  Step0.alloc ar st nd false (fun h => by cases h)

theorem Step0.mark {ar : Nat → Nat} {st : St B} {n : Nat} (h : Whnf ar st n) : Step0 ar st (st.mark n) := by
  have hs : Stable ar st (st.mark n) := fun m _ => .inl (st.node_mark n m)
  refine ⟨Nat.le_of_eq (st.size_mark n).symm, hs, ?_, id⟩
  intro hi m hm
  rcases st.forced_mark n m hm with h1 | h1
  · subst h1; exact hs.whnf h
  · exact hs.whnf (hi m h1)

/-- Changing `cur_eval_cond`, and setting `taint`. -/
theorem Step0.set {ar : Nat → Nat} {st st' : St B} (hh : st'.heap = st.heap)
    (ht : st'.taint = false → st.taint = false) : Step0 ar st st' := by
  have hn : ∀ n, st'.node n = st.node n := fun n => by unfold St.node; rw [hh]
  have hs : Stable ar st st' := fun m _ => .inl (hn m)
  refine ⟨by unfold St.size; rw [hh]; exact Nat.le_refl _, hs, ?_, ht⟩
  intro hi m hm
  have : st.forced m = true := by unfold St.forced at hm ⊢; rw [hh] at hm; exact hm
  exact hs.whnf (hi m this)

/-- Correctness of a step: the values of the nodes stay, when the values before satisfy `P`. -/
structure StepF (A : Alg D) (bs : Bools B E) (ar : Nat → Nat) (P : (Nat → E → D) → Prop) (st st' : St B) : Prop where
  base : Step0 ar st st'
  val : st'.taint = false → ∀ v, Describes A bs v st → P v →
    ∃ v', Describes A bs v' st' ∧ ∀ n < st.size, v' n = v n

abbrev Step (A : Alg D) (bs : Bools B E) (ar : Nat → Nat) (st st' : St B) : Prop :=
  StepF A bs ar (fun _ => True) st st'

section
variable {A : Alg D} {bs : Bools B E} {ar : Nat → Nat}

theorem StepF.refl (P) (st : St B) : StepF A bs ar P st st :=
  ⟨Step0.refl _ _, fun _ v hv _ => ⟨v, hv, fun _ _ => rfl⟩⟩

theorem StepF.trans {P Q} {a b c : St B} (h1 : StepF A bs ar P a b) (h2 : StepF A bs ar Q b c)
    (hq : ∀ v v', Describes A bs v a → P v → Describes A bs v' b → (∀ n < a.size, v' n = v n) → Q v') :
    StepF A bs ar P a c := by
  refine ⟨h1.base.trans h2.base, fun ht v hv hp => ?_⟩
  obtain ⟨v1, hv1, e1⟩ := h1.val (h2.base.taint ht) v hv hp
  obtain ⟨v2, hv2, e2⟩ := h2.val ht v1 hv1 (hq v v1 hv hp hv1 e1)
  exact ⟨v2, hv2, fun n hn => (e2 n (Nat.lt_of_lt_of_le hn h1.base.size)).trans (e1 n hn)⟩

theorem StepF.weaken {P Q} {a b : St B} (h : StepF A bs ar Q a b)
    (hq : ∀ v, Describes A bs v a → P v → Q v) : StepF A bs ar P a b :=
  ⟨h.base, fun ht v hv hp => h.val ht v hv (hq v hv hp)⟩

theorem Describes.heap {v} {st st' : St B} (h : st'.heap = st.heap) (hv : Describes A bs v st) :
    Describes A bs v st' := by
  intro n nd hn
  have h1 : st'.node n = st.node n := by unfold St.node; rw [h]
  have h2 : st'.size = st.size := by unfold St.size; rw [h]
  rw [h2]; exact hv n nd (h1 ▸ hn)

theorem StepF.set {P} {st st' : St B} (hh : st'.heap = st.heap)
    (ht : st'.taint = false → st.taint = false) : StepF A bs ar P st st' :=
  ⟨Step0.set hh ht, fun _ v hv _ => ⟨v, hv.heap hh, fun _ _ => rfl⟩⟩

theorem Holds.mono {s s' : Nat} {v v' : Nat → E → D} {n : Nat} {nd : Node B} (hs : s ≤ s')
    (he : ∀ m < s, v' m = v m) (hn : n < s) (h : Holds A bs s v n nd) : Holds A bs s' v' n nd := by
  cases nd with
  | app l r =>
    obtain ⟨h1, h2, h3⟩ := h
    exact ⟨by omega, by omega, fun e => by rw [he _ hn, he _ h1, he _ h2]; exact h3 e⟩
  | cons l r =>
    obtain ⟨h1, h2, h3⟩ := h
    exact ⟨by omega, by omega, fun e => by rw [he _ hn, he _ h1, he _ h2]; exact h3 e⟩
  | con c => exact fun e => by rw [he _ hn]; exact h e
  | bool f => exact fun e => by rw [he _ hn]; exact h e
  | fail => trivial
  | hole => trivial

theorem Describes.put {v} {st : St B} (hv : Describes A bs v st) {n : Nat} {nd : Node B} (mk : Bool)
    (h : Holds A bs st.size v n nd) : Describes A bs v (st.put n nd mk) := by
  intro m md hm
  rw [st.size_put]
  by_cases hmn : m = n
  · subst hmn
    have hlt : m < st.size := by rw [← st.size_put m nd mk]; exact St.node_lt hm
    rw [st.node_put_same hlt] at hm; cases hm; exact h
  · rw [st.node_put_ne hmn] at hm; exact hv m md hm

/-- The values with one more. -/
def extend (v : Nat → E → D) (n : Nat) (d : E → D) : Nat → E → D := fun m => if m = n then d else v m

theorem extend_lt (v : Nat → E → D) {n : Nat} (d : E → D) {m : Nat} (h : m < n) : extend v n d m = v m :=
  if_neg (by omega)

theorem extend_eq (v : Nat → E → D) (n : Nat) (d : E → D) : extend v n d n = d := if_pos rfl

theorem Describes.alloc {v} {st : St B} (hv : Describes A bs v st) {nd : Node B} (mk : Bool) (d : E → D)
    (h : Holds A bs (st.size + 1) (extend v st.size d) st.size nd) :
    Describes A bs (extend v st.size d) (st.alloc nd mk).1 := by
  intro m md hm
  rw [st.size_alloc]
  have hlt := St.node_lt hm
  rw [st.size_alloc] at hlt
  by_cases hms : m = st.size
  · subst hms; rw [st.node_alloc_new] at hm; cases hm; exact h
  · have : m < st.size := by omega
    rw [st.node_alloc_lt this] at hm
    exact (hv m md hm).mono (by omega) (fun k hk => extend_lt v d hk) this

/-- Makes an application node. -/
theorem Describes.alloc_app {v} {st : St B} (hv : Describes A bs v st) {l r : Nat} (hl : l < st.size)
    (hr : r < st.size) :
    Describes A bs (extend v st.size fun e => A.app (v l e) (v r e)) (st.alloc (.app l r) false).1 := by
  apply hv.alloc
  exact ⟨by omega, by omega, fun e => by rw [extend_eq, extend_lt v _ hl, extend_lt v _ hr]⟩

end
end Voss.Fl
