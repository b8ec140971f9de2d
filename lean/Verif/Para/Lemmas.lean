import Verif.Para.Model
import Mathlib.Data.List.Perm.Basic
import Mathlib.Data.List.Perm.Subperm
import Mathlib.Data.List.Range
import Mathlib.Data.List.Sort
import Mathlib.Tactic.Ring
import Mathlib.Tactic.Linarith
/- Lemmas for C90. -/
namespace Voss.Para
variable {α : Type} {w : World α}

/-- Uninitialised memory never looks like an exit code other than 0. -/
def Quiet (w : World α) : Prop := ∀ t, w.junk t = 0 ∨ w.junk t = 999999
/-- A process that has ended does not come back. -/
def Ends (w : World α) : Prop := ∀ t t' i, t ≤ t' → w.ended t i = true → w.ended t' i = true

theorem exit_clock (s : Sys) (i : Nat) : (exitStatus w s i).2.clock = s.clock + 1 := by
  unfold exitStatus; split <;> rfl

theorem exit_reaped (s : Sys) (i : Nat) : (exitStatus w s i).2.reaped =
    if w.ended s.clock i = true ∧ i ∉ s.reaped then i :: s.reaped else s.reaped := by
  unfold exitStatus; split <;> rfl

theorem getStatus_sys (s : Sys) (i : Nat) : (getStatus w s i).2 = (exitStatus w s i).2 := by
  unfold getStatus
  dsimp only
  split
  · rfl
  · split <;> rfl

theorem status_running (hq : Quiet w) (s : Sys) (i : Nat) :
    (getStatus w s i).1 = .running ↔ i ∉ (getStatus w s i).2.reaped := by
  rw [getStatus_sys, exit_reaped]
  unfold getStatus
  dsimp only
  rw [exit_reaped]
  by_cases h : w.ended s.clock i = true ∧ i ∉ s.reaped
  · rw [if_pos h]
    simp only [List.mem_cons, true_or, if_true]
    split
    · simp
    · split <;> simp
  · rw [if_neg h]
    have e : (exitStatus w s i).1 = w.junk s.clock := by unfold exitStatus; rw [if_neg h]
    rw [e, if_neg (by rcases hq s.clock with h | h <;> simp [h])]
    split
    · next h => simp [h]; split <;> simp
    · next h => simp [h]

theorem status_reaped (hq : Quiet w) {s : Sys} {i : Nat} (h : i ∈ s.reaped) :
    (getStatus w s i).1 = (if w.file i then .doneOk else .failed) ∧ (getStatus w s i).2 = ⟨s.clock + 1, s.reaped⟩ := by
  have hn : ¬(w.ended s.clock i = true ∧ i ∉ s.reaped) := fun ⟨_, h2⟩ => h2 h
  have e : exitStatus w s i = (w.junk s.clock, ⟨s.clock + 1, s.reaped⟩) := by unfold exitStatus; rw [if_neg hn]
  unfold getStatus
  dsimp only
  rw [e]
  dsimp only
  rw [if_neg (by rcases hq s.clock with h | h <;> simp [h]), if_pos h]
  exact ⟨rfl, rfl⟩

/-- Waited for only after the end. -/
def ReapOk (w : World α) (s : Sys) : Prop := ∀ i ∈ s.reaped, w.ended s.clock i = true

theorem getStatus_step (he : Ends w) (s : Sys) (i : Nat) (h : ReapOk w s) :
    ReapOk w (getStatus w s i).2 ∧ s.reaped ⊆ (getStatus w s i).2.reaped ∧ (getStatus w s i).2.clock = s.clock + 1 := by
  rw [getStatus_sys]
  refine ⟨fun j hj => ?_, ?_, exit_clock s i⟩
  · rw [exit_reaped] at hj
    rw [exit_clock]
    split at hj
    · next hc =>
      rcases List.mem_cons.1 hj with rfl | hj
      · exact he _ _ _ (Nat.le_succ _) hc.1
      · exact he _ _ _ (Nat.le_succ _) (h j hj)
    · exact he _ _ _ (Nat.le_succ _) (h j hj)
  · rw [exit_reaped]
    split
    · exact List.subset_cons_self _ _
    · exact List.Subset.refl _

theorem split_perm (p : Status → Bool) : ∀ (l : List Nat) (s : Sys),
    ((split w p s l).1.1 ++ (split w p s l).1.2).Perm l
  | [], _ => List.Perm.refl _
  | i :: l, s => by
    have ih := split_perm p l (getStatus w s i).2
    simp only [split]
    split
    · exact List.Perm.cons _ ih
    · exact List.perm_middle.trans (List.Perm.cons _ ih)

theorem split_sys (he : Ends w) (p : Status → Bool) : ∀ (l : List Nat) (s : Sys), ReapOk w s →
    ReapOk w (split w p s l).2 ∧ s.reaped ⊆ (split w p s l).2.reaped ∧ (split w p s l).2.clock = s.clock + l.length
  | [], s, h => ⟨h, List.Subset.refl _, rfl⟩
  | i :: l, s, h => by
    obtain ⟨h1, h2, h3⟩ := getStatus_step he s i h
    obtain ⟨g1, g2, g3⟩ := split_sys he p l _ h1
    simp only [split]
    exact ⟨g1, fun j hj => g2 (h2 hj), by rw [g3, h3, List.length_cons]; omega⟩

theorem split_done (hq : Quiet w) (he : Ends w) : ∀ (l : List Nat) (s : Sys), ReapOk w s →
    ∀ i ∈ (split w (fun x => decide (x = .running)) s l).1.2, i ∈ (split w (fun x => decide (x = .running)) s l).2.reaped
  | [], s, _ => by simp [split]
  | j :: l, s, h => by
    obtain ⟨h1, h2, h3⟩ := getStatus_step he s j h
    have ih := split_done hq he l _ h1
    have hg := (split_sys he (fun x => decide (x = .running)) l _ h1).2.1
    simp only [split]
    split
    · exact ih
    · next hr =>
      intro i hi
      rcases List.mem_cons.1 hi with rfl | hi
      · refine hg ?_
        have := (status_running hq s i).not.1 (by simpa using hr)
        exact not_not.1 this
      · exact ih i hi

/-- When all have ended, none is running. -/
theorem split_ended (hq : Quiet w) (he : Ends w) : ∀ (l : List Nat) (s : Sys), ReapOk w s →
    (∀ i ∈ l, w.ended s.clock i = true) → (split w (fun x => decide (x = .running)) s l).1.1 = []
  | [], _, _, _ => rfl
  | j :: l, s, h, hl => by
    obtain ⟨h1, h2, h3⟩ := getStatus_step he s j h
    have ih := split_ended hq he l _ h1 fun i hi => by
      rw [h3]; exact he _ _ _ (Nat.le_succ _) (hl i (List.mem_cons_of_mem _ hi))
    simp only [split]
    have hr : (getStatus w s j).1 ≠ .running := by
      rw [Ne, status_running hq, getStatus_sys, exit_reaped]
      by_cases hj : j ∈ s.reaped
      · simp [hj]
      · rw [if_pos ⟨hl j (by simp), hj⟩]; simp
    rw [if_neg (by simpa using hr)]
    exact ih

theorem split_ok (hq : Quiet w) : ∀ (l : List Nat) (s : Sys), (∀ i ∈ l, i ∈ s.reaped) →
    (split w (fun x => decide (x = .doneOk)) s l).1 = (l.filter w.file, l.filter fun i => !w.file i)
  | [], _, _ => rfl
  | j :: l, s, h => by
    obtain ⟨e1, e2⟩ := status_reaped hq (h j (by simp))
    have ih := split_ok hq l (getStatus w s j).2 fun i hi => by rw [e2]; exact h i (List.mem_cons_of_mem _ hi)
    simp only [split]
    rw [ih, e1]
    cases hf : w.file j <;> simp [hf]

theorem findDone_spec (hq : Quiet w) : ∀ (l : List Nat) (s : Sys), (∀ i ∈ l, i ∈ s.reaped) →
    (findDone w s l).2.reaped = s.reaped ∧ s.clock ≤ (findDone w s l).2.clock ∧
    (((findDone w s l).1 = 0 ∧ ∀ i ∈ l, w.file i = false) ∨
      ∃ l1 j l2, l = l1 ++ j :: l2 ∧ (∀ i ∈ l1, w.file i = false) ∧ w.file j = true ∧ (findDone w s l).1 = l1.length + 1)
  | [], s, _ => ⟨rfl, Nat.le_refl _, Or.inl ⟨rfl, by simp⟩⟩
  | j :: l, s, h => by
    obtain ⟨e1, e2⟩ := status_reaped hq (h j (by simp))
    obtain ⟨g1, g2, g3⟩ := findDone_spec hq l (getStatus w s j).2 fun i hi => by rw [e2]; exact h i (List.mem_cons_of_mem _ hi)
    simp only [findDone]
    cases hf : w.file j
    · rw [if_neg (by rw [e1, hf]; simp)]
      rw [e2] at g1 g2 g3 ⊢
      refine ⟨g1, by dsimp only at g2 ⊢; omega, ?_⟩
      rcases g3 with ⟨g3, g4⟩ | ⟨l1, x, l2, g3, g4, g5, g6⟩
      · exact Or.inl ⟨by rw [if_pos g3], by simpa [hf] using g4⟩
      · refine Or.inr ⟨j :: l1, x, l2, by rw [g3]; rfl, by simpa [hf] using g4, g5, ?_⟩
        rw [if_neg (by omega), g6]; rfl
    · rw [if_pos (by rw [e1, hf]; rfl), e2]
      exact ⟨rfl, Nat.le_succ _, Or.inr ⟨[], j, l, rfl, by simp, hf, rfl⟩⟩

theorem grab_append (cnt : Int) (l : List Nat) : (grab cnt l).1 ++ (grab cnt l).2 = l := by
  unfold grab
  split
  · simp
  · exact List.take_append_drop _ _

theorem grab_length {cnt : Int} (l : List Nat) (h : 0 ≤ cnt) : ((grab cnt l).1.length : Int) ≤ cnt := by
  unfold grab
  split
  · assumption
  · rw [List.length_take]; omega

theorem grab_ne {cnt : Int} {l : List Nat} (h : 0 < cnt) (hl : l ≠ []) : (grab cnt l).1 ≠ [] := by
  unfold grab
  split
  · exact hl
  · intro e
    have := congrArg List.length e
    rw [List.length_take, List.length_nil] at this
    have := List.length_pos_of_ne_nil hl
    omega

/-! ### The loop -/

/-- What always holds of the lists. -/
structure Inv (w : World α) (n : Nat) (s : Sys) (st : St) : Prop where
  perm : (st.finished ++ st.current ++ st.todo).Perm (List.range' 1 n)
  reaped : ∀ i ∈ st.finished, i ∈ s.reaped
  ok : ReapOk w s

theorem inv_start (n : Nat) : Inv w n ⟨0, []⟩ ⟨[], [], List.range' 1 n⟩ :=
  ⟨by simp, by simp, fun i hi => by simp at hi⟩

theorem inv_stop (hq : Quiet w) (he : Ends w) {n : Nat} {s : Sys} {st : St} (single : Bool) (h : Inv w n s st) :
    Inv w n (stop w single s st).2 st ∧ s.clock ≤ (stop w single s st).2.clock := by
  unfold stop
  split
  · exact ⟨h, Nat.le_refl _⟩
  · obtain ⟨g1, g2, _⟩ := findDone_spec hq st.finished s h.reaped
    refine ⟨⟨h.perm, fun i hi => by dsimp only; rw [g1]; exact h.reaped i hi, fun i hi => ?_⟩, g2⟩
    dsimp only at hi ⊢
    rw [g1] at hi
    exact he _ _ _ g2 (h.ok i hi)

theorem update_perm (max : Int) (s : Sys) (st : St) :
    ((update w max s st).1.finished ++ (update w max s st).1.current ++ (update w max s st).1.todo).Perm
      (st.finished ++ st.current ++ st.todo) := by
  unfold update
  dsimp only
  have hp := split_perm (w := w) (fun x => decide (x = .running)) st.current s
  generalize split w (fun x => decide (x = .running)) s st.current = r at *
  split
  · exact List.Perm.refl _
  · dsimp only
    conv_rhs => rw [← grab_append (max - r.1.1.length) st.todo]
    have : (r.1.2 ++ r.1.1).Perm st.current := List.perm_append_comm.trans hp
    have h2 := ((this.append_left st.finished).append_right
      ((grab (max - r.1.1.length) st.todo).1 ++ (grab (max - r.1.1.length) st.todo).2))
    simpa [List.append_assoc] using h2

theorem inv_update (hq : Quiet w) (he : Ends w) {n : Nat} {s : Sys} {st : St} (max : Int) (h : Inv w n s st) :
    Inv w n (update w max s st).2 (update w max s st).1 := by
  refine ⟨(update_perm max s st).trans h.perm, ?_, ?_⟩
  · have hs := split_sys he (fun x => decide (x = .running)) st.current s h.ok
    have hd := split_done hq he st.current s h.ok
    unfold update
    dsimp only
    generalize split w (fun x => decide (x = .running)) s st.current = r at *
    split
    · exact fun i hi => hs.2.1 (h.reaped i hi)
    · intro i hi
      rcases List.mem_append.1 hi with hi | hi
      · exact hs.2.1 (h.reaped i hi)
      · exact hd i hi
  · have hs := split_sys he (fun x => decide (x = .running)) st.current s h.ok
    unfold update
    dsimp only
    split <;> exact hs.1

theorem loop_inv (hq : Quiet w) (he : Ends w) {n : Nat} {max : Int} {single : Bool} : ∀ (k : Nat) (s : Sys) (st : St)
    (x : St × Sys), Inv w n s st → loop w max single k s st = some x →
    Inv w n x.2 x.1 ∧ ((x.1.current = [] ∧ x.1.todo = []) ∨ (single = true ∧ ∃ i ∈ x.1.finished, w.file i = true))
  | 0, _, _, _, _, h => by simp [loop] at h
  | k + 1, s, st, x, hi, h => by
    obtain ⟨i1, _⟩ := inv_stop hq he single hi
    simp only [loop] at h
    split at h
    · next hs =>
      simp only [Option.some.injEq] at h
      subst h
      refine ⟨i1, ?_⟩
      by_cases hc : st.current = [] ∧ st.todo = []
      · exact Or.inl hc
      · refine Or.inr ?_
        unfold stop at hs
        rw [if_neg hc] at hs
        simp only [Bool.and_eq_true, decide_eq_true_iff] at hs
        refine ⟨hs.1, ?_⟩
        rcases (findDone_spec hq st.finished s hi.reaped).2.2 with ⟨h0, _⟩ | ⟨l1, j, l2, e, _, hf, _⟩
        · exact absurd h0 hs.2
        · exact ⟨j, by rw [e]; simp, hf⟩
    · exact loop_inv hq he k _ _ x (inv_update hq he max i1) h

theorem loop_ends (hq : Quiet w) (he : Ends w) {n T : Nat} (hT : ∀ i ∈ List.range' 1 n, w.ended T i = true) {max : Int}
    (hmax : 0 < max) (single : Bool) : ∀ (M : Nat) (s : Sys) (st : St), Inv w n s st →
    (2 * st.todo.length + st.current.length) * (T + 1) + (T - s.clock) ≤ M →
    ∃ x, ∀ j, loop w max single (M + 1 + j) s st = some x := by
  intro M
  induction M using Nat.strong_induction_on with
  | _ M ih =>
  intro s st hi hM
  have hloop : ∀ j, loop w max single (M + 1 + j) s st =
      if (stop w single s st).1 then some (st, (stop w single s st).2)
      else loop w max single (M + j) (update w max (stop w single s st).2 st).2 (update w max (stop w single s st).2 st).1 := by
    intro j
    have : M + 1 + j = (M + j) + 1 := by omega
    rw [this]; rfl
  by_cases hs : (stop w single s st).1 = true
  · exact ⟨_, fun j => by rw [hloop, if_pos hs]⟩
  · obtain ⟨i1, hc1⟩ := inv_stop hq he single hi
    have i2 := inv_update hq he max i1
    have hne : ¬(st.current = [] ∧ st.todo = []) := fun h => hs (by unfold stop; rw [if_pos h])
    generalize (stop w single s st).2 = s1 at *
    have key : (2 * (update w max s1 st).1.todo.length + (update w max s1 st).1.current.length) * (T + 1) +
        (T - (update w max s1 st).2.clock) < (2 * st.todo.length + st.current.length) * (T + 1) + (T - s.clock) := by
      have hsys := split_sys he (fun x => decide (x = .running)) st.current s1 i1.ok
      have hp := (split_perm (w := w) (fun x => decide (x = .running)) st.current s1).length_eq
      have hend := split_ended hq he st.current s1 i1.ok
      unfold update
      dsimp only
      generalize split w (fun x => decide (x = .running)) s1 st.current = r at *
      rw [List.length_append] at hp
      split
      · next hact =>
        dsimp only
        have h1 : s1.clock < T := by
          by_contra hge
          refine hact.1 (hend fun i hic => ?_)
          refine he T _ i (by omega) (hT i ?_)
          exact hi.perm.subset (by simp [hic])
        have h2 : 0 < r.1.1.length := List.length_pos_of_ne_nil hact.1
        have h3 := hsys.2.2
        omega
      · next hact =>
        dsimp only
        have hg := congrArg List.length (grab_append (max - r.1.1.length) st.todo)
        rw [List.length_append] at hg ⊢
        have hdec : 2 * (grab (max - r.1.1.length) st.todo).2.length +
            (r.1.1.length + (grab (max - r.1.1.length) st.todo).1.length) + 1 ≤ 2 * st.todo.length + st.current.length := by
          by_cases hd : r.1.2 = []
          · have ha : r.1.1 = [] := by
              by_contra ha
              exact hact ⟨ha, hd⟩
            have hc0 : st.current.length = 0 := by rw [← hp, ha, hd]; rfl
            have ht : st.todo ≠ [] := fun h => hne ⟨List.eq_nil_of_length_eq_zero hc0, h⟩
            have := List.length_pos_of_ne_nil (grab_ne (cnt := max - r.1.1.length) (by rw [ha]; simpa using hmax) ht)
            omega
          · have := List.length_pos_of_ne_nil hd
            omega
        have hm := Nat.mul_le_mul_right (T + 1) hdec
        rw [Nat.add_mul] at hm
        omega
    cases M with
    | zero => omega
    | succ M =>
      obtain ⟨x, hx⟩ := ih M (by omega) _ _ i2 (by omega)
      exact ⟨x, fun j => by rw [hloop, if_neg hs, ← hx j]⟩

end Voss.Para
