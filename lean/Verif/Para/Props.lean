import Verif.Para.Lemmas
import Mathlib.Data.List.TakeWhile
/-
C90: evaluation in parallel processes (`para_eval`).

`w : World` is what the processes do, and when; all theorems are for every world.  `Ends w`: a process that has
ended does not come back.  `Quiet w`: the uninitialised variable that `get_process_exit_status` reads for a process
about which `waitpid` has nothing to report never looks like an exit code other than 0.
-/
namespace Voss.Para
variable {α : Type} {w : World α}

/-- What the program needs of `qsort` (C66): all elements, sorted by their numbers. -/
def SortOk (sort : List (Nat × Option α) → List (Nat × Option α)) : Prop :=
  ∀ l, (sort l).Perm l ∧ (sort l).Pairwise fun a b => a.1 ≤ b.1

/-- A sort that does not exchange equal elements. -/
def stable (l : List (Nat × Option α)) : List (Nat × Option α) :=
  l.foldr (fun x r => r.takeWhile (fun y => decide (y.1 < x.1)) ++ x :: r.dropWhile fun y => decide (y.1 < x.1)) []

theorem stable_ok : SortOk (stable (α := α)) := by
  intro l
  induction l with
  | nil => simp [stable]
  | cons x l ih =>
    obtain ⟨ih1, ih2⟩ := ih
    have e : stable (x :: l) = (stable l).takeWhile (fun y => decide (y.1 < x.1)) ++
      x :: (stable l).dropWhile fun y => decide (y.1 < x.1) := rfl
    rw [e]
    constructor
    · refine List.perm_middle.trans (List.Perm.cons _ ?_)
      rw [List.takeWhile_append_dropWhile]
      exact ih1
    · have ha : ∀ y ∈ (stable l).takeWhile (fun y => decide (y.1 < x.1)), y.1 < x.1 := fun y hy => by
        simpa using List.mem_takeWhile_imp hy
      have hb : ∀ y ∈ (stable l).dropWhile (fun y => decide (y.1 < x.1)), x.1 ≤ y.1 := by
        intro y hy
        have hs := ih2.sublist (List.dropWhile_sublist (p := fun y : Nat × Option α => decide (y.1 < x.1)))
        cases hd : (stable l).dropWhile fun y => decide (y.1 < x.1) with
        | nil => rw [hd] at hy; simp at hy
        | cons z zs =>
          have hz := List.head_dropWhile_not (fun y : Nat × Option α => decide (y.1 < x.1)) (l := stable l) (by rw [hd]; simp)
          rw [hd] at hs hy
          simp only [hd, List.head_cons, decide_eq_false_iff_not, not_lt] at hz
          rcases List.mem_cons.1 hy with rfl | hy
          · exact hz
          · exact le_trans hz (List.rel_of_pairwise_cons hs hy)
      rw [List.pairwise_append]
      refine ⟨ih2.sublist (List.takeWhile_sublist _), ?_, ?_⟩
      · rw [List.pairwise_cons]
        exact ⟨hb, ih2.sublist (List.dropWhile_sublist _)⟩
      · intro a h1 b h2
        rcases List.mem_cons.1 h2 with rfl | h2
        · exact le_of_lt (ha a h1)
        · exact le_trans (le_of_lt (ha a h1)) (hb b h2)

theorem sorted_results {sort : List (Nat × Option α) → List (Nat × Option α)} (hs : SortOk sort) {l : List (Nat × Option α)}
    {n : Nat} {f : Nat → Option α} (hp : (l.map Prod.fst).Perm (List.range' 1 n)) (hf : ∀ p ∈ l, p.2 = f p.1) :
    (sort l).map Prod.snd = (List.range' 1 n).map f := by
  obtain ⟨s1, s2⟩ := hs l
  have h1 : (sort l).map Prod.fst = List.range' 1 n := by
    refine List.Perm.eq_of_pairwise (le := fun a b : Nat => a ≤ b) (fun a b _ _ h1 h2 => Nat.le_antisymm h1 h2) ?_ ?_
      ((s1.map _).trans hp)
    · exact List.pairwise_map.2 s2
    · exact (List.pairwise_lt_range' (s := 1) (n := n)).imp fun h => Nat.le_of_lt h
  rw [← h1, List.map_map]
  exact List.map_congr_left fun p hp => hf p (s1.subset hp)

theorem ended_all (he : Ends w) {l : List Nat} (h : ∀ i ∈ l, ∃ t, w.ended t i = true) :
    ∃ T, ∀ i ∈ l, w.ended T i = true := by
  induction l with
  | nil => exact ⟨0, by simp⟩
  | cons a l ih =>
    obtain ⟨T, hT⟩ := ih fun i hi => h i (List.mem_cons_of_mem _ hi)
    obtain ⟨t, ht⟩ := h a (by simp)
    refine ⟨max T t, fun i hi => ?_⟩
    rcases List.mem_cons.1 hi with rfl | hi
    · exact he _ _ _ (Nat.le_max_right _ _) ht
    · exact he _ _ _ (Nat.le_max_left _ _) (hT i hi)

theorem loop_start (hq : Quiet w) (he : Ends w) {n T : Nat} (hT : ∀ i ∈ List.range' 1 n, w.ended T i = true) {max : Int}
    (hmax : 0 < max) (single : Bool) :
    ∃ K x, ∀ j, loop w max single (K + j) ⟨0, []⟩ ⟨[], [], List.range' 1 n⟩ = some x := by
  obtain ⟨x, hx⟩ := loop_ends hq he hT hmax single _ _ _ (inv_start n) (Nat.le_refl _)
  exact ⟨_, x, hx⟩

/-- C90: if every process ends at some time, `para_eval` ends, and whatever the order in which the processes end,
the result for each expression is, at its place, the value that its process has written, and `NONE` if it has
not. -/
theorem c90_all_partial (hq : Quiet w) (he : Ends w) {sort : List (Nat × Option α) → List (Nat × Option α)}
    (hs : SortOk sort) {max : Int} (hmax : 0 < max) (n : Nat) (hend : ∀ i, 1 ≤ i → i ≤ n → ∃ t, w.ended t i = true) :
    ∃ K, ∀ k, paraEval w sort max false n (K + k) =
      .ok ((List.range' 1 n).map fun i => if w.file i then some (w.value i) else none) := by
  obtain ⟨T, hT⟩ := ended_all he (l := List.range' 1 n) fun i hi => by
    have := List.mem_range'_1.1 hi
    exact hend i (by omega) (by omega)
  obtain ⟨K, ⟨st, s⟩, hx⟩ := loop_start hq he hT hmax false
  refine ⟨K, fun k => ?_⟩
  unfold paraEval
  rw [hx k]
  dsimp only
  rw [if_neg (by simp)]
  obtain ⟨i1, i2⟩ := loop_inv hq he _ _ _ _ (inv_start n) (hx k)
  have hfin : st.finished.Perm (List.range' 1 n) := by
    rcases i2 with ⟨h1, h2⟩ | ⟨h1, _⟩
    · have := i1.perm
      dsimp only at this h1 h2
      rw [h1, h2] at this
      simpa using this
    · cases h1
  congr 1
  refine sorted_results hs ?_ ?_
  · unfold allResults
    dsimp only
    rw [split_ok hq st.finished s i1.reaped]
    simp only [List.map_append, List.map_map]
    refine List.Perm.trans ?_ hfin
    have e1 : (Prod.fst ∘ fun i => (i, some (w.value i))) = id := rfl
    have e2 : (Prod.fst ∘ fun i => ((i, none) : Nat × Option α)) = id := rfl
    rw [e1, e2, List.map_id, List.map_id]
    exact List.filter_append_perm _ _
  · intro p hp
    unfold allResults at hp
    dsimp only at hp
    rw [split_ok hq st.finished s i1.reaped] at hp
    simp only [List.mem_append, List.mem_map, List.mem_filter] at hp
    rcases hp with ⟨i, ⟨_, hf⟩, rfl⟩ | ⟨i, ⟨_, hf⟩, rfl⟩
    · simp [hf]
    · simp only [Bool.not_eq_true'] at hf
      simp [hf]

/-- Three expressions; the third ends first, and the second fails. -/
def three : World String where
  ended := fun t i => decide (10 - 2 * i ≤ t)
  exit := fun i => if i = 2 then some 1 else some 0
  file := fun i => decide (i ≠ 2)
  value := fun i => toString i
  junk := fun _ => 0

example : Quiet three ∧ Ends three ∧ (∀ i, 1 ≤ i → i ≤ 3 → ∃ t, three.ended t i = true) := by
  refine ⟨fun _ => Or.inl rfl, fun t t' i h1 h2 => ?_, fun i _ _ => ⟨10, ?_⟩⟩
  · simp only [three, decide_eq_true_iff] at *
    omega
  · simp [three]
example : paraEval three stable 2 false 3 20 = .ok [some "1", none, some "3"] := by decide +kernel

/-- The states of the loop. -/
inductive Reach (w : World α) (max : Int) (single : Bool) (n : Nat) : Sys → St → Prop
  | start : Reach w max single n ⟨0, []⟩ ⟨[], [], List.range' 1 n⟩
  | step {s st} (h : Reach w max single n s st) (hs : (stop w single s st).1 = false) :
      Reach w max single n (update w max (stop w single s st).2 st).2 (update w max (stop w single s st).2 st).1

/-- C90, while it runs: never more than `max_processes` processes are under way, every expression is started once
or still to do, and what counts as finished has ended. -/
theorem c90_limit (he : Ends w) (hq : Quiet w) {max : Int} (hmax : 0 ≤ max) {single : Bool} {n : Nat} {s : Sys} {st : St}
    (h : Reach w max single n s st) :
    (st.current.length : Int) ≤ max ∧ (st.finished ++ st.current ++ st.todo).Perm (List.range' 1 n) ∧
      ∀ i ∈ st.finished, w.ended s.clock i = true := by
  suffices Inv w n s st ∧ (st.current.length : Int) ≤ max from
    ⟨this.2, this.1.perm, fun i hi => this.1.ok i (this.1.reaped i hi)⟩
  induction h with
  | start => exact ⟨inv_start n, by simpa using hmax⟩
  | step _ _ ih =>
    next s st _ hs =>
    obtain ⟨i1, _⟩ := inv_stop hq he single ih.1
    refine ⟨inv_update hq he max i1, ?_⟩
    have hp := (split_perm (w := w) (fun x => decide (x = .running)) st.current (stop w single s st).2).length_eq
    unfold update
    dsimp only
    generalize split w (fun x => decide (x = .running)) (stop w single s st).2 st.current = r at *
    rw [List.length_append] at hp
    split
    · exact ih.2
    · dsimp only
      have h2 := ih.2
      have := grab_length (cnt := max - r.1.1.length) st.todo (by omega)
      rw [List.length_append]
      push_cast
      omega

example : Reach three 2 false 3 ⟨2, []⟩ ⟨[], [1, 2], [3]⟩ :=
  Reach.step (Reach.step Reach.start (by decide)) (by decide)

/-! ### The first result only -/

theorem loop_order (hq : Quiet w) (he : Ends w) {n : Nat} : ∀ (k : Nat) (s : Sys) (st : St) (x : St × Sys), Inv w n s st →
    st.current.length ≤ 1 → st.finished ++ st.current ++ st.todo = List.range' 1 n →
    loop w 1 true k s st = some x → x.1.finished ++ x.1.current ++ x.1.todo = List.range' 1 n
  | 0, _, _, _, _, _, _, h => by simp [loop] at h
  | k + 1, s, st, x, hi, hl, ho, h => by
    obtain ⟨i1, _⟩ := inv_stop hq he true hi
    simp only [loop] at h
    split at h
    · simp only [Option.some.injEq] at h
      subst h
      exact ho
    · refine loop_order hq he k _ _ x (inv_update hq he 1 i1) ?_ ?_ h
      all_goals
        have hp := split_perm (w := w) (fun x => decide (x = .running)) st.current (stop w true s st).2
        unfold update
        dsimp only
        generalize split w (fun x => decide (x = .running)) (stop w true s st).2 st.current = r at *
        have hpl := hp.length_eq
        rw [List.length_append] at hpl
        split
        · assumption
        · next hact =>
          have ha : r.1.1 = [] := by
            by_contra ha
            have h1 := List.length_pos_of_ne_nil ha
            have : r.1.2 = [] := List.eq_nil_of_length_eq_zero (by omega)
            exact hact ⟨ha, this⟩
          dsimp only
          rw [ha] at hp hpl ⊢
          simp only [List.nil_append, List.length_nil, Nat.cast_zero, sub_zero] at *
          first
            | (have := grab_length (cnt := 1) st.todo (by omega); omega)
            | (have hd : r.1.2 = st.current := by
                cases hc : st.current with
                | nil => rw [hc] at hp; exact hp.eq_nil
                | cons a l =>
                  have : l = [] := by rw [hc] at hl; exact List.eq_nil_of_length_eq_zero (by simpa using hl)
                  rw [hc, this] at hp
                  rw [this]
                  exact List.perm_singleton.1 hp
               rw [hd, List.append_assoc, grab_append, ho])

/-- C90, `single_winner`: with one process at a time, the result is that of the first expression that succeeds, at
its place, and `NONE` for the others. -/
theorem c90_winner_partial (hq : Quiet w) (he : Ends w) {sort : List (Nat × Option α) → List (Nat × Option α)}
    (hs : SortOk sort) (n : Nat) (hend : ∀ i, 1 ≤ i → i ≤ n → ∃ t, w.ended t i = true)
    (hsome : ∃ i, 1 ≤ i ∧ i ≤ n ∧ w.file i = true) :
    ∃ K j, w.file j = true ∧ (∀ i, 1 ≤ i → i < j → w.file i = false) ∧ ∀ k, paraEval w sort 1 true n (K + k) =
      .ok ((List.range' 1 n).map fun i => if i = j then some (w.value i) else none) := by
  obtain ⟨T, hT⟩ := ended_all he (l := List.range' 1 n) fun i hi => by
    have := List.mem_range'_1.1 hi
    exact hend i (by omega) (by omega)
  obtain ⟨K, ⟨st, s⟩, hx⟩ := loop_start hq he hT (max := 1) (by omega) true
  obtain ⟨i1, i2⟩ := loop_inv hq he _ _ _ _ (inv_start n) (hx 0)
  have ho := loop_order hq he _ _ _ _ (inv_start n) (by simp) (by simp) (hx 0)
  dsimp only at i1 i2 ho
  have hex : ∃ i ∈ st.finished, w.file i = true := by
    rcases i2 with ⟨h1, h2⟩ | ⟨_, h⟩
    · obtain ⟨i, h3, h4, h5⟩ := hsome
      rw [h1, h2] at ho
      refine ⟨i, ?_, h5⟩
      have e : st.finished = List.range' 1 n := by simpa using ho
      rw [e, List.mem_range'_1]
      omega
    · exact h
  rcases (findDone_spec hq st.finished s i1.reaped).2.2 with ⟨_, h0⟩ | ⟨l1, j, l2, e, hl1, hf, hpos⟩
  · obtain ⟨i, h1, h2⟩ := hex
    rw [h0 i h1] at h2
    cases h2
  · have hj : j = l1.length + 1 := by
      have h1 : (List.range' 1 n)[l1.length]? = some j := by
        rw [← ho, e]
        simp
      rw [List.getElem?_eq_some_iff] at h1
      obtain ⟨h2, h3⟩ := h1
      rw [List.getElem_range'] at h3
      omega
    have hjn : j ≤ n := by
      have : j ∈ List.range' 1 n := by rw [← ho, e]; simp
      rw [List.mem_range'_1] at this
      omega
    refine ⟨K, j, hf, fun i h1 h2 => ?_, fun k => ?_⟩
    · apply hl1
      have h3 : (List.range' 1 n)[i - 1]? = some i := by
        rw [List.getElem?_range' (by omega)]
        congr 1
        omega
      rw [← ho, e, List.append_assoc, List.append_assoc, List.getElem?_append_left (by omega)] at h3
      exact List.mem_of_getElem? h3
    · unfold paraEval
      rw [hx k]
      dsimp only
      rw [if_pos rfl]
      have hw : winnerResults w n s st =
          .ok ((j, some (w.value j)) :: (((List.range' 1 n).filter (· ≠ j)).map fun i => (i, none))) := by
        unfold winnerResults
        dsimp only
        rw [hpos, if_neg (by omega)]
        have : st.finished[l1.length + 1 - 1]? = some j := by rw [e]; simp
        rw [this, hj]
      rw [hw]
      dsimp only
      congr 1
      refine sorted_results hs ?_ ?_
      · simp only [List.map_cons, List.map_map]
        have e2 : (Prod.fst ∘ fun i => ((i, none) : Nat × Option α)) = id := rfl
        rw [e2, List.map_id]
        have hmem : j ∈ List.range' 1 n := List.mem_range'_1.2 (by omega)
        have hnd : (List.range' 1 n).Nodup := List.nodup_range'
        have : (List.range' 1 n).filter (· ≠ j) = (List.range' 1 n).erase j := by
          rw [hnd.erase_eq_filter]
          refine List.filter_congr fun i _ => ?_
          by_cases h : i = j <;> simp [h]
        rw [this]
        exact (List.perm_cons_erase hmem).symm
      · intro p hp
        rcases List.mem_cons.1 hp with rfl | hp
        · simp
        · obtain ⟨i, hi, rfl⟩ := List.mem_map.1 hp
          have := (List.mem_filter.1 hi).2
          simp only [ne_eq, decide_not, Bool.not_eq_true', decide_eq_false_iff_not] at this
          simp [this]

/-- C90 fails, `single_winner`: the result is put at the wrong place when the processes do not end in the order of
the expressions.  Of three expressions the third one ends first; its value is given as the value of the second. -/
theorem c90_winner_violated : ∃ w : World String, Quiet w ∧ Ends w ∧ SortOk (stable (α := String)) ∧
    (∀ i, w.file i = true) ∧ w.value 2 = "two" ∧ w.value 3 = "three" ∧
    paraEval w stable 20 true 3 9 = .ok [none, some "three", none] := by
  refine ⟨⟨fun t i => decide (i = 3 ∨ 50 ≤ t), fun _ => some 0, fun _ => true, fun i => if i = 2 then "two" else "three",
    fun _ => 0⟩, fun _ => Or.inl rfl, fun t t' i h1 h2 => ?_, stable_ok, fun _ => rfl, rfl, rfl, by decide +kernel⟩
  simp only [decide_eq_true_iff] at *
  omega

/-- C90 fails, `single_winner`: if no process succeeds, the call fails instead of giving `NONE` for all. -/
theorem c90_none_violated (hq : Quiet w) (he : Ends w) (sort : List (Nat × Option α) → List (Nat × Option α))
    {max : Int} (hmax : 0 < max) (n : Nat) (hend : ∀ i, 1 ≤ i → i ≤ n → ∃ t, w.ended t i = true)
    (hnone : ∀ i, w.file i = false) : ∃ K, ∀ k, paraEval w sort max true n (K + k) = .fail := by
  obtain ⟨T, hT⟩ := ended_all he (l := List.range' 1 n) fun i hi => by
    have := List.mem_range'_1.1 hi
    exact hend i (by omega) (by omega)
  obtain ⟨K, ⟨st, s⟩, hx⟩ := loop_start hq he hT hmax true
  refine ⟨K, fun k => ?_⟩
  unfold paraEval
  rw [hx k]
  dsimp only
  rw [if_pos rfl]
  obtain ⟨i1, _⟩ := loop_inv hq he _ _ _ _ (inv_start n) (hx k)
  have : winnerResults w n s st = .fail := by
    unfold winnerResults
    dsimp only
    rw [if_pos]
    rcases (findDone_spec hq st.finished s i1.reaped).2.2 with ⟨h0, _⟩ | ⟨_, j, _, _, _, hf, _⟩
    · exact h0
    · rw [hnone] at hf; cases hf
  rw [this]

/-- C90 fails: a status that is read although `waitpid` has not set it can make a running process look like one
that has died.  Its result is then lost although the process succeeds. -/
theorem c90_junk_violated : ∃ w : World String, Ends w ∧ (∀ i, w.exit i = some 0 ∧ w.file i = true ∧ w.ended 5 i = true) ∧
    paraEval w stable 20 false 1 9 = .ok [none] := by
  refine ⟨⟨fun t _ => decide (5 ≤ t), fun _ => some 0, fun _ => true, fun _ => "one",
    fun _ => 1⟩, fun t t' i h1 h2 => ?_, fun i => ⟨rfl, rfl, rfl⟩, by decide +kernel⟩
  simp only [decide_eq_true_iff] at *
  omega

/-- C90 fails: with `max_processes` 0 or less, the call never ends. -/
theorem c90_zero_violated (sort : List (Nat × Option α) → List (Nat × Option α)) {max : Int} (hmax : max ≤ 0)
    (single : Bool) {n : Nat} (hn : 0 < n) (k : Nat) : paraEval w sort max single n k = .more := by
  have key : ∀ (k : Nat), loop w max single k ⟨0, []⟩ ⟨[], [], List.range' 1 n⟩ = none := by
    intro k
    induction k with
    | zero => rfl
    | succ k ih =>
      have hne : ¬(([] : List Nat) = [] ∧ List.range' 1 n = []) := by simp; omega
      have h1 : stop w single ⟨0, []⟩ ⟨[], [], List.range' 1 n⟩ = (false, ⟨0, []⟩) := by
        unfold stop
        rw [if_neg hne]
        simp [findDone]
      have h2 : update w max ⟨0, []⟩ ⟨[], [], List.range' 1 n⟩ = (⟨[], [], List.range' 1 n⟩, ⟨0, []⟩) := by
        have hg : grab (max - (0 : Nat)) (List.range' 1 n) = ([], List.range' 1 n) := by
          unfold grab
          have h0 : (max - (0 : Nat)).toNat = 0 := by omega
          rw [if_neg (by rw [List.length_range']; omega), h0]
          rfl
        unfold update
        simp only [split, ne_eq, not_true_eq_false, false_and, if_false, List.length_nil, List.append_nil, List.nil_append]
        rw [hg]
      simp only [loop, h1, h2, Bool.false_eq_true, if_false]
      exact ih
  unfold paraEval
  rw [key]

end Voss.Para
