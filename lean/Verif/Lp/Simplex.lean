import Verif.Lp.Core
import Mathlib.Data.List.GetD

/-! The simplex method on tableaus. -/
namespace Voss.Lp
namespace Tab

/-- A tableau whose rows do not share columns. -/
structure WF (t : Tab) (m n : Nat) : Prop where
  nrow : t.nrow = m
  ncol : t.ncol = n
  ptr : t.ptr = List.range (m + 1)
  mem : t.mem.length = m + 1
  len : ∀ r ∈ t.mem, r.length = n + 1

def mat (t : Tab) : Mat := fun r c => if r ≤ t.nrow then t.at' r c else 0

theorem WF.ptr_at {t : Tab} {m n : Nat} (h : t.WF m n) {i : Nat} (hi : i ≤ m) : t.ptr.getD i 0 = i := by
  rw [h.ptr, List.getD_eq_getElem _ _ (by rw [List.length_range]; omega), List.getElem_range]

theorem WF.row_eq {t : Tab} {m n : Nat} (h : t.WF m n) {i : Nat} (hi : i ≤ m) : t.row i = t.mem.getD i [] := by
  rw [row, h.ptr_at hi]

theorem WF.row_len {t : Tab} {m n : Nat} (h : t.WF m n) {i : Nat} (hi : i ≤ m) : (t.row i).length = n + 1 := by
  rw [h.row_eq hi]
  have : i < t.mem.length := by rw [h.mem]; omega
  rw [List.getD_eq_getElem _ _ this]
  exact h.len _ (List.getElem_mem _)

theorem mem_set {α : Type} {l : List α} {i : Nat} {a b : α} (h : b ∈ l.set i a) : b ∈ l ∨ b = a := List.mem_or_eq_of_mem_set h

theorem WF.write {t : Tab} {m n : Nat} (h : t.WF m n) {i : Nat} (r : List ℚ) (hr : r.length = n + 1) : (t.write i r).WF m n := by
  refine ⟨h.nrow, h.ncol, h.ptr, ?_, ?_⟩
  · simp only [Tab.write, List.length_set]; exact h.mem
  · intro x hx
    rcases mem_set hx with hx | hx
    · exact h.len x hx
    · rw [hx]; exact hr

theorem WF.row_write {t : Tab} {m n : Nat} (h : t.WF m n) {i : Nat} (hi : i ≤ m) (r : List ℚ) (hr : r.length = n + 1) {k : Nat}
    (hk : k ≤ m) : (t.write i r).row k = if k = i then r else t.row k := by
  rw [(h.write (i := i) r hr).row_eq hk, h.row_eq hk]
  simp only [Tab.write, h.ptr_at hi]
  have hl : k < t.mem.length := by rw [h.mem]; omega
  rw [List.getD_eq_getElem _ _ (by rw [List.length_set]; exact hl), List.getElem_set, List.getD_eq_getElem _ _ hl]
  by_cases e : k = i
  · rw [if_pos e, if_pos e.symm]
  · rw [if_neg e, if_neg (fun x => e x.symm)]

theorem getD_map (l : List ℚ) (f : ℚ → ℚ) (h0 : f 0 = 0) (c : Nat) : (l.map f).getD c 0 = f (l.getD c 0) := by
  by_cases h : c < l.length
  · rw [List.getD_eq_getElem _ _ (by simpa using h), List.getElem_map, List.getD_eq_getElem _ _ h]
  · rw [List.getD_eq_default _ _ (by simpa using h), List.getD_eq_default _ _ (by simpa using h), h0]

theorem getD_zipWith (a b : List ℚ) (f : ℚ → ℚ → ℚ) (h0 : f 0 0 = 0) (hl : a.length = b.length) (c : Nat) :
    (List.zipWith f a b).getD c 0 = f (a.getD c 0) (b.getD c 0) := by
  by_cases h : c < a.length
  · have hb : c < b.length := by omega
    rw [List.getD_eq_getElem _ _ (by rw [List.length_zipWith]; omega), List.getElem_zipWith, List.getD_eq_getElem _ _ h,
      List.getD_eq_getElem _ _ hb]
  · rw [List.getD_eq_default _ _ (by rw [List.length_zipWith]; omega), List.getD_eq_default _ _ (by omega),
      List.getD_eq_default _ _ (by omega), h0]

theorem clear_wf {t : Tab} {m n : Nat} (h : t.WF m n) {i : Nat} (hi : i ≤ m) (j : Nat) {k : Nat} (hk : k ≤ m) :
    (t.clear i j k).WF m n ∧ ∀ r, r ≤ m → (t.clear i j k).row r =
      if r = k ∧ k ≠ i then List.zipWith (fun a b => a - t.at' k j * b) (t.row k) (t.row i) else t.row r := by
  unfold clear
  by_cases e : k = i
  · rw [if_pos e]
    refine ⟨h, ?_⟩
    intro r _
    rw [if_neg (by omega)]
  · rw [if_neg e]
    have hl : (List.zipWith (fun a b => a - t.at' k j * b) (t.row k) (t.row i)).length = n + 1 := by
      rw [List.length_zipWith, h.row_len hk, h.row_len hi]; omega
    refine ⟨h.write _ hl, ?_⟩
    intro r hr
    rw [h.row_write hk _ hl hr]
    by_cases e2 : r = k
    · rw [if_pos e2, if_pos ⟨e2, e⟩]
    · rw [if_neg e2, if_neg (fun x => e2 x.1)]

/-- Clearing rows, in order. -/
theorem clear_fold {m n : Nat} {i : Nat} (hi : i ≤ m) (j : Nat) :
    ∀ (ks : List Nat) (t : Tab), t.WF m n → (∀ k ∈ ks, k ≤ m) → ks.Nodup →
      (ks.foldl (clear i j) t).WF m n ∧ (ks.foldl (clear i j) t).eps = t.eps ∧ (ks.foldl (clear i j) t).ur = t.ur ∧
      (ks.foldl (clear i j) t).var = t.var ∧ ∀ r, r ≤ m → (ks.foldl (clear i j) t).row r =
        if r ∈ ks ∧ r ≠ i then List.zipWith (fun a b => a - t.at' r j * b) (t.row r) (t.row i) else t.row r := by
  intro ks
  induction ks with
  | nil => intro t h _ _; refine ⟨h, rfl, rfl, rfl, ?_⟩; intro r _; simp
  | cons k ks ih =>
    intro t h hk hd
    rw [List.nodup_cons] at hd
    obtain ⟨hw, hrow⟩ := clear_wf h hi j (hk k (List.mem_cons_self ..))
    obtain ⟨a, b1, b2, b3, c⟩ := ih (t.clear i j k) hw (fun x hx => hk x (List.mem_cons_of_mem _ hx)) hd.2
    rw [List.foldl_cons]
    refine ⟨a, ?_, ?_, ?_, ?_⟩
    · rw [b1]; unfold clear; split <;> rfl
    · rw [b2]; unfold clear; split <;> rfl
    · rw [b3]; unfold clear; split <;> rfl
    · intro r hr
      rw [c r hr]
      have hri : (t.clear i j k).row i = t.row i := by rw [hrow i hi, if_neg (by omega)]
      by_cases h1 : r ∈ ks
      · have hrk : r ≠ k := fun e => hd.1 (e ▸ h1)
        have hrr : (t.clear i j k).row r = t.row r := by rw [hrow r hr, if_neg (by omega)]
        simp only [at', hrr, hri, List.mem_cons, h1, or_true]
      · rw [if_neg (fun x => h1 x.1), hrow r hr]
        by_cases e : r = k
        · subst e
          simp
        · rw [if_neg (fun x => e x.1), if_neg (by simp [e, h1])]

theorem pivot_spec {t : Tab} {m n : Nat} (h : t.WF m n) {i : Nat} (hi : i ≤ m) (j : Nat) :
    (t.pivot i j).WF m n ∧ (t.pivot i j).mat = piv t.mat i j ∧ (t.pivot i j).eps = t.eps ∧ (t.pivot i j).ur = t.ur ∧
      (t.pivot i j).var = t.var := by
  have hl : ((t.row i).map (· / t.at' i j)).length = n + 1 := by rw [List.length_map]; exact h.row_len hi
  have hw := h.write (i := i) _ hl
  obtain ⟨a, b1, b2, b3, c⟩ := clear_fold hi j (List.range (m + 1)) _ hw (by intro k hk; rw [List.mem_range] at hk; omega)
    List.nodup_range
  unfold pivot
  rw [h.nrow]
  refine ⟨a, ?_, b1, b2, b3⟩
  funext r cc
  have hdm := a.nrow
  unfold mat piv
  rw [hdm, h.nrow]
  beta_reduce
  simp only []
  by_cases hr : r ≤ m
  · rw [if_pos hr, if_pos hi]
    by_cases e : r = i
    · rw [if_pos e]
      subst e
      show List.getD (row _ r) cc 0 = _
      rw [c r hr, if_neg (by simp), h.row_write hr _ hl hr, if_pos rfl, getD_map _ (· / t.at' r j) (zero_div _), if_pos hr]
      rfl
    · rw [if_neg e]
      have hr1 := h.row_write hi _ hl hr
      rw [if_neg e] at hr1
      have hr2 := h.row_write hi _ hl hi
      rw [if_pos rfl] at hr2
      show List.getD (row _ r) cc 0 = _
      rw [c r hr, if_pos ⟨List.mem_range.2 (by omega), e⟩, hr1, hr2]
      rw [getD_zipWith _ _ _ (by simp) (by rw [hl, h.row_len hr]), getD_map _ (· / t.at' i j) (zero_div _)]
      have hr3 : (t.write i (List.map (fun x => x / t.at' i j) (t.row i))).at' r j = t.at' r j := by rw [at', hr1]; rfl
      rw [hr3, if_pos hr, if_pos hr, if_pos hi]
      rfl
  · rw [if_neg hr, if_neg (by omega)]
    simp [hr]

/-- The choice of a column. -/
theorem enter_fold (t : Tab) (noeps : Bool) : ∀ (l done : List Nat) (s : Nat × ℚ), (∀ j ∈ l, j ≠ 0) →
    ((s.1 = 0 ∧ s.2 = 0 ∧ ∀ j ∈ done, ¬(noeps = true ∧ t.eps = some j) → 0 ≤ t.at' 0 j) ∨
      (s.1 ∈ done ∧ s.1 ≠ 0 ∧ t.at' 0 s.1 < 0 ∧ ¬(noeps = true ∧ t.eps = some s.1))) →
    let r := l.foldl (fun (s : Nat × ℚ) j =>
      if noeps = true ∧ t.eps = some j then s
      else if t.at' 0 j < 0 ∧ t.at' 0 j < s.2 then (j, t.at' 0 j) else s) s
    (r.1 = 0 ∧ ∀ j ∈ done ++ l, ¬(noeps = true ∧ t.eps = some j) → 0 ≤ t.at' 0 j) ∨
      (r.1 ∈ done ++ l ∧ r.1 ≠ 0 ∧ t.at' 0 r.1 < 0 ∧ ¬(noeps = true ∧ t.eps = some r.1)) := by
  intro l
  induction l with
  | nil =>
    intro done s _ h
    simp only [List.foldl_nil, List.append_nil]
    rcases h with ⟨a, _, c⟩ | h
    · exact Or.inl ⟨a, c⟩
    · exact Or.inr h
  | cons j l ih =>
    intro done s hz h
    have hz' : ∀ j ∈ l, j ≠ 0 := fun x hx => hz x (List.mem_cons_of_mem _ hx)
    have := ih (done ++ [j]) (if noeps = true ∧ t.eps = some j then s
      else if t.at' 0 j < 0 ∧ t.at' 0 j < s.2 then (j, t.at' 0 j) else s) hz' ?_
    · simpa only [List.foldl_cons, List.append_assoc, List.singleton_append] using this
    · by_cases h1 : noeps = true ∧ t.eps = some j
      · rw [if_pos h1]
        rcases h with ⟨a, b, c⟩ | ⟨a, b⟩
        · refine Or.inl ⟨a, b, ?_⟩
          intro x hx hn
          rcases List.mem_append.1 hx with hx | hx
          · exact c x hx hn
          · rw [List.mem_singleton.1 hx] at hn
            exact absurd h1 hn
        · exact Or.inr ⟨List.mem_append_left _ a, b⟩
      · rw [if_neg h1]
        by_cases h2 : t.at' 0 j < 0 ∧ t.at' 0 j < s.2
        · rw [if_pos h2]
          exact Or.inr ⟨List.mem_append_right _ (List.mem_singleton.2 rfl), hz j (List.mem_cons_self ..), h2.1, h1⟩
        · rw [if_neg h2]
          rcases h with ⟨a, b, c⟩ | ⟨a, b⟩
          · refine Or.inl ⟨a, b, ?_⟩
            intro x hx hn
            rcases List.mem_append.1 hx with hx | hx
            · exact c x hx hn
            · rw [List.mem_singleton.1 hx]
              rw [b] at h2
              exact not_lt.1 (fun e => h2 ⟨e, e⟩)
          · exact Or.inr ⟨List.mem_append_left _ a, b⟩

theorem enter_spec (t : Tab) (noeps : Bool) :
    (t.enter noeps = 0 ∧ ∀ j, 1 ≤ j → j ≤ t.ncol → ¬(noeps = true ∧ t.eps = some j) → 0 ≤ t.at' 0 j) ∨
    (1 ≤ t.enter noeps ∧ t.enter noeps ≤ t.ncol ∧ t.at' 0 (t.enter noeps) < 0 ∧ ¬(noeps = true ∧ t.eps = some (t.enter noeps))) := by
  have h := enter_fold t noeps (List.range' 1 t.ncol) [] (0, 0) (by intro j hj; rw [List.mem_range'_1] at hj; omega)
    (Or.inl ⟨rfl, rfl, by simp⟩)
  rcases h with ⟨a, b⟩ | ⟨a, b, c⟩
  · left
    refine ⟨a, ?_⟩
    intro j h1 h2
    exact b j (by rw [List.nil_append, List.mem_range'_1]; omega)
  · right
    rw [List.nil_append, List.mem_range'_1] at a
    refine ⟨a.1, ?_, c⟩
    have := a.2
    unfold enter
    omega

/-- The choice of a row. -/
theorem leave_fold (t : Tab) (jj : Nat) : ∀ (l done : List Nat) (s : Nat × ℚ), (∀ i ∈ l, i ≠ 0) →
    ((s.1 = 0 ∧ ∀ i ∈ done, ¬ 0 < t.at' i jj) ∨
      (s.1 ∈ done ∧ s.1 ≠ 0 ∧ 0 < t.at' s.1 jj ∧ s.2 = t.at' s.1 0 / t.at' s.1 jj ∧
        ∀ i ∈ done, 0 < t.at' i jj → s.2 ≤ t.at' i 0 / t.at' i jj)) →
    let r := l.foldl (fun (s : Nat × ℚ) i =>
      if 0 < t.at' i jj then
        let q := t.at' i 0 / t.at' i jj
        if s.1 = 0 ∨ q < s.2 then (i, q) else s
      else s) s
    (r.1 = 0 ∧ ∀ i ∈ done ++ l, ¬ 0 < t.at' i jj) ∨
      (r.1 ∈ done ++ l ∧ r.1 ≠ 0 ∧ 0 < t.at' r.1 jj ∧
        ∀ i ∈ done ++ l, 0 < t.at' i jj → t.at' r.1 0 / t.at' r.1 jj ≤ t.at' i 0 / t.at' i jj) := by
  intro l
  induction l with
  | nil =>
    intro done s _ h
    simp only [List.foldl_nil, List.append_nil]
    rcases h with h | ⟨a, b, c, d, e⟩
    · exact Or.inl h
    · exact Or.inr ⟨a, b, c, fun i hi hp => d ▸ e i hi hp⟩
  | cons j l ih =>
    intro done s hz h
    have hz' : ∀ j ∈ l, j ≠ 0 := fun x hx => hz x (List.mem_cons_of_mem _ hx)
    have := ih (done ++ [j]) (if 0 < t.at' j jj then
        let q := t.at' j 0 / t.at' j jj
        if s.1 = 0 ∨ q < s.2 then (j, q) else s
      else s) hz' ?_
    · simpa only [List.foldl_cons, List.append_assoc, List.singleton_append] using this
    · by_cases h1 : 0 < t.at' j jj
      · rw [if_pos h1]
        simp only []
        by_cases h2 : s.1 = 0 ∨ t.at' j 0 / t.at' j jj < s.2
        · rw [if_pos h2]
          refine Or.inr ⟨List.mem_append_right _ (List.mem_singleton.2 rfl), hz j (List.mem_cons_self ..), h1, rfl, ?_⟩
          intro i hi hp
          rcases List.mem_append.1 hi with hi | hi
          · rcases h with ⟨_, b⟩ | ⟨_, b, _, _, e⟩
            · exact absurd hp (b i hi)
            · have := h2.resolve_left b
              exact le_trans (le_of_lt this) (e i hi hp)
          · rw [List.mem_singleton.1 hi]
        · rw [if_neg h2]
          rcases h with ⟨a, _⟩ | ⟨a, b, c, d, e⟩
          · exact absurd (Or.inl a) h2
          · refine Or.inr ⟨List.mem_append_left _ a, b, c, d, ?_⟩
            intro i hi hp
            rcases List.mem_append.1 hi with hi | hi
            · exact e i hi hp
            · rw [List.mem_singleton.1 hi]
              exact not_lt.1 (fun x => h2 (Or.inr x))
      · rw [if_neg h1]
        rcases h with ⟨a, b⟩ | ⟨a, b, c, d, e⟩
        · refine Or.inl ⟨a, ?_⟩
          intro i hi
          rcases List.mem_append.1 hi with hi | hi
          · exact b i hi
          · rw [List.mem_singleton.1 hi]; exact h1
        · refine Or.inr ⟨List.mem_append_left _ a, b, c, d, ?_⟩
          intro i hi hp
          rcases List.mem_append.1 hi with hi | hi
          · exact e i hi hp
          · rw [List.mem_singleton.1 hi] at hp; exact absurd hp h1

theorem leave_spec (t : Tab) (jj : Nat) :
    (t.leave jj = 0 ∧ ∀ i, 1 ≤ i → i ≤ t.nrow → t.at' i jj ≤ 0) ∨
    (1 ≤ t.leave jj ∧ t.leave jj ≤ t.nrow ∧ 0 < t.at' (t.leave jj) jj ∧
      ∀ i, 1 ≤ i → i ≤ t.nrow → 0 < t.at' i jj →
        t.at' (t.leave jj) 0 / t.at' (t.leave jj) jj ≤ t.at' i 0 / t.at' i jj) := by
  have h := leave_fold t jj (List.range' 1 t.nrow) [] (0, 0) (by intro j hj; rw [List.mem_range'_1] at hj; omega)
    (Or.inl ⟨rfl, by simp⟩)
  rcases h with ⟨a, b⟩ | ⟨a, b, c, d⟩
  · left
    refine ⟨a, ?_⟩
    intro j h1 h2
    exact not_lt.1 (b j (by rw [List.nil_append, List.mem_range'_1]; omega))
  · right
    rw [List.nil_append, List.mem_range'_1] at a
    refine ⟨a.1, ?_, c, ?_⟩
    · have := a.2
      unfold leave
      omega
    · intro i h1 h2
      exact d i (by rw [List.nil_append, List.mem_range'_1]; omega)

theorem mat_at {t : Tab} {m n : Nat} (h : t.WF m n) {i : Nat} (hi : i ≤ m) (c : Nat) : t.mat i c = t.at' i c := by
  rw [mat, if_pos (by rw [h.nrow]; exact hi)]

/-- What the simplex method keeps: a basis, constants that are not negative, and all that pivots keep. -/
theorem simplex_inv (noeps : Bool) {m n : Nat} (e : Option Nat) (P : Mat → Prop)
    (hP : ∀ A i j, 1 ≤ i → i ≤ m → A i j ≠ 0 → P A → P (piv A i j)) :
    ∀ (k : Nat) (t t' : Tab) (ub : Bool) (β : Nat → Nat), t.WF m n → t.eps = e → Canon m n t.mat β →
      (∀ i, 1 ≤ i → i ≤ m → 0 ≤ t.mat i 0) → (∀ i, 1 ≤ i → i ≤ m → ¬(noeps = true ∧ e = some (β i))) → P t.mat →
      t.simplex noeps k = .ok (t', ub) →
      ∃ β', t'.WF m n ∧ t'.eps = e ∧ t'.ur = t.ur ∧ t'.var = t.var ∧ Canon m n t'.mat β' ∧
        (∀ i, 1 ≤ i → i ≤ m → 0 ≤ t'.mat i 0) ∧ (∀ i, 1 ≤ i → i ≤ m → ¬(noeps = true ∧ e = some (β' i))) ∧ P t'.mat ∧
        (ub = false → ∀ j, 1 ≤ j → j ≤ n → ¬(noeps = true ∧ e = some j) → 0 ≤ t'.mat 0 j) ∧
        (ub = true → ∃ j, 1 ≤ j ∧ j ≤ n ∧ t'.mat 0 j < 0 ∧ ¬(noeps = true ∧ e = some j) ∧
          ∀ i, 1 ≤ i → i ≤ m → t'.mat i j ≤ 0) := by
  intro k
  induction k with
  | zero => intro t t' ub β _ _ _ _ _ _ h; simp [simplex] at h
  | succ k ih =>
    intro t t' ub β hw he hc hb hβ hp h
    rw [simplex] at h
    simp only [] at h
    rcases enter_spec t noeps with ⟨h0, h1⟩ | ⟨e1, e2, e3, e4⟩
    · rw [if_pos h0] at h
      injection h with h
      injection h with ha hb'
      subst ha hb'
      refine ⟨β, hw, he, rfl, rfl, hc, hb, hβ, hp, ?_, by simp⟩
      intro _ j j1 j2 hj
      rw [mat_at hw (Nat.zero_le _)]
      exact h1 j j1 (by rw [hw.ncol]; exact j2) (by rw [he]; exact hj)
    · rw [if_neg (by omega)] at h
      rw [hw.ncol] at e2
      rw [he] at e4
      rcases leave_spec t (t.enter noeps) with ⟨l0, l1⟩ | ⟨l1, l2, l3, l4⟩
      · rw [if_pos l0] at h
        injection h with h
        injection h with ha hb'
        subst ha hb'
        refine ⟨β, hw, he, rfl, rfl, hc, hb, hβ, hp, by simp, ?_⟩
        intro _
        refine ⟨t.enter noeps, e1, e2, ?_, e4, ?_⟩
        · rw [mat_at hw (Nat.zero_le _)]; exact e3
        · intro i i1 i2
          rw [mat_at hw i2]
          exact l1 i i1 (by rw [hw.nrow]; exact i2)
      · rw [if_neg (by omega)] at h
        rw [hw.nrow] at l2
        obtain ⟨p1, p2, p3, p4, p5⟩ := pivot_spec hw l2 (t.enter noeps)
        have hne : t.mat (t.leave (t.enter noeps)) (t.enter noeps) ≠ 0 := by
          rw [mat_at hw l2]; exact ne_of_gt l3
        obtain ⟨β', q1, q2, q3, q4, q5⟩ := ih _ t' ub _ p1 (p3.trans he) (p2 ▸ canon_piv hc l2 e1 e2 hne)
          (by
            rw [p2]
            apply nonneg_piv hb l1 l2
            · rw [mat_at hw l2]; exact l3
            · intro r r1 r2 hr
              rw [mat_at hw r2] at hr
              rw [mat_at hw l2, mat_at hw l2, mat_at hw r2, mat_at hw r2]
              exact l4 r r1 (by rw [hw.nrow]; exact r2) hr)
          (by
            intro i i1 i2
            by_cases hi : i = t.leave (t.enter noeps)
            · rw [if_pos hi]; exact e4
            · rw [if_neg hi]; exact hβ i i1 i2)
          (p2 ▸ hP _ _ _ l1 l2 hne hp) h
        exact ⟨β', q1, q2, q3.trans p4, q4.trans p5, q5⟩

end Tab
end Voss.Lp
