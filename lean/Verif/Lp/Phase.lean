import Verif.Lp.Simplex

/-! The first phase: artificial variables. -/
namespace Voss.Lp
open Tab

/-- A standard form whose constants are not negative. -/
structure Std.WF (s : Std) : Prop where
  len : ∀ r ∈ s.rows, r.length = s.ncol + 1
  pos : ∀ r ∈ s.rows, 0 ≤ r.getD 0 0
  eps : ∀ e, s.eps = some e → 1 ≤ e ∧ e ≤ s.ncol

/-- The matrix of a standard form; rows are counted from 1. -/
def Std.mat (s : Std) : Mat := fun i j => (s.rows.getD (i - 1) []).getD j 0

theorem sm_list {α : Type} (d : α) (f : α → ℚ) (l : List α) : sm l.length (fun i => f (l.getD (i - 1) d)) = (l.map f).sum := by
  unfold sm
  induction l with
  | nil => simp
  | cons a l ih =>
    rw [List.length_cons, Finset.sum_range_succ', List.map_cons, List.sum_cons, ← ih, add_comm]
    simp

theorem cost_fold (n : Nat) : ∀ (rows : List (List ℚ)) (c : List ℚ), c.length = n → (∀ r ∈ rows, r.length = n) →
    (rows.foldl (fun c r => List.zipWith (fun a b => a - b) c r) c).length = n ∧
    ∀ j, (rows.foldl (fun c r => List.zipWith (fun a b => a - b) c r) c).getD j 0 = c.getD j 0 - (rows.map fun r => r.getD j 0).sum := by
  intro rows
  induction rows with
  | nil => intro c hc _; exact ⟨hc, by intro j; simp⟩
  | cons r rows ih =>
    intro c hc h
    have hr := h r (List.mem_cons_self ..)
    have hl : (List.zipWith (fun a b : ℚ => a - b) c r).length = n := by rw [List.length_zipWith, hc, hr]; omega
    obtain ⟨a, b⟩ := ih _ hl (fun x hx => h x (List.mem_cons_of_mem _ hx))
    rw [List.foldl_cons]
    refine ⟨a, ?_⟩
    intro j
    rw [b j, getD_zipWith _ _ _ (by simp) (by rw [hc, hr]), List.map_cons, List.sum_cons]
    ring

theorem getD_app_left {l m : List ℚ} {j : Nat} (h : j < l.length) : (l ++ m).getD j 0 = l.getD j 0 := by
  rw [List.getD_append _ _ _ _ h]

theorem getD_app_right {l m : List ℚ} {j : Nat} (h : l.length ≤ j) : (l ++ m).getD j 0 = m.getD (j - l.length) 0 := by
  rw [List.getD_append_right _ _ _ _ h]

theorem art_row (m i : Nat) (r : List ℚ) (n : Nat) (hr : r.length = n + 1) :
    (artRow m i r).length = n + m + 1 ∧ (∀ j, j ≤ n → (artRow m i r).getD j 0 = r.getD j 0) ∧
    (∀ k, 1 ≤ k → k ≤ m → (artRow m i r).getD (n + k) 0 = if k = i + 1 then 1 else 0) := by
  unfold artRow
  refine ⟨by simp [hr]; omega, ?_, ?_⟩
  · intro j hj
    exact getD_app_left (by omega)
  · intro k k1 k2
    rw [getD_app_right (by omega), hr, List.getD_eq_getElem _ _ (by simp; omega), List.getElem_map, List.getElem_range]
    by_cases e : k = i + 1
    · rw [if_pos e, if_pos (by omega)]
    · rw [if_neg e, if_neg (by omega)]

structure Art (s : Std) (A : Mat) : Prop where
  coef : ∀ i j, 1 ≤ i → i ≤ s.rows.length → j ≤ s.ncol → A i j = s.mat i j
  unit : ∀ i k, 1 ≤ i → i ≤ s.rows.length → 1 ≤ k → k ≤ s.rows.length → A i (s.ncol + k) = if k = i then 1 else 0
  cost : ∀ j, j ≤ s.ncol → A 0 j = - sm s.rows.length (fun i => s.mat i j)
  rest : ∀ k, 1 ≤ k → k ≤ s.rows.length → A 0 (s.ncol + k) = 0

theorem art_spec {s : Std} (h : s.WF) : (artTab s).WF s.rows.length (s.ncol + s.rows.length) ∧ Art s (artTab s).mat := by
  obtain ⟨c1, c2⟩ := cost_fold (s.ncol + 1) s.rows (List.replicate (s.ncol + 1) 0) (by simp) h.len
  have hw : (artTab s).WF s.rows.length (s.ncol + s.rows.length) := by
    refine ⟨rfl, rfl, rfl, by simp [artTab], ?_⟩
    intro r hr
    simp only [artTab, List.mem_cons] at hr
    rcases hr with hr | hr
    · rw [hr, List.length_append, c1, List.length_replicate]; omega
    · rw [List.mem_mapIdx] at hr
      obtain ⟨i, hi, rfl⟩ := hr
      exact (art_row s.rows.length i s.rows[i] s.ncol (h.len _ (List.getElem_mem _))).1
  have hrow : ∀ i, 1 ≤ i → i ≤ s.rows.length → (artTab s).row i = artRow s.rows.length (i - 1) (s.rows.getD (i - 1) []) := by
    intro i i1 i2
    rw [hw.row_eq i2]
    obtain ⟨k, rfl⟩ : ∃ k, i = k + 1 := ⟨i - 1, by omega⟩
    simp only [artTab, List.getD_cons_succ]
    rw [List.getD_eq_getElem _ _ (by rw [List.length_mapIdx]; omega), List.getElem_mapIdx]
    simp only [Nat.add_sub_cancel]
    rw [List.getD_eq_getElem _ _ (by omega)]
  have hlen : ∀ i, 1 ≤ i → i ≤ s.rows.length → (s.rows.getD (i - 1) []).length = s.ncol + 1 := by
    intro i i1 i2
    rw [List.getD_eq_getElem _ _ (by omega)]
    exact h.len _ (List.getElem_mem _)
  have hrow0 : (artTab s).row 0 = s.rows.foldl (fun c r => List.zipWith (fun a b => a - b) c r) (List.replicate (s.ncol + 1) 0) ++
      List.replicate s.rows.length 0 := by
    rw [hw.row_eq (Nat.zero_le _)]; rfl
  refine ⟨hw, ⟨?_, ?_, ?_, ?_⟩⟩
  · intro i j i1 i2 hj
    rw [mat_at hw i2, at', hrow i i1 i2]
    exact (art_row _ _ _ s.ncol (hlen i i1 i2)).2.1 j hj
  · intro i k i1 i2 k1 k2
    rw [mat_at hw i2, at', hrow i i1 i2, (art_row _ _ _ s.ncol (hlen i i1 i2)).2.2 k k1 k2]
    by_cases e : k = i
    · rw [if_pos e, if_pos (by omega)]
    · rw [if_neg e, if_neg (by omega)]
  · intro j hj
    rw [mat_at hw (Nat.zero_le _), at', hrow0, getD_app_left (by rw [c1]; omega), c2 j]
    unfold Std.mat
    rw [sm_list [] (fun r => r.getD j 0)]
    rw [List.getD_eq_getElem _ _ (by simp; omega)]
    simp
  · intro k k1 k2
    rw [mat_at hw (Nat.zero_le _), at', hrow0, getD_app_right (by rw [c1]; omega), c1,
      List.getD_eq_getElem _ _ (by simp; omega)]
    simp

/-- A solution with artificial variables. -/
theorem art_sol {s : Std} {A : Mat} (h : Art s A) (v : Nat → ℚ) : Sol s.rows.length (s.ncol + s.rows.length) A v ↔
    ∀ i, 1 ≤ i → i ≤ s.rows.length → res s.ncol s.mat i v + v (s.ncol + i) = 0 := by
  have key : ∀ i, 1 ≤ i → i ≤ s.rows.length → res (s.ncol + s.rows.length) A i v = res s.ncol s.mat i v + v (s.ncol + i) := by
    intro i i1 i2
    unfold res
    rw [sm_split, h.coef i 0 i1 i2 (Nat.zero_le _)]
    rw [sm_congr (n := s.ncol) (g := fun j => s.mat i j * v j) (by intro j _ hj; rw [h.coef i j i1 i2 hj])]
    rw [sm_congr (n := s.rows.length) (g := fun k => if i = k then v (s.ncol + k) else 0)
      (by
        intro k k1 k2
        rw [h.unit i k i1 i2 k1 k2]
        by_cases e : k = i
        · rw [if_pos e, if_pos e.symm]; ring
        · rw [if_neg e, if_neg (fun x => e x.symm)]; ring),
      sm_pick (fun k => v (s.ncol + k)) i1 i2]
    ring
  constructor
  · intro hs i i1 i2
    rw [← key i i1 i2]; exact hs i i1 i2
  · intro hs i i1 i2
    rw [key i i1 i2]; exact hs i i1 i2

/-- The cost is the sum of the artificial variables. -/
theorem art_cost {s : Std} {A : Mat} (h : Art s A) {v : Nat → ℚ} (hv : Sol s.rows.length (s.ncol + s.rows.length) A v) :
    res (s.ncol + s.rows.length) A 0 v = sm s.rows.length (fun i => v (s.ncol + i)) := by
  have h1 := (art_sol h v).1 hv
  rw [sm_congr (g := fun i => -res s.ncol s.mat i v) (by intro i i1 i2; have := h1 i i1 i2; linarith)]
  unfold res
  rw [sm_split, h.cost 0 (Nat.zero_le _)]
  rw [sm_zero (n := s.rows.length) (f := fun j => A 0 (s.ncol + j) * v (s.ncol + j))
    (by intro j j1 j2; rw [h.rest j j1 j2, zero_mul])]
  rw [sm_congr (n := s.ncol) (g := fun j => sm s.rows.length (fun i => - (s.mat i j * v j)))
    (by
      intro j _ hj
      rw [h.cost j hj, neg_mul, mul_comm, ← sm_mul, neg_eq_neg_one_mul, ← sm_mul]
      apply sm_congr
      intro i _ _
      ring), sm_swap]
  rw [sm_congr (n := s.rows.length) (g := fun i => s.mat i 0 + sm s.ncol (fun j => -(s.mat i j * v j)))
    (f := fun i => -(sm s.ncol (fun j => s.mat i j * v j) - s.mat i 0))
    (by
      intro i _ _
      have : sm s.ncol (fun j => -(s.mat i j * v j)) = - sm s.ncol (fun j => s.mat i j * v j) := by
        rw [neg_eq_neg_one_mul, ← sm_mul]
        apply sm_congr
        intro j _ _
        ring
      rw [this]; ring), sm_add]
  ring

/-- What pivots keep: solutions, costs, and that the artificial columns tell how rows are combined. -/
structure Kept (s : Std) (A : Mat) : Prop where
  sol : ∀ v, Sol s.rows.length (s.ncol + s.rows.length) A v ↔
    ∀ i, 1 ≤ i → i ≤ s.rows.length → res s.ncol s.mat i v + v (s.ncol + i) = 0
  cost : ∀ v, Sol s.rows.length (s.ncol + s.rows.length) A v →
    res (s.ncol + s.rows.length) A 0 v = sm s.rows.length (fun i => v (s.ncol + i))
  lin : ∀ r j, 1 ≤ r → r ≤ s.rows.length → 1 ≤ j → j ≤ s.ncol →
    A r j = sm s.rows.length (fun k => A r (s.ncol + k) * s.mat k j)

theorem kept_art {s : Std} {A : Mat} (h : Art s A) : Kept s A := by
  refine ⟨art_sol h, fun v hv => art_cost h hv, ?_⟩
  intro r j r1 r2 j1 j2
  rw [sm_congr (g := fun k => if r = k then s.mat k j else 0)
    (by
      intro k k1 k2
      rw [h.unit r k r1 r2 k1 k2]
      by_cases e : k = r
      · rw [if_pos e, if_pos e.symm]; ring
      · rw [if_neg e, if_neg (fun x => e x.symm)]; ring),
    sm_pick (fun k => s.mat k j) r1 r2, h.coef r j r1 r2 j2]

theorem kept_piv {s : Std} {A : Mat} {i j : Nat} (i1 : 1 ≤ i) (i2 : i ≤ s.rows.length) (hp : A i j ≠ 0) (h : Kept s A) :
    Kept s (piv A i j) := by
  refine ⟨?_, ?_, ?_⟩
  · intro v
    rw [sol_piv i1 i2 hp, h.sol]
  · intro v hv
    rw [sol_piv i1 i2 hp] at hv
    rw [obj_piv i1 i2 hv, h.cost v hv]
  · intro r c r1 r2 c1 c2
    unfold piv
    by_cases e : r = i
    · simp only [if_pos e]
      rw [h.lin i c i1 i2 c1 c2, div_eq_mul_inv, mul_comm, ← sm_mul]
      apply sm_congr
      intro k _ _
      rw [div_eq_mul_inv]; ring
    · simp only [if_neg e]
      rw [h.lin r c r1 r2 c1 c2, h.lin i c i1 i2 c1 c2, div_eq_mul_inv, mul_comm (sm _ _) (A i j)⁻¹, ← sm_mul, ← sm_mul, ← sm_sub]
      apply sm_congr
      intro k _ _
      rw [div_eq_mul_inv]; ring

/-- The state after the first phase. -/
structure Done (s : Std) (t : Tab) (β : Nat → Nat) : Prop where
  wf : t.WF s.rows.length (s.ncol + s.rows.length)
  eps : t.eps = s.eps
  ur : t.ur = s.ur
  var : t.var = s.var
  canon : Canon s.rows.length (s.ncol + s.rows.length) t.mat β
  pos : ∀ i, 1 ≤ i → i ≤ s.rows.length → 0 ≤ t.mat i 0
  basic : ∀ i, 1 ≤ i → i ≤ s.rows.length → s.eps ≠ some (β i)
  kept : Kept s t.mat

theorem Kept.bv_cost {s : Std} {A : Mat} {β : Nat → Nat} (h : Kept s A) (hc : Canon s.rows.length (s.ncol + s.rows.length) A β) :
    -A 0 0 = sm s.rows.length (fun i => bv s.rows.length A β (s.ncol + i)) := by
  rw [← obj_bv hc, h.cost _ (sol_bv hc)]

theorem first_phase {s : Std} (h : s.WF) {k : Nat} {t : Tab} {ub : Bool} (hr : (artTab s).simplex true k = .ok (t, ub)) :
    ub = false ∧ (∃ β, Done s t β) ∧ (t.mat 0 0 ≠ 0 → ¬ ∃ v : Nat → ℚ, (∀ j, 0 ≤ v j) ∧ (∀ e, s.eps = some e → v e = 0) ∧
      Sol s.rows.length s.ncol s.mat v) := by
  obtain ⟨hw, ha⟩ := art_spec h
  obtain ⟨β, q1, q2, q3, q4, q5, q6, q7, q8, q9, q10⟩ := simplex_inv true (artTab s).eps (Kept s)
    (fun A i j i1 i2 hp hA => kept_piv i1 i2 hp hA) k _ t ub (fun i => s.ncol + i) hw rfl
    (by
      intro i i1 i2
      beta_reduce
      refine ⟨by omega, by omega, ?_⟩
      intro r hr
      by_cases h0 : r = 0
      · rw [h0, ha.rest i i1 i2, if_neg (by omega)]
      · rw [ha.unit r i (by omega) hr i1 i2]
        by_cases e : i = r
        · rw [if_pos e, if_pos e.symm]
        · rw [if_neg e, if_neg (fun x => e x.symm)])
    (by
      intro i i1 i2
      rw [ha.coef i 0 i1 i2 (Nat.zero_le _)]
      unfold Std.mat
      rw [List.getD_eq_getElem s.rows _ (by omega)]
      exact h.pos _ (List.getElem_mem _))
    (by
      rintro i i1 i2 ⟨_, he⟩
      have h2 : s.ncol + i ≤ s.ncol := (h.eps _ he).2
      omega)
    (kept_art ha) hr
  have hle : t.mat 0 0 ≤ 0 := by
    have := q8.bv_cost q5
    have h0 : 0 ≤ sm s.rows.length (fun i => bv s.rows.length t.mat β (s.ncol + i)) :=
      sm_nonneg (fun i _ _ => spread_nonneg q6 _)
    linarith
  have hub : ub = false := by
    cases ub with
    | false => rfl
    | true =>
      exfalso
      obtain ⟨j, j1, j2, j3, _, j5⟩ := q10 rfl
      have h1 := q8.cost _ (sol_ray q5 j1 j2 ((1 - t.mat 0 0) / (- t.mat 0 j)))
      rw [obj_ray q5 j1 j2] at h1
      have hx : 0 ≤ (1 - t.mat 0 0) / (- t.mat 0 j) := div_nonneg (by linarith) (by linarith)
      have h2 : 0 ≤ sm s.rows.length (fun i => ray s.rows.length t.mat β j ((1 - t.mat 0 0) / (- t.mat 0 j)) (s.ncol + i)) :=
        sm_nonneg (fun i _ _ => ray_nonneg q6 j5 hx _)
      have hj : t.mat 0 j ≠ 0 := ne_of_lt j3
      have h3 : (1 - t.mat 0 0) / (- t.mat 0 j) * t.mat 0 j = -(1 - t.mat 0 0) := by field_simp
      rw [h3] at h1
      linarith
  refine ⟨hub, ⟨β, q1, q2, q3, q4, q5, q6, ?_, q8⟩, ?_⟩
  · intro i i1 i2 he
    exact q7 i i1 i2 ⟨rfl, he⟩
  · rintro hne ⟨v, v0, ve, vs⟩
    apply hne
    have hv' : Sol s.rows.length (s.ncol + s.rows.length) t.mat (fun j => if j ≤ s.ncol then v j else 0) := by
      rw [q8.sol]
      intro i i1 i2
      rw [if_neg (by omega), add_zero]
      have := vs i i1 i2
      unfold res at this ⊢
      rw [sm_congr (g := fun j => s.mat i j * v j) (by intro j _ hj; beta_reduce; rw [if_pos hj])]
      exact this
    have h1 := q8.cost _ hv'
    rw [sm_zero (n := s.rows.length) (by intro i i1 _; rw [if_neg (by omega)])] at h1
    unfold res at h1
    have h2 : 0 ≤ sm (s.ncol + s.rows.length) (fun j => t.mat 0 j * (if j ≤ s.ncol then v j else 0)) := by
      apply sm_nonneg
      intro j j1 j2
      by_cases hj : j ≤ s.ncol
      · rw [if_pos hj]
        by_cases he : s.eps = some j
        · rw [ve j he, mul_zero]
        · exact mul_nonneg (q9 hub j j1 j2 (fun x => he x.2)) (v0 j)
      · rw [if_neg hj, mul_zero]
    linarith

/-- A basis of cost zero gives a solution. -/
theorem Done.zero {s : Std} {t : Tab} {β : Nat → Nat} (h : Done s t β) (h0 : t.mat 0 0 = 0) :
    (∀ i, 1 ≤ i → i ≤ s.rows.length → bv s.rows.length t.mat β (s.ncol + i) = 0) ∧
    Sol s.rows.length s.ncol s.mat (bv s.rows.length t.mat β) := by
  have h1 := h.kept.bv_cost h.canon
  rw [h0, neg_zero] at h1
  have hz : ∀ i, 1 ≤ i → i ≤ s.rows.length → bv s.rows.length t.mat β (s.ncol + i) = 0 := by
    intro i i1 i2
    have := sm_le (f := fun i => bv s.rows.length t.mat β (s.ncol + i)) (fun j _ _ => spread_nonneg h.pos _) i1 i2
    rw [← h1] at this
    exact le_antisymm this (spread_nonneg h.pos _)
  refine ⟨hz, ?_⟩
  intro i i1 i2
  have := (h.kept.sol _).1 (sol_bv h.canon) i i1 i2
  rw [hz i i1 i2, add_zero] at this
  exact this

end Voss.Lp
