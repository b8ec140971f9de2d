import Verif.Lp.Solve

/-! Independent equations give independent rows of the standard form. -/
namespace Voss.Lp
open Tab

def wsum (W : List (ℚ × Row)) (x : Nat → ℚ) : ℚ := (W.map fun p => p.1 * lhs p.2 x).sum

def isEq (r : Row) : Bool := r.rel == .eq

/-- The equations among the rows are independent. -/
def IndR (rs : List Row) : Prop := ∀ W : List (ℚ × Row), W.map Prod.snd = rs.filter isEq → (∀ x, wsum W x = 0) → ∀ p ∈ W, p.1 = 0

theorem signOf_eq {r : Row} (h : isEq r = true) : signOf r = 0 := by
  unfold signOf
  rw [if_neg]
  rintro ⟨a, _⟩
  unfold isEq at h
  rw [a] at h
  exact absurd h (by decide)

theorem kept_eq (rs : List Row) : (kept rs).filter isEq = rs.filter isEq := by
  unfold kept
  rw [List.filter_filter]
  apply List.filter_congr
  intro r _
  by_cases h : isEq r = true
  · rw [h, signOf_eq h]; rfl
  · simp [h]

/-- Values without signs. -/
theorem split_any (signed : List Nat) (x : Nat → ℚ) (n : Nat) : ∃ v : Nat → ℚ, (∀ j, 1 ≤ j → j ≤ n → unsplit signed v j = x j) ∧
    ∀ p, pos signed n ≤ p → v p = 0 := by
  obtain ⟨a, _, a1, a2⟩ := exists_split signed (fun j => max (x j) 0) (fun _ => 0) (fun _ => le_refl _) n (fun j _ _ _ => le_max_right _ _)
  obtain ⟨b, _, b1, b2⟩ := exists_split signed (fun j => max (x j) 0 - x j) (fun _ => 0) (fun _ => le_refl _) n
    (fun j _ _ _ => by have := le_max_left (x j) 0; linarith)
  refine ⟨fun p => a p - b p, ?_, ?_⟩
  · intro j j1 j2
    have h1 := a1 j j1 j2
    have h2 := b1 j j1 j2
    unfold unsplit at h1 h2 ⊢
    split
    · rename_i h
      rw [if_pos h] at h1 h2
      beta_reduce
      rw [h1, h2]; ring
    · rename_i h
      rw [if_neg h] at h1 h2
      linarith
  · intro p hp
    simp only []
    rw [a2 p hp, b2 p hp]; ring

theorem lhs_congr {r : Row} {n : Nat} (h : r.cols.length = n + 1) {x y : Nat → ℚ} (hxy : ∀ j, 1 ≤ j → j ≤ n → x j = y j) : lhs r x = lhs r y := by
  unfold lhs
  apply ev_congr
  intro j a b
  rw [List.length_tail, h] at b
  exact hxy j a (by omega)

theorem sum_filter_zero (p : Row → Bool) (x : Nat → ℚ) : ∀ (W : List (ℚ × Row)), (∀ q ∈ W, p q.2 = false → q.1 = 0) →
    wsum (W.filter fun q => p q.2) x = wsum W x := by
  intro W
  induction W with
  | nil => intro _; rfl
  | cons q W ih =>
    intro h
    have hi := ih (fun a ha => h a (List.mem_cons_of_mem _ ha))
    rw [List.filter_cons]
    cases hp : p q.2 with
    | true =>
      rw [if_pos rfl]
      unfold wsum at hi ⊢
      rw [List.map_cons, List.map_cons, List.sum_cons, List.sum_cons, hi]
    | false =>
      rw [if_neg (by simp), hi]
      unfold wsum
      rw [List.map_cons, List.sum_cons, h q (List.mem_cons_self ..) hp]
      ring

theorem filter_map_snd (p : Row → Bool) : ∀ (W : List (ℚ × Row)), (W.filter fun q => p q.2).map Prod.snd = (W.map Prod.snd).filter p := by
  intro W
  induction W with
  | nil => rfl
  | cons q W ih =>
    rw [List.filter_cons, List.map_cons, List.filter_cons]
    cases p q.2 <;> simp [ih]

theorem std_ind {n : Nat} {rs : List Row} {s : Std} (hp : Plain n rs) (h : StdOf n rs s) (hi : IndR rs) : s.Ind := by
  intro w hw
  have hlen := h.length
  -- all columns at once
  have hA : ∀ v : Nat → ℚ, (∀ e, s.eps = some e → v e = 0) →
      sm (kept rs).length (fun k => w k * sm s.ncol (fun j => s.mat k j * v j)) = 0 := by
    intro v hv
    rw [sm_congr (g := fun k => sm s.ncol (fun j => w k * (s.mat k j * v j))) (by intro k _ _; rw [sm_mul]), ← sm_swap]
    apply sm_zero
    intro j j1 j2
    by_cases he : s.eps = some j
    · apply sm_zero
      intro k _ _
      rw [hv j he]; ring
    · rw [sm_congr (g := fun k => v j * (w k * s.mat k j)) (by intro k _ _; ring), sm_mul, ← hlen, hw j j1 j2 he]
      ring
  have hL : ∀ v : Nat → ℚ, (∀ e, s.eps = some e → v e = 0) → ∀ i (hi : i < (kept rs).length),
      sm s.ncol (fun j => s.mat (i + 1) j * v j) = lhs (kept rs)[i] (unsplit (signedOf rs) v) +
        (if slacked (kept rs)[i] then slackCoef (kept rs)[i].rel * v (slackCol n rs i) else 0) := by
    intro v hv i hi
    have h1 := h.res hp hi v
    rw [h.eps_term (kept_mem hi).1 v] at h1
    have h2 : epsVal s v = 0 := by
      unfold epsVal
      cases he : s.eps with
      | none => rfl
      | some e => exact hv e he
    rw [h2, mul_zero, add_zero] at h1
    unfold Voss.Lp.res at h1
    have h3 : s.mat (i + 1) 0 = (kept rs)[i].cols.getD 0 0 := by
      unfold Std.mat
      rw [Nat.add_sub_cancel, h.row hi, stdRow, List.getD_cons_zero]
    rw [h3] at h1
    linarith
  have hslack : ∀ i (hi : i < (kept rs).length), slacked (kept rs)[i] = true → w (i + 1) = 0 := by
    intro i hik hs
    have heps : ∀ e, s.eps = some e → (fun p => if p = slackCol n rs i then (1 : ℚ) else 0) e = 0 := by
      intro e he
      rw [h.eps] at he
      by_cases hst : strictOf rs = true
      · rw [if_pos hst] at he
        injection he with he
        simp only []
        rw [if_neg]
        unfold slackCol
        rw [if_pos hst]
        omega
      · rw [if_neg hst] at he
        exact absurd he (by simp)
    have h1 := hA _ heps
    rw [sm_congr (g := fun k => if i + 1 = k then w k * slackCoef (kept rs)[i].rel else 0)] at h1
    · rw [sm_pick (fun k => w k * slackCoef (kept rs)[i].rel) (by omega) (by omega)] at h1
      have hm := hp.rel _ (kept_mem hik).1
      have hne : slackCoef (kept rs)[i].rel ≠ 0 := by
        unfold slacked at hs
        rw [Bool.and_eq_true] at hs
        have hs1 := hs.1
        cases hq : (kept rs)[i].rel <;> rw [hq] at hs1 hm <;> simp [slackCoef] at hs1 hm ⊢
      exact (mul_eq_zero.1 h1).resolve_right hne
    · intro k k1 k2
      obtain ⟨a, rfl⟩ : ∃ a, k = a + 1 := ⟨k - 1, by omega⟩
      have ha : a < (kept rs).length := by omega
      beta_reduce
      rw [hL _ heps a ha]
      have hz : lhs (kept rs)[a] (unsplit (signedOf rs) fun p => if p = slackCol n rs i then (1 : ℚ) else 0) = 0 := by
        rw [lhs_congr (hp.len _ (kept_mem ha).1) (y := fun _ => 0)]
        · unfold lhs
          rw [ev_sum]
          apply Finset.sum_eq_zero
          intro j _
          ring
        · intro j j1 j2
          obtain ⟨b, rfl⟩ : ∃ b, j = b + 1 := ⟨j - 1, by omega⟩
          have hpos : pos (signedOf rs) (b + 1) ≤ pos (signedOf rs) n := pos_le _ j2
          have hsc : pos (signedOf rs) n ≤ slackCol n rs i := by unfold slackCol; omega
          rw [pos] at hpos
          unfold unsplit
          rw [Nat.add_sub_cancel]
          split
          · rename_i hh
            rw [if_pos hh] at hpos
            beta_reduce
            rw [if_neg (by omega)]
          · rename_i hh
            rw [if_neg hh] at hpos
            beta_reduce
            rw [if_neg (by omega), if_neg (by omega)]; ring
      rw [hz, zero_add]
      by_cases hia : i = a
      · subst hia
        rw [if_pos hs, if_pos rfl, if_pos rfl, mul_one]
      · rw [if_neg (show ¬ i + 1 = a + 1 by omega)]
        by_cases hsa : slacked (kept rs)[a] = true
        · rw [if_pos hsa, if_neg]
          · ring
          · intro hcol
            unfold slackCol at hcol
            have b1 := cnt_bound hik hs
            have b2 := cnt_bound ha hsa
            exact hia (cnt_inj (kept rs) hik ha hs hsa (by omega))
        · rw [if_neg hsa]; ring
  -- the rest are equations
  let W : List (ℚ × Row) := (kept rs).mapIdx fun i r => (w (i + 1), r)
  have hW2 : W.map Prod.snd = kept rs := by
    show ((kept rs).mapIdx fun i r => (w (i + 1), r)).map Prod.snd = kept rs
    apply List.ext_getElem
    · simp
    · intro i a b; simp
  have hWget : ∀ q ∈ W, ∃ i, ∃ hi : i < (kept rs).length, q = (w (i + 1), (kept rs)[i]) := by
    intro q hq
    rw [List.mem_mapIdx] at hq
    obtain ⟨i, hi, rfl⟩ := hq
    exact ⟨i, hi, rfl⟩
  have hWz : ∀ q ∈ W, isEq q.2 = false → q.1 = 0 := by
    intro q hq he
    obtain ⟨i, hi, rfl⟩ := hWget q hq
    apply hslack i hi
    unfold slacked
    unfold isEq at he
    simp only [] at he
    rw [Bool.and_eq_true]
    refine ⟨?_, by simpa using (kept_mem hi).2⟩
    simpa using he
  have hWsum : ∀ x, wsum W x = 0 := by
    intro x
    obtain ⟨v, v1, v2⟩ := split_any (signedOf rs) x n
    have heps : ∀ e, s.eps = some e → v e = 0 := by
      intro e he
      rw [h.eps] at he
      by_cases hst : strictOf rs = true
      · rw [if_pos hst] at he
        injection he with he
        exact v2 e (by omega)
      · rw [if_neg hst] at he
        exact absurd he (by simp)
    have h1 := hA v heps
    have h2 : W.length = (kept rs).length := by show (List.mapIdx _ _).length = _; rw [List.length_mapIdx]
    unfold wsum
    rw [← sm_list ((0 : ℚ), (⟨[], .eq⟩ : Row)) (fun p => p.1 * lhs p.2 x) W, h2, ← h1]
    apply sm_congr
    intro k k1 k2
    obtain ⟨a, rfl⟩ : ∃ a, k = a + 1 := ⟨k - 1, by omega⟩
    have ha : a < (kept rs).length := by omega
    beta_reduce
    rw [hL v heps a ha, Nat.add_sub_cancel, List.getD_eq_getElem W _ (by rw [h2]; exact ha)]
    have hg : W[a]'(by rw [h2]; exact ha) = (w (a + 1), (kept rs)[a]) := by
      show ((kept rs).mapIdx fun i r => (w (i + 1), r))[a]'_ = _
      rw [List.getElem_mapIdx]
    rw [hg]
    simp only []
    rw [lhs_congr (hp.len _ (kept_mem ha).1) (fun j a b => v1 j a b)]
    split
    · have : pos (signedOf rs) n ≤ slackCol n rs a := by unfold slackCol; omega
      rw [v2 _ this]; ring
    · ring
  have hfin := hi (W.filter fun q => isEq q.2) (by rw [filter_map_snd, hW2, kept_eq])
    (fun x => by rw [sum_filter_zero isEq x W hWz]; exact hWsum x)
  intro k k1 k2
  obtain ⟨a, rfl⟩ : ∃ a, k = a + 1 := ⟨k - 1, by omega⟩
  have ha : a < (kept rs).length := by omega
  have hmem : (w (a + 1), (kept rs)[a]) ∈ W := by
    show _ ∈ (kept rs).mapIdx _
    rw [List.mem_mapIdx]
    exact ⟨a, ha, rfl⟩
  by_cases he : isEq (kept rs)[a] = true
  · exact hfin _ (List.mem_filter.2 ⟨hmem, he⟩)
  · exact hWz _ hmem (by simpa using he)

theorem norm_isEq (r : Row) : isEq (norm r) = isEq r := by
  unfold norm isEq
  split
  · cases r.rel <;> rfl
  · rfl

/-- Weights for all rows from weights of some of them. -/
theorem weights_up (p : Row → Bool) : ∀ (l : List Row) (W : List (ℚ × Row)), W.map Prod.snd = (l.filter p).map norm →
    ∃ W' : List (ℚ × Row), W'.map Prod.snd = l ∧ (∀ x, wsum W' x = wsum W x) ∧ ((∀ q ∈ W', q.1 = 0) → ∀ q ∈ W, q.1 = 0) := by
  intro l
  induction l with
  | nil =>
    intro W hW
    have : W = [] := by simpa using hW
    subst this
    exact ⟨[], rfl, fun _ => rfl, by simp⟩
  | cons r l ih =>
    intro W hW
    rw [List.filter_cons] at hW
    by_cases hr : p r = true
    · rw [if_pos hr, List.map_cons] at hW
      cases W with
      | nil => simp at hW
      | cons q W =>
        rw [List.map_cons] at hW
        injection hW with hq hW
        obtain ⟨W', w1, w2, w3⟩ := ih W hW
        refine ⟨((if r.cols.getD 0 0 < 0 then -1 else 1) * q.1, r) :: W', by rw [List.map_cons, w1], ?_, ?_⟩
        · intro x
          have h1 := w2 x
          unfold wsum at h1 ⊢
          rw [List.map_cons, List.map_cons, List.sum_cons, List.sum_cons, h1]
          simp only []
          rw [hq, norm_lhs]; ring
        · intro h a ha
          rcases List.mem_cons.1 ha with rfl | ha
          · have h1 := h _ (List.mem_cons_self ..)
            simp only [] at h1
            refine (mul_eq_zero.1 h1).resolve_left ?_
            split <;> norm_num
          · exact w3 (fun b hb => h b (List.mem_cons_of_mem _ hb)) a ha
    · rw [if_neg hr] at hW
      obtain ⟨W', w1, w2, w3⟩ := ih W hW
      refine ⟨(0, r) :: W', by rw [List.map_cons, w1], ?_, ?_⟩
      · intro x
        have h1 := w2 x
        unfold wsum at h1 ⊢
        rw [List.map_cons, List.sum_cons, h1]
        ring
      · intro h a ha
        exact w3 (fun b hb => h b (List.mem_cons_of_mem _ hb)) a ha

theorem indR_norm {rs : List Row} (p : Row → Bool) (h : IndR rs) : IndR ((rs.filter p).map norm) := by
  intro W hW hs
  have h1 : ((rs.filter p).map norm).filter isEq = ((rs.filter isEq).filter p).map norm := by
    rw [List.filter_map, List.filter_filter, List.filter_filter]
    congr 1
    apply List.filter_congr
    intro r _
    rw [Function.comp, norm_isEq, Bool.and_comm]
  rw [h1] at hW
  obtain ⟨W', w1, w2, w3⟩ := weights_up p _ W hW
  exact w3 (h W' w1 (fun x => by rw [w2]; exact hs x))

/-- The value of the left side in the two forms. -/
theorem value_lhs (c : Con) (x : List ℚ) : c.value x = lhs c.row (fun j => x.getD (j - 1) 0) := by
  have key : ∀ (l : List Int) (y : List ℚ) (k : Nat) (f : Nat → ℚ), (∀ i, f (k + i) = y.getD i 0) →
      (List.zipWith (fun (k : Int) y => (k : ℚ) * y) l y).sum = ev (l.map fun z : Int => (z : ℚ)) k f := by
    intro l
    induction l with
    | nil => intro y k f _; simp [ev]
    | cons a l ih =>
      intro y k f hf
      rw [List.map_cons, ev]
      cases y with
      | nil =>
        have h1 := ih [] (k + 1) f (fun i => by have := hf (i + 1); rw [show k + 1 + i = k + (i + 1) by omega, this]; simp)
        have h2 := hf 0
        rw [Nat.add_zero] at h2
        rw [← h1, h2]
        simp
      | cons b y =>
        have h1 := ih y (k + 1) f (fun i => by have := hf (i + 1); rw [show k + 1 + i = k + (i + 1) by omega, this]; simp)
        have h2 := hf 0
        rw [Nat.add_zero] at h2
        rw [← h1, h2]
        simp
  unfold Con.value lhs Con.row
  rw [List.tail_cons]
  apply key
  intro i
  rw [show 1 + i - 1 = i by omega]

theorem relOf_eq (s : List Char) : relOf s = .eq ↔ s = "=".toList := by
  constructor
  · intro h
    unfold relOf at h
    split at h
    · split at h
      · exact absurd h (by decide)
      · split at h <;> exact absurd h (by decide)
    · split at h
      · split at h <;> exact absurd h (by decide)
      · split at h
        · assumption
        · exact absurd h (by decide)
  · rintro rfl; decide

theorem weights_con : ∀ (l : List Con) (W : List (ℚ × Row)), W.map Prod.snd = l.map Con.row →
    ∃ V : List (ℚ × Con), V.map Prod.snd = l ∧ W = V.map fun p => (p.1, p.2.row) := by
  intro l
  induction l with
  | nil => intro W h; exact ⟨[], rfl, by simpa using h⟩
  | cons c l ih =>
    intro W h
    cases W with
    | nil => simp at h
    | cons q W =>
      rw [List.map_cons, List.map_cons] at h
      injection h with h1 h2
      obtain ⟨V, a, b⟩ := ih W h2
      refine ⟨(q.1, c) :: V, by rw [List.map_cons, a], ?_⟩
      rw [List.map_cons, ← b, ← h1]

theorem indR_con {cs : List Con} (h : Independent cs) : IndR (cs.map Con.row) := by
  intro W hW hs
  have h1 : (cs.map Con.row).filter isEq = (cs.filter fun c => c.rel == "=".toList).map Con.row := by
    rw [List.filter_map]
    congr 1
    apply List.filter_congr
    intro c _
    show (relOf c.rel == .eq) = (c.rel == "=".toList)
    rw [Bool.eq_iff_iff, beq_iff_eq, beq_iff_eq]
    exact relOf_eq _
  rw [h1] at hW
  obtain ⟨V, a, rfl⟩ := weights_con _ W hW
  have h2 := h V a (fun x => by
    have := hs (fun j => x.getD (j - 1) 0)
    unfold wsum at this
    rw [List.map_map] at this
    rw [← this]
    congr 1
    apply List.map_congr_left
    intro p _
    rw [Function.comp, value_lhs])
  intro p hp
  rw [List.mem_map] at hp
  obtain ⟨q, hq, rfl⟩ := hp
  exact h2 q hq

end Voss.Lp
