import Verif.Lp.Answer
import Verif.Lp.Rat

/-! Property theorems C85: `LP` and `LPsol`. -/
namespace Voss.Lp

/-- A constraint as it is written in fl. -/
def con (l : List Int) (r : String) (b : Int) : Con := ⟨l, r.toList, b⟩

theorem holds_eq (a b : ℚ) : Holds "=".toList a b ↔ a = b := by simp [Holds]
theorem holds_ne (a b : ℚ) : Holds "<>".toList a b ↔ a ≠ b := by simp [Holds]
theorem holds_lt (a b : ℚ) : Holds "<".toList a b ↔ a < b := by simp [Holds]
theorem holds_gt (a b : ℚ) : Holds ">".toList a b ↔ b < a := by simp [Holds]
theorem holds_le (a b : ℚ) : Holds "<=".toList a b ↔ a ≤ b := by simp [Holds]
theorem holds_ge (a b : ℚ) : Holds ">=".toList a b ↔ b ≤ a := by simp [Holds]

theorem uses_all {cs : List Con} {l : List String} (h : Uses cs l) (hl : ∀ r ∈ l, r ∈ ["=", "<>", "<", ">", "<=", ">="]) :
    Uses cs ["=", "<>", "<", ">", "<=", ">="] := by
  intro c hc
  obtain ⟨r, hr, e⟩ := h c hc
  exact ⟨r, hl r hr, e⟩

theorem uses_lin {cs : List Con} (h : Uses cs ["=", "<", ">", "<=", ">="]) : Lin (cs.map Con.row) := by
  intro r hr
  rw [List.mem_map] at hr
  obtain ⟨c, hc, rfl⟩ := hr
  obtain ⟨s, hs, e⟩ := h c hc
  have : c.row.rel = relOf s.toList := by rw [← e]; rfl
  rw [this]
  simp only [List.mem_cons, List.not_mem_nil, or_false] at hs
  rcases hs with rfl | rfl | rfl | rfl | rfl <;> decide

theorem uses_nonstrict {cs : List Con} (h : Uses cs ["=", "<=", ">="]) : ∀ r ∈ cs.map Con.row, strictRel r.rel = false := by
  intro r hr
  rw [List.mem_map] at hr
  obtain ⟨c, hc, rfl⟩ := hr
  obtain ⟨s, hs, e⟩ := h c hc
  have : c.row.rel = relOf s.toList := by rw [← e]; rfl
  rw [this]
  simp only [List.mem_cons, List.not_mem_nil, or_false] at hs
  rcases hs with rfl | rfl | rfl <;> decide

theorem uses_more {cs : List Con} (h : Uses cs ["=", "<=", ">="]) : Uses cs ["=", "<", ">", "<=", ">="] := by
  intro c hc
  obtain ⟨r, hr, e⟩ := h c hc
  refine ⟨r, ?_, e⟩
  simp only [List.mem_cons, List.not_mem_nil, or_false] at hr ⊢
  tauto

/-- C85, part: if all constraints are equations or inequalities that are not strict, then an answer of `LP` says whether values
of the variables meet all of them, whatever the number of steps is. Missing: strict inequalities (see `c85_strict_partial`),
`<>` (see `c85_notequal_violated`), and that there is an answer (see `c85_dies_violated`, `c85_endless_violated`). -/
theorem c85_nonstrict_partial (cs : List Con) (hu : Uses cs ["=", "<=", ">="]) (fuel : Nat) (b : Bool) (h : lp fuel cs = .ok b) :
    b = true ↔ Feasible cs := by
  unfold lp at h
  cases hc : columns cs with
  | none => rw [hc] at h; exact absurd h (by simp)
  | some n =>
    obtain ⟨hne, hl⟩ := columns_some hc
    have hall := uses_all hu (by decide)
    rw [feasible_rows hne hl hall]
    rw [hc] at h
    cases n with
    | zero =>
      simp only [] at h
      injection h with h
      rw [← h]
      exact zero_columns (row_len hl)
    | succ n =>
      simp only [bind, Out.bind] at h
      cases hs : solution fuel (n + 1) (cs.map Con.row) with
      | ok o =>
        rw [hs] at h
        simp only [] at h
        injection h with h
        rw [← h]
        exact solution_any (row_len hl) (uses_lin (uses_more hu)) (uses_nonstrict hu) hs
      | fail => rw [hs] at h; exact absurd h (by simp)
      | die => rw [hs] at h; exact absurd h (by simp)
      | ub => rw [hs] at h; exact absurd h (by simp)
      | loop => rw [hs] at h; exact absurd h (by simp)

/-- Meaningful cases: x + 2y = 3, 2x + 4y = 6, x >= 1, y >= 1 hold for (1, 1); with y >= 2 nothing is left. -/
example : lp 10 [con [1, 2] "=" 3, con [2, 4] "=" 6, con [1, 0] ">=" 1, con [0, 1] ">=" 1] = .ok true ∧
    lp 10 [con [1, 2] "=" 3, con [2, 4] "=" 6, con [1, 0] ">=" 1, con [0, 1] ">=" 2] = .ok false := by decide +kernel

/-- C85, part: if no equation follows from the others up to its constant, and there is no `<>`, then `LP` does not end in a way
other than with the right answer. Missing: that it ends. -/
theorem c85_strict_partial (cs : List Con) (n : Nat) (hne : cs ≠ []) (hl : ∀ c ∈ cs, c.coefs.length = n)
    (hu : Uses cs ["=", "<", ">", "<=", ">="]) (hi : Independent cs) (fuel : Nat) :
    lp fuel cs = .loop ∨ ∃ b, lp fuel cs = .ok b ∧ (b = true ↔ Feasible cs) := by
  unfold lp
  rw [columns_eq hne hl, feasible_rows hne hl (uses_all hu (by decide))]
  cases n with
  | zero => right; exact ⟨_, rfl, zero_columns (row_len hl)⟩
  | succ n =>
    simp only [bind, Out.bind]
    rcases solution_ind (row_len hl) (uses_lin hu) (indR_con hi) fuel with h | ⟨o, h, h1, _⟩
    · left; rw [h]
    · right; rw [h]; exact ⟨_, rfl, h1⟩

theorem indep_single (c : Con) (x : List ℚ) (cs : List Con) (h : cs.filter (fun c => c.rel == "=".toList) = [c]) (hx : c.value x ≠ 0) :
    Independent cs := by
  intro w hw hs p hp
  rw [h] at hw
  cases w with
  | nil => simp at hw
  | cons q w =>
    rw [List.map_cons] at hw
    injection hw with h1 h2
    have : w = [] := by simpa using h2
    subst this
    have h3 := hs x
    rw [List.map_cons, List.map_nil, List.sum_cons, List.sum_nil, add_zero, h1] at h3
    rcases List.mem_singleton.1 hp with rfl
    exact (mul_eq_zero.1 h3).resolve_right hx

/-- Meaningful cases: x + y = 2 with x > y and y >= 1 has no solution, with y > 0 it has some. -/
example : Independent [con [1, 1] "=" 2, con [1, -1] ">" 0, con [0, 1] ">=" 1] ∧
    lp 10 [con [1, 1] "=" 2, con [1, -1] ">" 0, con [0, 1] ">=" 1] = .ok false ∧
    lp 10 [con [1, 1] "=" 2, con [1, -1] ">" 0, con [0, 1] ">" 0] = .ok true := by
  refine ⟨indep_single (con [1, 1] "=" 2) [1, 0] _ rfl (by decide +kernel), by decide +kernel, by decide +kernel⟩

theorem signOf_con {c : Con} {j n : Nat} (hl : c.coefs.length = n) (hj : j < n) (h1 : c.rel = ">=".toList) (h2 : c.const = 0)
    (h3 : ∀ k, c.coefs.getD k 0 = if k = j then 1 else 0) : signOf c.row = j + 1 := by
  have hr : c.row.rel = .ge := by show relOf c.rel = .ge; rw [h1]; decide
  have hb : c.row.cols.getD 0 0 = 0 := by show (c.const : ℚ) = 0; rw [h2]; rfl
  have hlen : c.row.cols.length - 1 = n := by show (_ :: List.map _ _).length - 1 = n; simp [hl]
  have hg : ∀ k, c.row.cols.getD (k + 1) 0 = if k = j then 1 else 0 := by
    intro k
    show (c.const :: _ : List ℚ).getD (k + 1) 0 = _
    rw [List.getD_cons_succ]
    have := h3 k
    rw [List.getD_eq_getElem?_getD] at this ⊢
    rw [List.getElem?_map]
    cases hc : c.coefs[k]? with
    | none =>
      rw [hc] at this
      simp only [Option.getD_none, Option.map_none] at this ⊢
      split
      · rename_i hh; rw [if_pos hh] at this; exact absurd this (by decide)
      · rfl
    | some z =>
      rw [hc] at this
      simp only [Option.getD_some, Option.map_some] at this ⊢
      rw [this]
      split <;> rfl
  unfold signOf
  rw [if_pos ⟨hr, hb⟩, hlen]
  have hf : (List.range' 1 n).filter (fun j => decide (c.row.cols.getD j 0 ≠ 0)) = [j + 1] := by
    have h4 : (List.range' 1 n).filter (fun j => decide (c.row.cols.getD j 0 ≠ 0)) = (List.range' 1 n).filter (fun k => k == j + 1) := by
      apply List.filter_congr
      intro k hk
      rw [List.mem_range'_1] at hk
      obtain ⟨a, rfl⟩ : ∃ a, k = a + 1 := ⟨k - 1, by omega⟩
      rw [hg a]
      by_cases ha : a = j
      · subst ha; simp
      · rw [if_neg ha]; simp [ha]
    rw [h4, List.filter_beq, List.count_eq_one_of_mem (List.nodup_range') (by rw [List.mem_range'_1]; omega)]
    rfl
  rw [hf]
  simp only []
  rw [hg j, if_pos rfl, if_pos (by norm_num)]

/-- C85, part: if every variable is said not to be negative, all constraints are equations or inequalities that are not strict,
and no equation follows from the others up to its constant, then `LPsol` does not end in a way other than with values that meet
all constraints, or with the empty list if there are none. Missing: variables that may be negative (see
`c85_negative_violated`), strict inequalities (see `c85_unbounded_violated`), and that it ends. -/
theorem c85_values_partial (cs : List Con) (n : Nat) (hn : 0 < n) (hl : ∀ c ∈ cs, c.coefs.length = n) (hu : Uses cs ["=", "<=", ">="])
    (hs : Signed cs n) (hi : Independent cs) (fuel : Nat) :
    lpSol fuel cs = .loop ∨ (∃ x, lpSol fuel cs = .ok x ∧ Solves cs x) ∨ (lpSol fuel cs = .ok [] ∧ ¬ Feasible cs) := by
  have hne : cs ≠ [] := by
    rintro rfl
    obtain ⟨c, hc, _⟩ := hs 0 hn
    simp at hc
  have hall := uses_all hu (by decide)
  unfold lpSol
  rw [columns_eq hne hl, feasible_rows hne hl hall]
  obtain ⟨m, rfl⟩ : ∃ m, n = m + 1 := ⟨n - 1, by omega⟩
  simp only [bind, Out.bind]
  rcases solution_ind (row_len hl) (uses_lin (uses_more hu)) (indR_con hi) fuel with h | ⟨o, h, h1, h2⟩
  · left; rw [h]
  · right
    rw [h]
    have h3 := h2 (uses_nonstrict hu) (by
      intro j j1 j2
      obtain ⟨c, hc, a, b, d⟩ := hs (j - 1) (by omega)
      refine ⟨c.row, List.mem_map_of_mem hc, ?_⟩
      rw [signOf_con (hl c hc) (by omega) a b d]
      omega)
    cases o with
    | none =>
      right
      refine ⟨rfl, ?_⟩
      rw [← h1]
      simp
    | some x =>
      left
      obtain ⟨a, b⟩ := h3 x rfl
      exact ⟨x, rfl, (solves_rows hl hall a).2 b⟩

/-- A meaningful case: 2x + y = 3, x + 2y >= 3, x >= 0, y >= 0. -/
example : Signed [con [2, 1] "=" 3, con [1, 2] ">=" 3, con [1, 0] ">=" 0, con [0, 1] ">=" 0] 2 ∧
    Independent [con [2, 1] "=" 3, con [1, 2] ">=" 3, con [1, 0] ">=" 0, con [0, 1] ">=" 0] ∧
    lpSol 10 [con [2, 1] "=" 3, con [1, 2] ">=" 3, con [1, 0] ">=" 0, con [0, 1] ">=" 0] = .ok [1, 1] ∧
    lpSol 10 [con [2, 1] "=" 3, con [1, 2] ">=" 7, con [1, 0] ">=" 0, con [0, 1] ">=" 0] = .ok [] := by
  refine ⟨?_, indep_single (con [2, 1] "=" 3) [1, 0] _ rfl (by decide +kernel), by decide +kernel, by decide +kernel⟩
  intro j hj
  rcases (show j = 0 ∨ j = 1 by omega) with rfl | rfl
  · refine ⟨con [1, 0] ">=" 0, by simp, rfl, rfl, ?_⟩
    intro k
    match k with
    | 0 => rfl
    | 1 => rfl
    | k + 2 => rfl
  · refine ⟨con [0, 1] ">=" 0, by simp, rfl, rfl, ?_⟩
    intro k
    match k with
    | 0 => rfl
    | 1 => rfl
    | k + 2 => rfl

/-- C85: rows of different lengths, or no rows, are a failure and not an answer. -/
theorem c85_shape (cs : List Con) (h : cs = [] ∨ ∃ c ∈ cs, ∃ d ∈ cs, c.coefs.length ≠ d.coefs.length) (fuel : Nat) :
    lp fuel cs = .fail ∧ lpSol fuel cs = .fail := by
  have hc : columns cs = none := by
    cases hh : columns cs with
    | none => rfl
    | some n =>
      obtain ⟨a, b⟩ := columns_some hh
      rcases h with h | ⟨c, hc, d, hd, hne⟩
      · exact absurd h a
      · exact absurd ((b c hc).trans (b d hd).symm) hne
  unfold lp lpSol
  rw [hc]
  exact ⟨rfl, rfl⟩

example : ∃ c ∈ [con [1] "=" 0, con [1, 2] "=" 0], ∃ d ∈ [con [1] "=" 0, con [1, 2] "=" 0], c.coefs.length ≠ d.coefs.length := by
  exact ⟨con [1] "=" 0, by simp, con [1, 2] "=" 0, by simp, by decide⟩

/-- C85: the rationals that the method calculates with are exact: each operation on fractions in lowest terms gives the one
fraction in lowest terms for its result, and comparisons are those of rationals. -/
theorem c85_rationals (a b : Frac) (ha : a.Lowest) (hb : b.Lowest) :
    Is (a.add b) (a.val + b.val) ∧ Is (a.sub b) (a.val - b.val) ∧ Is (a.mlt b) (a.val * b.val) ∧ Is a.neg (- a.val) ∧ Is a.copy a.val ∧
    (b.val ≠ 0 → Is (a.div b) (a.val / b.val)) ∧ (b.val = 0 → a.div b = none) ∧ a.cmp b = compare a.val b.val ∧
    (a.val = b.val → a = b) ∧ ∀ i, (ofArbi i).Lowest ∧ (ofArbi i).val = i := by
  refine ⟨add_is ha hb, ?_, mlt_is ha hb, neg_is ha, ?_, ?_, ?_, cmp_is ha hb, lowest_unique ha hb, ?_⟩
  · obtain ⟨f, e, hf, hv⟩ := neg_is hb
    unfold Frac.sub
    rw [e, Option.bind_some]
    refine (add_is ha hf).congr ?_
    rw [hv]; ring
  · exact ratReturn_is _ _ (ne_of_gt ha.1)
  · intro h0
    obtain ⟨f, e, hf, hv⟩ := inverse_is hb h0
    unfold Frac.div
    rw [e, Option.bind_some]
    refine (mlt_is ha hf).congr ?_
    rw [hv, div_eq_mul_inv]
  · intro h0
    unfold Frac.div Frac.inverse ratReturn
    rw [(val_zero hb).1 h0]
    rfl
  · intro i
    refine ⟨⟨by simp [ofArbi], by simp [ofArbi]⟩, by simp [ofArbi, Frac.val]⟩

example : (⟨-1, 6⟩ : Frac).Lowest ∧ (⟨1, 2⟩ : Frac).Lowest ∧ (⟨-1, 6⟩ : Frac).add ⟨1, 2⟩ = some ⟨1, 3⟩ ∧
    (⟨-1, 6⟩ : Frac).div ⟨1, 2⟩ = some ⟨-1, 3⟩ := by
  refine ⟨⟨by decide, by decide⟩, ⟨by decide, by decide⟩, by decide +kernel, by decide +kernel⟩

/-- A variable that is split into two columns gets the sum of the two and not their difference (lp.c:952). -/
theorem c85_negative_violated : lpSol 10 [con [1] "=" (-1)] = .ok [1] ∧ ¬ Solves [con [1] "=" (-1)] [1] ∧
    Solves [con [1] "=" (-1)] [-1] := by
  refine ⟨by decide +kernel, ?_, ?_⟩
  · intro h
    have := (holds_eq _ _).1 (h _ (List.mem_singleton.2 rfl)).2
    exact absurd this (by decide +kernel)
  · intro c hc
    rw [List.mem_singleton] at hc
    subst hc
    exact ⟨rfl, (holds_eq _ _).2 (by decide +kernel)⟩

/-- If the distance from the strict inequalities is unbounded, the values of the step before are given. -/
theorem c85_unbounded_violated : lpSol 10 [con [1] ">" 0] = .ok [0] ∧ ¬ Solves [con [1] ">" 0] [0] ∧ Solves [con [1] ">" 0] [1] := by
  refine ⟨by decide +kernel, ?_, ?_⟩
  · intro h
    have := (holds_gt _ _).1 (h _ (List.mem_singleton.2 rfl)).2
    exact absurd this (by decide +kernel)
  · intro c hc
    rw [List.mem_singleton] at hc
    subst hc
    exact ⟨rfl, (holds_gt _ _).2 (by decide +kernel)⟩

/-- `LP` accepts x <> 1, x >= 1, x <= 1: `addNE` takes the sign of the constant that is left for the direction. -/
theorem c85_notequal_violated : lp 10 [con [1] "<>" 1, con [1] ">=" 1, con [1] "<=" 1] = .ok true ∧
    ¬ Feasible [con [1] "<>" 1, con [1] ">=" 1, con [1] "<=" 1] := by
  refine ⟨by decide +kernel, ?_⟩
  rintro ⟨x, hx⟩
  have h1 := (holds_ne _ _).1 (hx (con [1] "<>" 1) (by simp)).2
  have h2 := (holds_ge _ _).1 (hx (con [1] ">=" 1) (by simp)).2
  have h3 := (holds_le _ _).1 (hx (con [1] "<=" 1) (by simp)).2
  exact h1 (le_antisymm h3 h2)

/-- `LP` accepts x = 1, x = 1, y > 0, -y = 0, y >= 0: an equation too many makes `drive_out` remove the wrong row. -/
theorem c85_redundant_violated : lp 20 [con [1, 0] "=" 1, con [1, 0] "=" 1, con [0, 1] ">" 0, con [0, -1] "=" 0, con [0, 1] ">=" 0] = .ok true ∧
    ¬ Feasible [con [1, 0] "=" 1, con [1, 0] "=" 1, con [0, 1] ">" 0, con [0, -1] "=" 0, con [0, 1] ">=" 0] := by
  refine ⟨by decide +kernel, ?_⟩
  rintro ⟨x, hx⟩
  obtain ⟨l1, h1⟩ := hx (con [0, 1] ">" 0) (by simp)
  obtain ⟨_, h2⟩ := hx (con [0, -1] "=" 0) (by simp)
  have h1 := (holds_gt _ _).1 h1
  have h2 := (holds_eq _ _).1 h2
  match x, l1 with
  | [a, b], _ =>
    simp [Con.value, con] at h1 h2
    rw [h2] at h1
    exact lt_irrefl _ h1

/-- The program ends for x = 1, y = 1, y = 1, y = 1. -/
theorem c85_dies_violated : lp 20 [con [1, 0] "=" 1, con [0, 1] "=" 1, con [0, 1] "=" 1, con [0, 1] "=" 1] = .die ∧
    Feasible [con [1, 0] "=" 1, con [0, 1] "=" 1, con [0, 1] "=" 1, con [0, 1] "=" 1] := by
  refine ⟨by decide +kernel, [1, 1], ?_⟩
  intro c hc
  simp only [List.mem_cons, List.not_mem_nil, or_false] at hc
  rcases hc with rfl | rfl | rfl | rfl <;> exact ⟨rfl, (holds_eq _ _).2 (by decide +kernel)⟩

/-- One round of the simplex method, `none` if it is the last one. -/
def step (noeps : Bool) (t : Tab) : Option Tab :=
  let jj := t.enter noeps
  if jj = 0 then none else if t.leave jj = 0 then none else some (t.pivot (t.leave jj) jj)

theorem simplex_step {noeps : Bool} {t t' : Tab} (h : step noeps t = some t') (k : Nat) :
    t.simplex noeps (k + 1) = t'.simplex noeps k := by
  unfold step at h
  rw [Tab.simplex]
  simp only [] at h ⊢
  split at h
  · exact absurd h (by simp)
  · rename_i h1
    split at h
    · exact absurd h (by simp)
    · rename_i h2
      injection h with h
      rw [if_neg h1, if_neg h2, h]

def steps (noeps : Bool) : Nat → Tab → Option Tab
  | 0, t => some t
  | n + 1, t => (step noeps t).bind (steps noeps n)

theorem steps_run {noeps : Bool} : ∀ (n : Nat) {t t' : Tab}, steps noeps n t = some t' → ∀ k,
    t.simplex noeps (k + n) = t'.simplex noeps k ∧ (∀ m, m ≤ n → t.simplex noeps m = .loop) := by
  intro n
  induction n with
  | zero =>
    intro t t' h k
    rw [steps] at h
    injection h with h
    subst h
    refine ⟨rfl, ?_⟩
    intro m hm
    rw [Nat.le_zero.1 hm]
    rfl
  | succ n ih =>
    intro t t' h k
    rw [steps, Option.bind_eq_some_iff] at h
    obtain ⟨u, hu, h⟩ := h
    obtain ⟨a, b⟩ := ih h k
    refine ⟨by rw [← a]; exact simplex_step hu (k + n), ?_⟩
    intro m hm
    cases m with
    | zero => rfl
    | succ m => rw [simplex_step hu]; exact b m (by omega)

theorem cycle {noeps : Bool} {n : Nat} {t : Tab} (hn : 0 < n) (h : steps noeps n t = some t) : ∀ k, t.simplex noeps k = .loop := by
  intro k
  induction k using Nat.strong_induction_on with
  | _ k ih =>
    by_cases hk : k ≤ n
    · exact (steps_run n h 0).2 k hk
    · have := (steps_run n h (k - n)).1
      rw [show k - n + n = k by omega] at this
      rw [this]
      exact ih (k - n) (by omega)

/-- Three equations for which the choice of the pivots goes round in a circle. -/
def circle : List Con := [con [1, -17, -14, 0, 3] "=" 0, con [1, -11, -9, 2, 1] "=" 0, con [1, -1, 0, 1, -5] "=" 0,
  con [1, 0, 0, 0, 0] ">=" 0, con [0, 1, 0, 0, 0] ">=" 0, con [0, 0, 1, 0, 0] ">=" 0, con [0, 0, 0, 1, 0] ">=" 0, con [0, 0, 0, 0, 1] ">=" 0]

deriving instance DecidableEq for Tab
deriving instance DecidableEq for Std

/-- `LP` does not end for constraints that the values 0 meet. -/
theorem c85_endless_violated : (∀ fuel, lp fuel circle = .loop) ∧ Feasible circle := by
  constructor
  · intro fuel
    have hst : ∃ s t, standardTableau 5 (circle.map Con.row) = .ok (some (some s)) ∧ steps true 2 (artTab s) = some t ∧
        steps true 6 t = some t := by
      have h1 : (match standardTableau 5 (circle.map Con.row) with
        | .ok (some (some s)) => match steps true 2 (artTab s) with
          | some t => decide (steps true 6 t = some t)
          | none => false
        | _ => false) = true := by decide +kernel
      split at h1
      · rename_i s hs
        split at h1
        · rename_i t ht
          exact ⟨s, t, hs, ht, of_decide_eq_true h1⟩
        · exact absurd h1 (by simp)
      · exact absurd h1 (by simp)
    obtain ⟨s, t, h1, h2, h3⟩ := hst
    have hl : ∀ k, (artTab s).simplex true k = .loop := by
      intro k
      by_cases hk : k ≤ 2
      · exact (steps_run 2 h2 0).2 k hk
      · have := (steps_run 2 h2 (k - 2)).1
        rw [show k - 2 + 2 = k by omega] at this
        rw [this]
        exact cycle (by omega) h3 _
    have hc : columns circle = some 5 := by decide
    unfold lp
    rw [hc]
    simp only [bind, Out.bind]
    have : solution fuel 5 (circle.map Con.row) = .loop := by
      unfold solution
      rw [h1]
      simp only [bind, Out.bind]
      have : findBfs fuel s = .loop := by
        unfold findBfs
        rw [hl fuel]
        rfl
      rw [this]
    rw [this]
  · refine ⟨[0, 0, 0, 0, 0], ?_⟩
    intro c hc
    simp only [circle, List.mem_cons, List.not_mem_nil, or_false] at hc
    rcases hc with rfl | rfl | rfl | rfl | rfl | rfl | rfl | rfl
    · exact ⟨rfl, (holds_eq _ _).2 (by decide +kernel)⟩
    · exact ⟨rfl, (holds_eq _ _).2 (by decide +kernel)⟩
    · exact ⟨rfl, (holds_eq _ _).2 (by decide +kernel)⟩
    · exact ⟨rfl, (holds_ge _ _).2 (by decide +kernel)⟩
    · exact ⟨rfl, (holds_ge _ _).2 (by decide +kernel)⟩
    · exact ⟨rfl, (holds_ge _ _).2 (by decide +kernel)⟩
    · exact ⟨rfl, (holds_ge _ _).2 (by decide +kernel)⟩
    · exact ⟨rfl, (holds_ge _ _).2 (by decide +kernel)⟩

end Voss.Lp
