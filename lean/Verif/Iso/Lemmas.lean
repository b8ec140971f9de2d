import Mathlib.Data.List.Nodup
import Verif.Iso.Spec

/- Lemmas: undoing restores the matrix, the rounds of the loop go through the search tree. -/
namespace Voss.Iso

/-! ### The matrix operations -/

theorem put_eq {α} (a : Nat → α) (i : Nat) (b : α) (x : Nat) : put a i b x = if x = i then b else a x := rfl

theorem foldl_trim (p g : Mat) (r c : Nat) (l : List (Nat × Nat)) (m0 m : Mat) (ps : List (Nat × Nat))
    (h : ∀ i j, (m i j || decide ((i, j) ∈ ps)) = m0 i j) :
    (∀ i j, ((l.foldl (trimCell p g r c) (m, ps)).1 i j || decide ((i, j) ∈ (l.foldl (trimCell p g r c) (m, ps)).2)) = m0 i j) := by
  induction l generalizing m ps with
  | nil => exact h
  | cons ij l ih =>
    obtain ⟨a, b⟩ := ij
    rw [List.foldl_cons]
    simp only [trimCell]
    split
    · rename_i hc
      apply ih
      intro i j
      simp only [Bool.and_eq_true] at hc
      by_cases hij : i = a ∧ j = b
      · obtain ⟨rfl, rfl⟩ := hij
        have := h i j
        rw [hc.2.2] at this
        simp only [Mat.put, List.mem_append, List.mem_singleton, and_self, if_true]
        rw [← this]; simp
      · have h1 : (m.put a b false) i j = m i j := by simp only [Mat.put, hij, if_false]
        rw [h1, ← h i j]
        have h2 : ((i, j) ∈ ps ++ [(a, b)]) ↔ (i, j) ∈ ps := by
          simp only [List.mem_append, List.mem_singleton, Prod.mk.injEq, or_iff_left_iff_imp]
          intro h; exact absurd h hij
        congr 1
        exact decide_eq_decide.2 h2
    · exact ih _ _ h

theorem trim_at (p g : Mat) (r c : Nat) (l : List (Nat × Nat)) (m : Mat) (ps : List (Nat × Nat)) (i j : Nat) :
    (l.foldl (trimCell p g r c) (m, ps)).1 i j = (m i j && !(decide ((i, j) ∈ l) && p r i && !g c j)) := by
  induction l generalizing m ps with
  | nil => simp
  | cons ij l ih =>
    obtain ⟨a, b⟩ := ij
    rw [List.foldl_cons]
    simp only [trimCell]
    by_cases hij : i = a ∧ j = b
    · obtain ⟨rfl, rfl⟩ := hij
      split <;> rw [ih]
      · rename_i hc
        simp only [Bool.and_eq_true, Bool.not_eq_true'] at hc
        simp [Mat.put, hc]
      · rename_i hc
        cases h1 : m i j <;> cases h2 : p r i <;> cases h3 : g c j <;> simp_all
    · have h2 : ((i, j) ∈ (a, b) :: l) ↔ (i, j) ∈ l := by
        simp only [List.mem_cons, Prod.mk.injEq, or_iff_right_iff_imp]
        intro h; exact absurd h hij
      rw [show decide ((i, j) ∈ (a, b) :: l) = decide ((i, j) ∈ l) from decide_eq_decide.2 h2]
      split <;> rw [ih]
      simp only [Mat.put, hij, if_false]

theorem mem_cells {R C r i j : Nat} : (i, j) ∈ cells R C r ↔ r < i ∧ i < R ∧ j < C := by
  simp only [cells, List.mem_flatMap, List.mem_range'_1, List.mem_map, List.mem_range, Prod.mk.injEq]
  constructor
  · rintro ⟨a, ha, b, hb, rfl, rfl⟩; omega
  · intro h; exact ⟨i, by omega, j, h.2.2, rfl, rfl⟩

theorem trim_fst (R C : Nat) (m p g : Mat) (r c i j : Nat) :
    (trim R C m p g r c).1 i j = (m i j && !(decide (r < i ∧ i < R ∧ j < C) && p r i && !g c j)) := by
  rw [trim, trim_at]
  rw [show decide ((i, j) ∈ cells R C r) = decide (r < i ∧ i < R ∧ j < C) from decide_eq_decide.2 mem_cells]

theorem trim_row (R C : Nat) (m p g : Mat) (r c j : Nat) : (trim R C m p g r c).1 r j = m r j := by
  rw [trim_fst]; simp

theorem undoTrim_at (m : Mat) (ps : List (Nat × Nat)) (i j : Nat) :
    undoTrim m ps i j = (m i j || decide ((i, j) ∈ ps)) := by
  induction ps generalizing m with
  | nil => simp [undoTrim]
  | cons ij ps ih =>
    obtain ⟨a, b⟩ := ij
    rw [undoTrim, List.foldl_cons]
    change undoTrim _ ps i j = _
    rw [ih]
    by_cases hij : i = a ∧ j = b
    · obtain ⟨rfl, rfl⟩ := hij; simp [Mat.put]
    · have h2 : ((i, j) ∈ (a, b) :: ps) ↔ (i, j) ∈ ps := by
        simp only [List.mem_cons, Prod.mk.injEq, or_iff_right_iff_imp]
        intro h; exact absurd h hij
      rw [show decide ((i, j) ∈ (a, b) :: ps) = decide ((i, j) ∈ ps) from decide_eq_decide.2 h2]
      simp only [Mat.put, hij, if_false]

theorem undo_trim (R C : Nat) (m p g : Mat) (r c : Nat) :
    undoTrim (trim R C m p g r c).1 (trim R C m p g r c).2 = m := by
  funext i j
  rw [undoTrim_at, trim, foldl_trim p g r c _ m m [] (by simp)]

theorem undo_pick (C : Nat) (m cpy : Mat) (r c : Nat) (hc : c < C) :
    undoPick C (pickRow C m r c) (saveRow C m cpy r) r = m := by
  funext i j
  simp only [undoPick, pickRow, saveRow, Mat.put]
  by_cases h : i = r ∧ j < C
  · simp [h]
  · rw [if_neg h]
    have : ¬ (i = r ∧ j = c) := by rintro ⟨rfl, rfl⟩; exact h ⟨rfl, hc⟩
    simp [h, this]

/-! ### The search tree -/

/-- The matrices at the leaves of the search tree below row `r`, with `n` rows left (as `strict_search`, iso.c:580-605,
goes through them). -/
def dfs (R C : Nat) (p g : Mat) : Nat → Nat → Mat → (Nat → Bool) → List Mat
  | 0, _, m, _ => if isMatch R C m p g then [m] else []
  | n + 1, r, m, used => (List.range C).flatMap fun c =>
    if used c || !m r c then [] else dfs R C p g n (r + 1) (pickRow C (trim R C m p g r c).1 r c) (put used c true)

/-- The branches from column `c` on. -/
def branches (R C : Nat) (p g : Mat) (n r : Nat) (m : Mat) (used : Nat → Bool) (c k : Nat) : List Mat :=
  (List.range' c k).flatMap fun c =>
    if used c || !m r c then [] else dfs R C p g n (r + 1) (pickRow C (trim R C m p g r c).1 r c) (put used c true)

theorem dfs_succ (R C : Nat) (p g : Mat) (n r : Nat) (m : Mat) (used : Nat → Bool) :
    dfs R C p g (n + 1) r m used = branches R C p g n r m used 0 C := by
  rw [dfs, branches, List.range_eq_range']

/-- Rounds of the loop and what they return. -/
inductive Emits : Search → List (Option Mat) → Search → Prop
  | nil (s) : Emits s [] s
  | go {s s1 os s'} : tick s = (s1, none) → Emits s1 os s' → Emits s os s'
  | out {s s1 o os s'} : tick s = (s1, some o) → Emits s1 os s' → Emits s (o :: os) s'

theorem Emits.trans {s a s1 b s2} (h : Emits s a s1) (k : Emits s1 b s2) : Emits s (a ++ b) s2 := by
  induction h with
  | nil => exact k
  | go h _ ih => exact .go h (ih k)
  | out h _ ih => exact .out h (ih k)

/-- States that agree in what matters above row `r`. -/
structure Ess (r : Nat) (s t : Search) : Prop where
  R : t.R = s.R
  C : t.C = s.C
  needle : t.needle = s.needle
  haystack : t.haystack = s.haystack
  isomatch : t.isomatch = s.isomatch
  used : t.used = s.used
  set : t.set = s.set
  cols : ∀ i < r, t.cols i = s.cols i
  changes : ∀ i < r, t.changes i = s.changes i
  copy : ∀ i < r, t.copy i = s.copy i

theorem Ess.refl (r s) : Ess r s s := ⟨rfl, rfl, rfl, rfl, rfl, rfl, rfl, fun _ _ => rfl, fun _ _ => rfl, fun _ _ => rfl⟩

theorem Ess.trans {r s t u} (h : Ess r s t) (k : Ess r t u) : Ess r s u :=
  ⟨k.R.trans h.R, k.C.trans h.C, k.needle.trans h.needle, k.haystack.trans h.haystack, k.isomatch.trans h.isomatch,
    k.used.trans h.used, k.set.trans h.set, fun i hi => (k.cols i hi).trans (h.cols i hi),
    fun i hi => (k.changes i hi).trans (h.changes i hi), fun i hi => (k.copy i hi).trans (h.copy i hi)⟩

/-- What comes after the branches of row `r`: back to the row above, or the end. -/
def back (r : Nat) : List (Option Mat) := if r = 0 then [none] else []

theorem nextCol_spec (bad : Nat → Bool) (n c : Nat) :
    c ≤ nextCol bad n c ∧ nextCol bad n c ≤ c + n ∧ (∀ j, c ≤ j → j < nextCol bad n c → bad j = true) ∧
      (nextCol bad n c < c + n → bad (nextCol bad n c) = false) := by
  induction n generalizing c with
  | zero => simp only [nextCol]; refine ⟨Nat.le_refl _, Nat.le_refl _, ?_, ?_⟩ <;> intros <;> omega
  | succ n ih =>
    simp only [nextCol]
    split
    · rename_i hb
      obtain ⟨h1, h2, h3, h4⟩ := ih (c + 1)
      refine ⟨by omega, by omega, ?_, fun h => h4 (by omega)⟩
      intro j hj hlt
      by_cases hjc : j = c
      · exact hjc ▸ hb
      · exact h3 j (by omega) hlt
    · rename_i hb
      refine ⟨Nat.le_refl _, by omega, ?_, fun _ => by simpa using hb⟩
      intro j h1 h2; omega

theorem branches_skip (R C : Nat) (p g : Mat) (n r : Nat) (m : Mat) (used : Nat → Bool) (c k d : Nat) (hd : d ≤ k)
    (h : ∀ j, c ≤ j → j < c + d → (used j || !m r j) = true) :
    branches R C p g n r m used c k = branches R C p g n r m used (c + d) (k - d) := by
  induction d generalizing c k with
  | zero => rfl
  | succ d ih =>
    obtain ⟨k, rfl⟩ : ∃ k', k = k' + 1 := ⟨k - 1, by omega⟩
    rw [show c + (d + 1) = (c + 1) + d by omega, show k + 1 - (d + 1) = k - d by omega,
      ← ih (c + 1) k (by omega) (fun j h1 h2 => h j (by omega) (by omega))]
    rw [branches, List.range'_succ, List.flatMap_cons, if_pos (h c (Nat.le_refl _) (by omega)), List.nil_append]
    rfl

/-- Going through the branches of row `r`, from column `c` on. -/
theorem emits_scan (n r : Nat)
    (ih : ∀ s : Search, s.row = r + 1 → s.R = r + 1 + n → (∀ i, r + 1 ≤ i → s.set i = false) →
      ∃ s', Emits s ((dfs s.R s.C s.needle s.haystack n (r + 1) s.isomatch s.used).map some) s' ∧ s'.row = r ∧ Ess (r + 1) s s')
    (k : Nat) : ∀ (s0 s : Search) (c : Nat), c + k = s.C → s.row = r → s.R = r + 1 + n → (∀ i, r ≤ i → s.set i = false) →
      tick s0 = scan s c →
      ∃ s', Emits s0 ((branches s.R s.C s.needle s.haystack n r s.isomatch s.used c k).map some ++ back r) s' ∧
        s'.row = r - 1 ∧ Ess r s s' := by
  induction k using Nat.strongRecOn with
  | ind k ihk =>
    intro s0 s c hc hrow hR hset ht
    obtain ⟨h1, h2, h3, h4⟩ := nextCol_spec (fun j => s.used j || !s.isomatch s.row j) (s.C - c) c
    generalize hd : nextCol (fun j => s.used j || !s.isomatch s.row j) (s.C - c) c = d at h1 h2 h3 h4
    have hskip := branches_skip s.R s.C s.needle s.haystack n r s.isomatch s.used c k (d - c) (by omega)
      (fun j ha hb => by have := h3 j ha (by omega); rw [hrow] at this; exact this)
    rw [show c + (d - c) = d by omega] at hskip
    rw [hskip]
    simp only [scan] at ht
    rw [hd] at ht
    by_cases hlt : d < s.C
    · rw [if_pos hlt] at ht
      have hgood : (s.used d || !s.isomatch s.row d) = false := h4 (by omega)
      obtain ⟨m, hm⟩ : ∃ m, k - (d - c) = m + 1 := ⟨k - (d - c) - 1, by omega⟩
      rw [hm, branches, List.range'_succ, List.flatMap_cons, if_neg (by rw [← hrow, hgood]; simp), List.map_append,
        List.append_assoc]
      -- the chosen state
      obtain ⟨s1, he1, hr1, hs1⟩ := ih (choose s d) (by simp only [choose, hrow]) (by simp only [choose]; exact hR)
        (by
          intro i hi
          have : i ≠ s.row := by omega
          simp only [choose, put, if_neg this]
          exact hset i (by omega))
      have hset1 : s1.set s1.row = true := by
        rw [hs1.set, hr1]; simp only [choose, hrow, put, if_true]
      have hcol1 : s1.cols s1.row = d := by
        rw [hr1, hs1.cols r (by omega)]; simp only [choose, hrow, put, if_true]
      have hne : s1.row ≠ s1.R := by rw [hr1, hs1.R]; simp only [choose]; omega
      have ht1 : tick s1 = scan (undo s1) (d + 1) := by
        rw [tick, if_neg hne, if_pos hset1, hcol1]
      have hess : Ess r s (undo s1) := by
        refine ⟨?_, ?_, ?_, ?_, ?_, ?_, ?_, ?_, ?_, ?_⟩
        · simp only [undo]; rw [hs1.R]; rfl
        · simp only [undo]; rw [hs1.C]; rfl
        · simp only [undo]; rw [hs1.needle]; rfl
        · simp only [undo]; rw [hs1.haystack]; rfl
        · simp only [undo]
          rw [hs1.C, hs1.isomatch, hr1, hs1.changes r (by omega)]
          have hcopy : undoPick (choose s d).C (choose s d).isomatch s1.copy r =
              undoPick (choose s d).C (choose s d).isomatch (choose s d).copy r := by
            funext x y
            simp only [undoPick]
            by_cases hx : x = r ∧ y < (choose s d).C
            · rw [if_pos hx, if_pos hx, hx.1, hs1.copy r (by omega)]
            · rw [if_neg hx, if_neg hx]
          rw [hcopy]
          simp only [choose, hrow, put, if_true]
          rw [undo_pick s.C _ s.copy r d hlt, undo_trim]
        · simp only [undo]
          rw [hcol1, hs1.used]
          funext x
          simp only [choose, put]
          by_cases hx : x = d
          · subst hx; simp only [if_true]
            simp only [Bool.or_eq_false_iff] at hgood
            exact hgood.1.symm
          · simp only [if_neg hx]
        · simp only [undo]
          rw [hs1.set, hr1]
          funext x
          simp only [choose, hrow, put]
          by_cases hx : x = r
          · subst hx; simp only [if_true]; exact (hset x (Nat.le_refl _)).symm
          · simp only [if_neg hx]
        · intro i hi
          simp only [undo]
          rw [hs1.cols i (by omega)]
          simp only [choose, put]; rw [if_neg (by omega)]
        · intro i hi
          simp only [undo]
          rw [hs1.changes i (by omega)]
          simp only [choose, put]; rw [if_neg (by omega)]
        · intro i hi
          simp only [undo]
          rw [hs1.copy i (by omega)]
          funext y
          simp only [choose, saveRow]; rw [if_neg (by omega)]
      obtain ⟨s2, he2, hr2, hs2⟩ := ihk m (by omega) s1 (undo s1) (d + 1)
        (by rw [hess.C]; omega) (by simp only [undo]; exact hr1) (by rw [hess.R]; exact hR)
        (by intro i hi; rw [hess.set]; exact hset i hi) ht1
      refine ⟨s2, ?_, hr2, hess.trans hs2⟩
      rw [hess.R, hess.C, hess.needle, hess.haystack, hess.isomatch, hess.used] at he2
      refine Emits.go ht (Emits.trans ?_ he2)
      have : (choose s d).isomatch = pickRow s.C (trim s.R s.C s.isomatch s.needle s.haystack r d).1 r d := by
        simp only [choose, hrow]
      rw [this] at he1
      exact he1
    · rw [if_neg hlt] at ht
      have hk0 : k - (d - c) = 0 := by omega
      rw [hk0, branches, List.range'_zero, List.flatMap_nil, List.map_nil, List.nil_append]
      by_cases h0 : s.row = 0
      · rw [if_pos h0] at ht
        refine ⟨s, ?_, by omega, Ess.refl r s⟩
        rw [back, if_pos (by omega)]
        exact .out ht (.nil s)
      · rw [if_neg h0] at ht
        refine ⟨{ s with row := s.row - 1 }, ?_, ?_, ?_⟩
        · rw [back, if_neg (by omega)]
          exact .go ht (.nil _)
        · simp only [hrow]
        · exact ⟨rfl, rfl, rfl, rfl, rfl, rfl, rfl, fun _ _ => rfl, fun _ _ => rfl, fun _ _ => rfl⟩

/-- From a row that is entered, the program returns the leaves of the search tree below it one after the other. -/
theorem emits_dfs (n : Nat) : ∀ (r : Nat) (s : Search), s.row = r → s.R = r + n → (n = 0 → 0 < r) → (∀ i, r ≤ i → s.set i = false) →
    ∃ s', Emits s ((dfs s.R s.C s.needle s.haystack n r s.isomatch s.used).map some ++ back r) s' ∧ s'.row = r - 1 ∧
      Ess r s s' := by
  induction n with
  | zero =>
    intro r s hrow hR h0 hset
    have hpos : 0 < r := h0 rfl
    have hnb : back r = [] := by rw [back, if_neg (by omega)]
    rw [hnb, List.append_nil]
    have hcons : put s.set s.R false = s.set := by
      funext x; simp only [put]; split
      · rename_i hx; rw [hx]; exact (hset s.R (by omega)).symm
      · rfl
    have hput : put (put s.set s.R true) s.R false = s.set := by
      rw [← hcons]; funext x; simp only [put]; split <;> rfl
    rw [dfs]
    by_cases hm : isMatch s.R s.C s.isomatch s.needle s.haystack = true
    · rw [if_pos hm]
      refine ⟨{ s with row := s.R - 1 }, ?_, by simp only; omega, ?_⟩
      · refine Emits.out (s1 := { s with set := put s.set s.R true }) ?_ (Emits.go ?_ (Emits.nil _))
        · rw [tick, if_pos (by omega), if_pos (by rw [hset s.R (by omega), hm]; rfl)]
        · rw [tick, if_pos (by simp only; omega), if_neg (by simp [put])]
          simp only [hput]
      · exact ⟨rfl, rfl, rfl, rfl, rfl, rfl, rfl, fun _ _ => rfl, fun _ _ => rfl, fun _ _ => rfl⟩
    · rw [if_neg hm]
      refine ⟨{ s with row := s.R - 1 }, ?_, by simp only; omega, ?_⟩
      · refine Emits.go ?_ (Emits.nil _)
        rw [tick, if_pos (by omega), if_neg (by simp [hm])]
        simp only [hcons]
      · exact ⟨rfl, rfl, rfl, rfl, rfl, rfl, rfl, fun _ _ => rfl, fun _ _ => rfl, fun _ _ => rfl⟩
  | succ n ih =>
    intro r s hrow hR _ hset
    rw [dfs_succ]
    refine emits_scan n r ?_ s.C s s 0 (by omega) hrow (by omega) hset ?_
    · intro s hrow hR hset
      obtain ⟨s', h1, h2, h3⟩ := ih (r + 1) s hrow hR (by omega) hset
      rw [back, if_neg (by omega), List.append_nil] at h1
      exact ⟨s', h1, h2, h3⟩
    · rw [tick, if_neg (by omega), if_neg (by rw [hset _ (by omega)]; simp)]

end Voss.Iso
