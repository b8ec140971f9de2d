import Verif.Lp.Phase
import Mathlib.Data.List.Nodup

/-! Bases, and how artificial variables leave them. -/
namespace Voss.Lp
open Tab

theorem inBasisGo_some (t : Tab) (j i : Nat) : ∀ (l : List Nat), inBasisGo t j (some i) l =
    if ∀ r ∈ l, t.at' r j = 0 then some i else none := by
  intro l
  induction l with
  | nil => simp [inBasisGo]
  | cons r l ih =>
    rw [inBasisGo, if_neg (by simp)]
    by_cases h : t.at' r j = 0
    · rw [if_neg (by simpa using h), ih]
      simp [h]
    · rw [if_pos h, if_neg]
      intro hh
      exact h (hh r (List.mem_cons_self ..))

theorem inBasisGo_none (t : Tab) (j : Nat) : ∀ (l : List Nat), l.Nodup → ∀ i,
    inBasisGo t j none l = some i ↔ i ∈ l ∧ ∀ r ∈ l, t.at' r j = if r = i then 1 else 0 := by
  intro l
  induction l with
  | nil => intro _ i; simp [inBasisGo]
  | cons r l ih =>
    intro hd i
    rw [List.nodup_cons] at hd
    rw [inBasisGo]
    by_cases h1 : t.at' r j = 1
    · rw [if_pos ⟨h1, rfl⟩, inBasisGo_some]
      constructor
      · intro h
        split at h
        · rename_i hz
          injection h with h
          subst h
          refine ⟨List.mem_cons_self .., ?_⟩
          intro k hk
          rcases List.mem_cons.1 hk with rfl | hk1
          · rw [if_pos rfl, h1]
          · rw [if_neg (by rintro rfl; exact hd.1 hk1), hz k hk1]
        · exact absurd h (by simp)
      · rintro ⟨_, h⟩
        have hri : r = i := by
          have := h r (List.mem_cons_self ..)
          rw [h1] at this
          by_cases e : r = i
          · exact e
          · rw [if_neg e] at this; exact absurd this one_ne_zero
        subst hri
        rw [if_pos]
        intro k hk
        rw [h k (List.mem_cons_of_mem _ hk), if_neg (by rintro rfl; exact hd.1 hk)]
    · rw [if_neg (fun x => h1 x.1)]
      by_cases h0 : t.at' r j = 0
      · rw [if_neg (by simpa using h0), ih hd.2 i]
        constructor
        · rintro ⟨a, b⟩
          refine ⟨List.mem_cons_of_mem _ a, ?_⟩
          intro k hk
          rcases List.mem_cons.1 hk with rfl | hk
          · rw [h0, if_neg (by rintro rfl; exact hd.1 a)]
          · exact b k hk
        · rintro ⟨a, b⟩
          rcases List.mem_cons.1 a with rfl | a
          · have := b i (List.mem_cons_self ..)
            rw [if_pos rfl] at this
            exact absurd this h1
          · exact ⟨a, fun k hk => b k (List.mem_cons_of_mem _ hk)⟩
      · rw [if_pos h0]
        constructor
        · intro h; exact absurd h (by simp)
        · rintro ⟨_, b⟩
          have := b r (List.mem_cons_self ..)
          split at this
          · exact absurd this h1
          · exact absurd this h0

/-- A unit column. -/
def Unit (t : Tab) (j i : Nat) : Prop := i ≤ t.nrow ∧ ∀ r, r ≤ t.nrow → t.at' r j = if r = i then 1 else 0

theorem inBasis_iff (t : Tab) (j i : Nat) : t.inBasis j = some i ↔ Unit t j i := by
  unfold inBasis Unit
  rw [inBasisGo_none t j _ List.nodup_range i]
  simp only [List.mem_range, Nat.lt_succ_iff]

theorem basisGo_length (t : Tab) : ∀ (js marked : List Nat), (basisGo t marked js).length = js.length := by
  intro js
  induction js with
  | nil => intro m; rfl
  | cons j js ih =>
    intro m
    rw [basisGo]
    split
    · rw [List.length_cons, List.length_cons, ih]
    · split <;> rw [List.length_cons, List.length_cons, ih]

theorem basisGo_spec (t : Tab) : ∀ (js marked : List Nat) (p i : Nat), (hp : p < js.length) →
    (basisGo t marked js).getD p 0 = i → 0 < i → Unit t js[p] i ∧ t.eps ≠ some js[p] ∧ i ∉ marked := by
  intro js
  induction js with
  | nil => intro m p i hp; simp at hp
  | cons j js ih =>
    intro m p i hp h hi
    rw [basisGo] at h
    cases hb : t.inBasis j with
    | none =>
      rw [hb] at h
      simp only [] at h
      cases p with
      | zero => rw [List.getD_cons_zero] at h; omega
      | succ p =>
        rw [List.getD_cons_succ] at h
        exact ih m p i (by simpa using hp) h hi
    | some k =>
      rw [hb] at h
      simp only [] at h
      by_cases hc : 0 < k ∧ k ∉ m ∧ t.eps ≠ some j
      · rw [if_pos hc] at h
        cases p with
        | zero =>
          rw [List.getD_cons_zero] at h
          subst h
          exact ⟨(inBasis_iff t j k).1 hb, hc.2.2, hc.2.1⟩
        | succ p =>
          rw [List.getD_cons_succ] at h
          obtain ⟨a, b, c⟩ := ih (k :: m) p i (by simpa using hp) h hi
          exact ⟨a, b, fun hm => c (List.mem_cons_of_mem _ hm)⟩
      · rw [if_neg hc] at h
        cases p with
        | zero => rw [List.getD_cons_zero] at h; omega
        | succ p =>
          rw [List.getD_cons_succ] at h
          exact ih m p i (by simpa using hp) h hi

theorem basisGo_inj (t : Tab) : ∀ (js marked : List Nat) (p q i : Nat), p < js.length → q < js.length →
    (basisGo t marked js).getD p 0 = i → (basisGo t marked js).getD q 0 = i → 0 < i → p = q := by
  intro js
  induction js with
  | nil => intro m p q i hp; simp at hp
  | cons j js ih =>
    intro m p q i hp hq h h' hi
    rw [basisGo] at h h'
    cases hb : t.inBasis j with
    | none =>
      rw [hb] at h h'
      simp only [] at h h'
      cases p with
      | zero => rw [List.getD_cons_zero] at h; omega
      | succ p =>
        cases q with
        | zero => rw [List.getD_cons_zero] at h'; omega
        | succ q =>
          rw [List.getD_cons_succ] at h h'
          rw [ih m p q i (by simpa using hp) (by simpa using hq) h h' hi]
    | some k =>
      rw [hb] at h h'
      simp only [] at h h'
      by_cases hc : 0 < k ∧ k ∉ m ∧ t.eps ≠ some j
      · rw [if_pos hc] at h h'
        cases p with
        | zero =>
          rw [List.getD_cons_zero] at h
          subst h
          cases q with
          | zero => rfl
          | succ q =>
            rw [List.getD_cons_succ] at h'
            exact absurd (List.mem_cons_self ..) (basisGo_spec t js (k :: m) q k (by simpa using hq) h' hi).2.2
        | succ p =>
          rw [List.getD_cons_succ] at h
          cases q with
          | zero =>
            rw [List.getD_cons_zero] at h'
            subst h'
            exact absurd (List.mem_cons_self ..) (basisGo_spec t js (k :: m) p k (by simpa using hp) h hi).2.2
          | succ q =>
            rw [List.getD_cons_succ] at h'
            rw [ih (k :: m) p q i (by simpa using hp) (by simpa using hq) h h' hi]
      · rw [if_neg hc] at h h'
        cases p with
        | zero => rw [List.getD_cons_zero] at h; omega
        | succ p =>
          cases q with
          | zero => rw [List.getD_cons_zero] at h'; omega
          | succ q =>
            rw [List.getD_cons_succ] at h h'
            rw [ih m p q i (by simpa using hp) (by simpa using hq) h h' hi]

theorem basisGo_cover (t : Tab) : ∀ (js marked : List Nat) (j i : Nat), j ∈ js → Unit t j i → 0 < i → t.eps ≠ some j →
    i ∈ marked ∨ ∃ p, p < js.length ∧ (basisGo t marked js).getD p 0 = i := by
  intro js
  induction js with
  | nil => intro m j i hj; simp at hj
  | cons k js ih =>
    intro m j i hj hu hi he
    rw [basisGo]
    rcases List.mem_cons.1 hj with rfl | hj
    · rw [(inBasis_iff t j i).2 hu]
      simp only []
      by_cases hm : i ∈ m
      · exact Or.inl hm
      · rw [if_pos ⟨hi, hm, he⟩]
        exact Or.inr ⟨0, by simp, rfl⟩
    · cases hb : t.inBasis k with
      | none =>
        simp only []
        rcases ih m j i hj hu hi he with h | ⟨p, h1, h2⟩
        · exact Or.inl h
        · exact Or.inr ⟨p + 1, by simpa using h1, by rw [List.getD_cons_succ]; exact h2⟩
      | some q =>
        simp only []
        by_cases hc : 0 < q ∧ q ∉ m ∧ t.eps ≠ some k
        · rw [if_pos hc]
          rcases ih (q :: m) j i hj hu hi he with h | ⟨p, h1, h2⟩
          · rcases List.mem_cons.1 h with rfl | h
            · exact Or.inr ⟨0, by simp, rfl⟩
            · exact Or.inl h
          · exact Or.inr ⟨p + 1, by simpa using h1, by rw [List.getD_cons_succ]; exact h2⟩
        · rw [if_neg hc]
          rcases ih m j i hj hu hi he with h | ⟨p, h1, h2⟩
          · exact Or.inl h
          · exact Or.inr ⟨p + 1, by simpa using h1, by rw [List.getD_cons_succ]; exact h2⟩

theorem basis_at (t : Tab) (p : Nat) : t.basis.getD (p + 1) 0 = (basisGo t [] (List.range' 1 t.ncol)).getD p 0 := by
  rw [basis, List.getD_cons_succ]

theorem basis_spec (t : Tab) {j i : Nat} (h : t.basis.getD j 0 = i) (hi : 0 < i) :
    1 ≤ j ∧ j ≤ t.ncol ∧ Unit t j i ∧ t.eps ≠ some j := by
  cases j with
  | zero => rw [basis, List.getD_cons_zero] at h; omega
  | succ p =>
    rw [basis_at] at h
    by_cases hp : p < (List.range' 1 t.ncol).length
    · obtain ⟨a, b, _⟩ := basisGo_spec t _ [] p i hp h hi
      rw [List.getElem_range'] at a b
      rw [List.length_range'] at hp
      rw [show 1 + 1 * p = p + 1 by omega] at a b
      exact ⟨by omega, by omega, a, b⟩
    · rw [List.getD_eq_default _ _ (by rw [basisGo_length]; omega)] at h
      omega

theorem basis_inj (t : Tab) {j k i : Nat} (h : t.basis.getD j 0 = i) (h' : t.basis.getD k 0 = i) (hi : 0 < i) : j = k := by
  have a := basis_spec t h hi
  have b := basis_spec t h' hi
  obtain ⟨p, rfl⟩ : ∃ p, j = p + 1 := ⟨j - 1, by omega⟩
  obtain ⟨q, rfl⟩ : ∃ q, k = q + 1 := ⟨k - 1, by omega⟩
  rw [basis_at] at h h'
  rw [basisGo_inj t (List.range' 1 t.ncol) [] p q i (by rw [List.length_range']; omega) (by rw [List.length_range']; omega) h h' hi]

theorem basis_cover (t : Tab) {j i : Nat} (j1 : 1 ≤ j) (j2 : j ≤ t.ncol) (hu : Unit t j i) (hi : 0 < i) (he : t.eps ≠ some j) :
    ∃ k, t.basis.getD k 0 = i := by
  rcases basisGo_cover t (List.range' 1 t.ncol) [] j i (by rw [List.mem_range'_1]; omega) hu hi he with h | ⟨p, _, h⟩
  · simp at h
  · exact ⟨p + 1, by rw [basis_at]; exact h⟩

/-- The basis that `find_basis` finds. -/
theorem basis_choice {t : Tab} {m n : Nat} (hw : t.WF m n) {β : Nat → Nat} (hc : Canon m n t.mat β)
    (he : ∀ i, 1 ≤ i → i ≤ m → t.eps ≠ some (β i)) : ∃ β', Canon m n t.mat β' ∧ (∀ i, 1 ≤ i → i ≤ m → t.eps ≠ some (β' i)) ∧
      (∀ i, 1 ≤ i → i ≤ m → t.basis.getD (β' i) 0 = i) ∧
      (∀ j i, t.basis.getD j 0 = i → 0 < i → 1 ≤ i ∧ i ≤ m ∧ β' i = j) := by
  have hex : ∀ i, ∃ j, 1 ≤ i → i ≤ m → t.basis.getD j 0 = i := by
    intro i
    by_cases h : 1 ≤ i ∧ i ≤ m
    · obtain ⟨a, b, c⟩ := hc i h.1 h.2
      obtain ⟨k, hk⟩ := basis_cover t a (by rw [hw.ncol]; exact b) (i := i) ⟨by rw [hw.nrow]; exact h.2, by
        intro r hr
        rw [hw.nrow] at hr
        rw [← mat_at hw hr]
        exact c r hr⟩ (by omega) (he i h.1 h.2)
      exact ⟨k, fun _ _ => hk⟩
    · exact ⟨0, fun a b => absurd ⟨a, b⟩ h⟩
  choose β' hβ using hex
  have hu : ∀ i, 1 ≤ i → i ≤ m → 1 ≤ β' i ∧ β' i ≤ n ∧ Unit t (β' i) i ∧ t.eps ≠ some (β' i) := by
    intro i a b
    have := basis_spec t (hβ i a b) (by omega)
    rw [hw.ncol] at this
    exact this
  refine ⟨β', ?_, fun i a b => (hu i a b).2.2.2, hβ, ?_⟩
  · intro i a b
    refine ⟨(hu i a b).1, (hu i a b).2.1, ?_⟩
    intro r hr
    rw [mat_at hw hr]
    exact (hu i a b).2.2.1.2 r (by rw [hw.nrow]; exact hr)
  · intro j i h hi
    have h1 := (basis_spec t h hi).2.2.1.1
    rw [hw.nrow] at h1
    exact ⟨hi, h1, basis_inj t (hβ i hi h1) h hi⟩

/-- The rows of a standard form are independent, apart from `eps`. -/
def Std.Ind (s : Std) : Prop := ∀ w : Nat → ℚ,
  (∀ j, 1 ≤ j → j ≤ s.ncol → s.eps ≠ some j → sm s.rows.length (fun k => w k * s.mat k j) = 0) →
    ∀ k, 1 ≤ k → k ≤ s.rows.length → w k = 0

theorem find_some {s : Std} (hi : s.Ind) {t : Tab} {β : Nat → Nat} (h : Done s t β) {ii : Nat} (i1 : 1 ≤ ii) (i2 : ii ≤ s.rows.length)
    (hb : s.ncol < β ii) : ∃ jj, t.findNonZero ii = some jj ∧ 1 ≤ jj ∧ jj ≤ s.ncol ∧ s.eps ≠ some jj ∧ t.mat ii jj ≠ 0 := by
  have hr : t.ncol - t.nrow = s.ncol := by rw [h.wf.ncol, h.wf.nrow]; omega
  cases hf : t.findNonZero ii with
  | some jj =>
    refine ⟨jj, rfl, ?_⟩
    unfold findNonZero at hf
    have h1 := List.mem_of_find?_eq_some hf
    have h2 := List.find?_some hf
    rw [List.mem_range'_1, hr] at h1
    have h3 := of_decide_eq_true h2
    rw [h.eps] at h3
    refine ⟨h1.1, by omega, h3.1, ?_⟩
    rw [mat_at h.wf i2]
    exact h3.2
  | none =>
    exfalso
    unfold findNonZero at hf
    rw [List.find?_eq_none, hr] at hf
    obtain ⟨_, b2, b3⟩ := h.canon ii i1 i2
    have hz := hi (fun k => t.mat ii (s.ncol + k)) (by
      intro j j1 j2 je
      rw [← h.kept.lin ii j i1 i2 j1 j2]
      have := hf j (by rw [List.mem_range'_1]; omega)
      rw [decide_eq_true_eq, h.eps] at this
      rw [mat_at h.wf i2]
      by_cases hz : t.at' ii j = 0
      · exact hz
      · exact absurd ⟨je, hz⟩ this) (β ii - s.ncol) (by omega) (by omega)
    beta_reduce at hz
    rw [show s.ncol + (β ii - s.ncol) = β ii by omega, b3 ii i2, if_pos rfl] at hz
    exact one_ne_zero hz

theorem drive_go {s : Std} (hi : s.Ind) (b : List Nat) (hbj : ∀ j k i, b.getD j 0 = i → b.getD k 0 = i → 0 < i → j = k) :
    ∀ (is : List Nat) (t : Tab) (β : Nat → Nat), Done s t β → t.mat 0 0 = 0 → is.Nodup → (∀ c ∈ is, s.ncol < c) →
      (∀ r, 1 ≤ r → r ≤ s.rows.length → s.ncol < β r → t.mat r 0 = 0) →
      (∀ c ∈ is, ∀ r, b.getD c 0 = r → 0 < r → r ≤ s.rows.length ∧ β r = c) →
      (∀ r, 1 ≤ r → r ≤ s.rows.length → β r ≤ s.ncol ∨ (β r ∈ is ∧ b.getD (β r) 0 = r)) →
      ∃ t' β', driveGo b t is = .ok t' ∧ Done s t' β' ∧ t'.mat 0 0 = 0 ∧
        ∀ r, 1 ≤ r → r ≤ s.rows.length → β' r ≤ s.ncol := by
  intro is
  induction is with
  | nil =>
    intro t β hd h0 _ _ _ _ h2
    refine ⟨t, β, rfl, hd, h0, ?_⟩
    intro r r1 r2
    rcases h2 r r1 r2 with h | ⟨h, _⟩
    · exact h
    · simp at h
  | cons c is ih =>
    intro t β hd h0 hnd hgt hz h1 h2
    rw [List.nodup_cons] at hnd
    rw [driveGo]
    by_cases hc : 0 < b.getD c 0
    · rw [if_pos hc]
      obtain ⟨r2, hβ⟩ := h1 c (List.mem_cons_self ..) _ rfl hc
      obtain ⟨jj, f1, f2, f3, f4, f5⟩ := find_some hi hd hc r2 (by rw [hβ]; exact hgt c (List.mem_cons_self ..))
      rw [f1]
      simp only []
      obtain ⟨p1, p2, p3, p4, p5⟩ := pivot_spec hd.wf r2 jj
      have hzz : t.mat (b.getD c 0) 0 = 0 := hz _ hc r2 (by rw [hβ]; exact hgt c (List.mem_cons_self ..))
      have hsame : ∀ r, (t.pivot (b.getD c 0) jj).mat r 0 = t.mat r 0 := by
        intro r
        rw [p2]
        unfold piv
        by_cases e : r = b.getD c 0
        · rw [if_pos e, hzz, e, hzz, zero_div]
        · rw [if_neg e, hzz, zero_div, mul_zero, sub_zero]
      apply ih (t.pivot (b.getD c 0) jj) (fun k => if k = b.getD c 0 then jj else β k)
      · refine ⟨p1, p3.trans hd.eps, p4.trans hd.ur, p5.trans hd.var, ?_, ?_, ?_, ?_⟩
        · rw [p2]
          exact canon_piv hd.canon r2 f2 (by omega) f5
        · intro r a b'
          rw [hsame r]
          exact hd.pos r a b'
        · intro r a b'
          by_cases e : r = b.getD c 0
          · simp only [if_pos e]; exact f4
          · simp only [if_neg e]; exact hd.basic r a b'
        · rw [p2]
          exact kept_piv hc r2 f5 hd.kept
      · rw [hsame 0]; exact h0
      · exact hnd.2
      · exact fun x hx => hgt x (List.mem_cons_of_mem _ hx)
      · intro r a b' hlt
        rw [hsame r]
        by_cases e : r = b.getD c 0
        · rw [e]; exact hzz
        · rw [if_neg e] at hlt
          exact hz r a b' hlt
      · intro x hx r hr hr0
        have hne : r ≠ b.getD c 0 := by
          intro e
          have := hbj x c r hr e.symm hr0
          exact hnd.1 (this ▸ hx)
        rw [if_neg hne]
        exact h1 x (List.mem_cons_of_mem _ hx) r hr hr0
      · intro r a b'
        by_cases e : r = b.getD c 0
        · left; rw [if_pos e]; exact f3
        · rw [if_neg e]
          rcases h2 r a b' with h | ⟨h, h'⟩
          · exact Or.inl h
          · rcases List.mem_cons.1 h with h | h
            · rw [h] at h'
              exact absurd h'.symm e
            · exact Or.inr ⟨h, h'⟩
    · rw [if_neg hc]
      apply ih t β hd h0 hnd.2 (fun x hx => hgt x (List.mem_cons_of_mem _ hx)) hz
        (fun x hx => h1 x (List.mem_cons_of_mem _ hx))
      intro r a b'
      rcases h2 r a b' with h | ⟨h, h'⟩
      · exact Or.inl h
      · rcases List.mem_cons.1 h with h | h
        · rw [h] at h'
          omega
        · exact Or.inr ⟨h, h'⟩

theorem drive_out {s : Std} (hi : s.Ind) {t : Tab} {β : Nat → Nat} (hd : Done s t β) (h0 : t.mat 0 0 = 0) :
    ∃ t' β', t.driveOut = .ok t' ∧ Done s t' β' ∧ t'.mat 0 0 = 0 ∧ ∀ r, 1 ≤ r → r ≤ s.rows.length → β' r ≤ s.ncol := by
  obtain ⟨β', c1, c2, c3, c4⟩ := basis_choice hd.wf hd.canon (by intro i a b; rw [hd.eps]; exact hd.basic i a b)
  have hd' : Done s t β' := ⟨hd.wf, hd.eps, hd.ur, hd.var, c1, hd.pos, by intro i a b; rw [← hd.eps]; exact c2 i a b, hd.kept⟩
  unfold driveOut
  have hr : t.ncol - t.nrow = s.ncol := by rw [hd.wf.ncol, hd.wf.nrow]; omega
  apply drive_go hi t.basis (fun j k i => basis_inj t) _ t β' hd' h0 List.nodup_range'
  · intro c hc
    rw [List.mem_range'_1, hr] at hc
    omega
  · intro r r1 r2 hlt
    have h1 := (hd'.zero h0).1 (β' r - s.ncol) (by omega) (by have := (c1 r r1 r2).2.1; omega)
    rw [show s.ncol + (β' r - s.ncol) = β' r by omega] at h1
    unfold bv at h1
    rw [spread_basic c1 _ r1 r2] at h1
    exact h1
  · intro c _ r hr' hr0
    obtain ⟨_, a, b⟩ := c4 c r hr' hr0
    exact ⟨a, b⟩
  · intro r r1 r2
    by_cases h : β' r ≤ s.ncol
    · exact Or.inl h
    · right
      refine ⟨?_, c3 r r1 r2⟩
      have := (c1 r r1 r2).2.1
      rw [List.mem_range'_1, hr, hd.wf.nrow]
      omega

/-- The state without artificial variables. -/
structure Ready (s : Std) (t : Tab) (β : Nat → Nat) : Prop where
  wf : t.WF s.rows.length s.ncol
  eps : t.eps = s.eps
  ur : t.ur = s.ur
  var : t.var = s.var
  canon : Canon s.rows.length s.ncol t.mat β
  pos : ∀ i, 1 ≤ i → i ≤ s.rows.length → 0 ≤ t.mat i 0
  basic : ∀ i, 1 ≤ i → i ≤ s.rows.length → s.eps ≠ some (β i)
  sol : ∀ v, Sol s.rows.length s.ncol t.mat v ↔ Sol s.rows.length s.ncol s.mat v
  cost : ∀ j, j ≤ s.ncol → t.mat 0 j = 0

theorem forget_ready {s : Std} {t : Tab} {β : Nat → Nat} (h : Done s t β) (h0 : t.mat 0 0 = 0)
    (hβ : ∀ r, 1 ≤ r → r ≤ s.rows.length → β r ≤ s.ncol) : Ready s (forget s.rows.length t) β := by
  have hn : t.ncol - s.rows.length = s.ncol := by rw [h.wf.ncol]; omega
  have hw : (forget s.rows.length t).WF s.rows.length s.ncol := by
    refine ⟨h.wf.nrow, hn, h.wf.ptr, by simp [forget, h.wf.mem], ?_⟩
    intro r hr
    simp only [forget, List.mem_map] at hr
    obtain ⟨r', hr', rfl⟩ := hr
    rw [List.length_take, h.wf.len r' hr', hn]
    omega
  have hm : ∀ r c, c ≤ s.ncol → (forget s.rows.length t).mat r c = t.mat r c := by
    intro r c hc
    by_cases hr : r ≤ s.rows.length
    · rw [mat_at hw hr, mat_at h.wf hr, at', at', hw.row_eq hr, h.wf.row_eq hr]
      have hl : r < t.mem.length := by rw [h.wf.mem]; omega
      simp only [forget]
      rw [List.getD_eq_getElem (t.mem.map _) _ (by simpa using hl), List.getD_eq_getElem t.mem _ hl, List.getElem_map, hn]
      have hlen := h.wf.len _ (List.getElem_mem hl)
      rw [List.getD_eq_getElem _ _ (by rw [List.length_take, hlen]; omega), List.getElem_take, List.getD_eq_getElem _ _ (by rw [hlen]; omega)]
    · unfold mat
      rw [if_neg (by rw [hw.nrow]; exact hr), if_neg (by rw [h.wf.nrow]; exact hr)]
  have hres : ∀ r v, res s.ncol (forget s.rows.length t).mat r v =
      res (s.ncol + s.rows.length) t.mat r (fun j => if j ≤ s.ncol then v j else 0) := by
    intro r v
    unfold res
    rw [sm_split, sm_zero (n := s.rows.length) (by intro j j1 _; beta_reduce; rw [if_neg (by omega), mul_zero]), add_zero, hm r 0 (Nat.zero_le _)]
    congr 1
    apply sm_congr
    intro j _ hj
    beta_reduce
    rw [hm r j hj, if_pos hj]
  refine ⟨hw, h.eps, h.ur, h.var, ?_, ?_, h.basic, ?_, ?_⟩
  · intro i a b
    refine ⟨(h.canon i a b).1, hβ i a b, ?_⟩
    intro r hr
    rw [hm r _ (hβ i a b)]
    exact (h.canon i a b).2.2 r hr
  · intro i a b
    rw [hm i 0 (Nat.zero_le _)]
    exact h.pos i a b
  · intro v
    have h1 : Sol s.rows.length s.ncol (forget s.rows.length t).mat v ↔
        Sol s.rows.length (s.ncol + s.rows.length) t.mat (fun j => if j ≤ s.ncol then v j else 0) := by
      unfold Sol
      constructor
      · intro hh i a b; rw [← hres]; exact hh i a b
      · intro hh i a b; rw [hres]; exact hh i a b
    rw [h1, h.kept.sol]
    unfold Sol
    have h2 : ∀ i, res s.ncol s.mat i (fun j => if j ≤ s.ncol then v j else 0) = res s.ncol s.mat i v := by
      intro i
      unfold res
      congr 1
      apply sm_congr
      intro j _ hj
      beta_reduce
      rw [if_pos hj]
    constructor
    · intro hh i a b
      have := hh i a b
      rw [h2, if_neg (by omega), add_zero] at this
      exact this
    · intro hh i a b
      rw [h2, if_neg (by omega), add_zero]
      exact hh i a b
  · intro j hj
    rw [hm 0 j hj]
    by_cases j1 : 1 ≤ j
    · have h1 := h.kept.cost _ (sol_ray h.canon j1 (by omega : j ≤ s.ncol + s.rows.length) 1)
      rw [obj_ray h.canon j1 (by omega), h0] at h1
      rw [sm_zero (n := s.rows.length)
        (by
          intro i i1 i2
          unfold ray bv
          rw [spread_off (fun r a b => by have := hβ r a b; omega), spread_off (fun r a b => by have := hβ r a b; omega), if_neg (by omega)]
          simp)] at h1
      linarith
    · rw [show j = 0 by omega]; exact h0

end Voss.Lp
