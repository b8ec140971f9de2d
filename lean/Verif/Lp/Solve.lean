import Verif.Lp.Standard
import Verif.Lp.Strict
import Verif.Lp.Spec

/-! From constraints to the standard form, and the answers. -/
namespace Voss.Lp
open Tab

def RowSat (r : Row) (x : Nat → ℚ) : Prop :=
  match r.rel with
  | .eq => lhs r x = r.cols.getD 0 0
  | .ne => lhs r x ≠ r.cols.getD 0 0
  | .le => lhs r x ≤ r.cols.getD 0 0
  | .ge => r.cols.getD 0 0 ≤ lhs r x
  | .lt => lhs r x < r.cols.getD 0 0
  | .gt => r.cols.getD 0 0 < lhs r x
  | .cost => False

def Sats (rs : List Row) (x : Nat → ℚ) : Prop := ∀ r ∈ rs, RowSat r x

/-- Only relations that the theorems are about. -/
def Lin (rs : List Row) : Prop := ∀ r ∈ rs, r.rel ≠ .ne ∧ r.rel ≠ .cost

theorem ev_zero : ∀ (l : List ℚ) (k : Nat) (x : Nat → ℚ), l.all (· == 0) = true → ev l k x = 0 := by
  intro l
  induction l with
  | nil => intro k x _; rfl
  | cons c l ih =>
    intro k x h
    rw [List.all_cons, Bool.and_eq_true] at h
    have hc : c = 0 := by simpa using h.1
    rw [ev, ih _ _ h.2, hc]
    ring

theorem zero_row {r : Row} (h : r.cols.all (· == 0) = true) (x : Nat → ℚ) : lhs r x = 0 ∧ r.cols.getD 0 0 = 0 := by
  unfold lhs
  cases hc : r.cols with
  | nil => simp [ev]
  | cons c l =>
    rw [hc, List.all_cons, Bool.and_eq_true] at h
    refine ⟨ev_zero _ _ _ h.2, ?_⟩
    simpa using h.1

theorem eliminate_none {rs : List Row} (h : eliminateZeros rs = none) (x : Nat → ℚ) : ¬ Sats rs x := by
  induction rs with
  | nil => exact absurd h (by simp [eliminateZeros])
  | cons r rs ih =>
    intro hs
    rw [eliminateZeros] at h
    by_cases hz : r.cols.all (· == 0) = true
    · rw [if_pos hz] at h
      obtain ⟨z1, z2⟩ := zero_row hz x
      by_cases hr : r.rel = .eq ∨ r.rel = .le ∨ r.rel = .ge
      · rw [if_pos hr] at h
        exact ih h (fun q hq => hs q (List.mem_cons_of_mem _ hq))
      · have h1 := hs r (List.mem_cons_self ..)
        unfold RowSat at h1
        rw [z1, z2] at h1
        cases hq : r.rel <;> simp [hq] at h1 hr
    · rw [if_neg hz, Option.map_eq_none_iff] at h
      exact ih h (fun q hq => hs q (List.mem_cons_of_mem _ hq))

theorem eliminate_some : ∀ {rs rs' : List Row}, eliminateZeros rs = some rs' → rs' = rs.filter (fun r => !r.cols.all (· == 0)) ∧
    ∀ x, Sats rs' x ↔ Sats rs x := by
  intro rs
  induction rs with
  | nil => intro rs' h; simp [eliminateZeros] at h; subst h; exact ⟨rfl, fun _ => Iff.rfl⟩
  | cons r rs ih =>
    intro rs' h
    rw [eliminateZeros] at h
    by_cases hz : r.cols.all (· == 0) = true
    · rw [if_pos hz] at h
      by_cases hr : r.rel = .eq ∨ r.rel = .le ∨ r.rel = .ge
      · rw [if_pos hr] at h
        obtain ⟨a, b⟩ := ih h
        refine ⟨by rw [List.filter_cons, if_neg (by simp only [hz]; simp), ← a], ?_⟩
        intro x
        rw [b x]
        constructor
        · intro hs q hq
          rcases List.mem_cons.1 hq with rfl | hq
          · obtain ⟨z1, z2⟩ := zero_row hz x
            unfold RowSat
            rw [z1, z2]
            rcases hr with hr | hr | hr <;> rw [hr]
          · exact hs q hq
        · intro hs q hq
          exact hs q (List.mem_cons_of_mem _ hq)
      · rw [if_neg hr] at h
        exact absurd h (by simp)
    · rw [if_neg hz, Option.map_eq_some_iff] at h
      obtain ⟨l, hl, rfl⟩ := h
      obtain ⟨a, b⟩ := ih hl
      refine ⟨by rw [List.filter_cons, if_pos (by simpa using hz), ← a], ?_⟩
      intro x
      constructor
      · intro hs q hq
        rcases List.mem_cons.1 hq with rfl | hq
        · exact hs q (List.mem_cons_self ..)
        · exact (b x).1 (fun q hq => hs q (List.mem_cons_of_mem _ hq)) q hq
      · intro hs q hq
        rcases List.mem_cons.1 hq with rfl | hq
        · exact hs q (List.mem_cons_self ..)
        · exact (b x).2 (fun q hq => hs q (List.mem_cons_of_mem _ hq)) q hq

def flip : Rel → Rel
  | .eq => .eq
  | .ne => .ne
  | .gt => .lt
  | .lt => .gt
  | .ge => .le
  | .le => .ge
  | .cost => .cost

def norm (r : Row) : Row := if r.cols.getD 0 0 < 0 then ⟨r.cols.map (- ·), flip r.rel⟩ else r

theorem standard1_eq {r : Row} (h : r.rel ≠ .cost) : standard1 r = .ok (norm r) := by
  unfold standard1 norm
  split
  · cases hq : r.rel <;> simp [flip]
    exact h hq
  · rfl

theorem mapOut_eq {α β : Type} {f : α → Out β} {g : α → β} : ∀ {l : List α}, (∀ a ∈ l, f a = .ok (g a)) → mapOut f l = .ok (l.map g) := by
  intro l
  induction l with
  | nil => intro _; rfl
  | cons a l ih =>
    intro h
    rw [mapOut, h a (List.mem_cons_self ..), ih (fun x hx => h x (List.mem_cons_of_mem _ hx))]
    rfl

theorem ev_neg : ∀ (l : List ℚ) (k : Nat) (x : Nat → ℚ), ev (l.map (- ·)) k x = - ev l k x := by
  intro l
  induction l with
  | nil => intro k x; simp [ev]
  | cons c l ih => intro k x; rw [List.map_cons, ev, ev, ih]; ring

theorem norm_lhs (r : Row) (x : Nat → ℚ) : lhs (norm r) x = (if r.cols.getD 0 0 < 0 then -1 else 1) * lhs r x := by
  unfold norm
  split
  · unfold lhs
    rw [← List.map_tail, ev_neg]; ring
  · ring

theorem norm_sat (r : Row) (x : Nat → ℚ) : RowSat (norm r) x ↔ RowSat r x := by
  have h1 := norm_lhs r x
  by_cases hb : r.cols.getD 0 0 < 0
  · rw [if_pos hb] at h1
    have h2 : (norm r).cols.getD 0 0 = - r.cols.getD 0 0 := by
      unfold norm
      rw [if_pos hb, getD_map _ (- ·) (by simp)]
    have h3 : (norm r).rel = flip r.rel := by unfold norm; rw [if_pos hb]
    unfold RowSat
    rw [h1, h2, h3]
    generalize r.cols.getD 0 0 = b
    generalize lhs r x = a
    cases hq : r.rel <;> simp only [flip]
    · constructor <;> intro h <;> linarith
    · constructor
      · intro h e; exact h (by linarith)
      · intro h e; exact h (by linarith)
    · constructor <;> intro h <;> linarith
    · constructor <;> intro h <;> linarith
    · constructor <;> intro h <;> linarith
    · constructor <;> intro h <;> linarith
  · rw [show norm r = r by unfold norm; rw [if_neg hb]]

theorem flip_lin {q : Rel} (h : q ≠ .ne ∧ q ≠ .cost) : flip q ≠ .ne ∧ flip q ≠ .cost := by
  cases q <;> simp [flip] at h ⊢

theorem norm_plain {n : Nat} {rs : List Row} (hl : ∀ r ∈ rs, r.cols.length = n + 1) (h : Lin rs) : Plain n (rs.map norm) := by
  refine ⟨?_, ?_, ?_⟩
  · intro r hr
    rw [List.mem_map] at hr
    obtain ⟨q, hq, rfl⟩ := hr
    unfold norm
    split
    · rw [List.length_map]; exact hl q hq
    · exact hl q hq
  · intro r hr
    rw [List.mem_map] at hr
    obtain ⟨q, hq, rfl⟩ := hr
    unfold norm
    split
    · exact flip_lin (h q hq)
    · exact h q hq
  · intro r hr
    rw [List.mem_map] at hr
    obtain ⟨q, hq, rfl⟩ := hr
    unfold norm
    split
    · rename_i hb
      rw [getD_map _ (- ·) (by simp)]; linarith
    · rename_i hb; exact not_lt.1 hb

theorem norm_sats (rs : List Row) (x : Nat → ℚ) : Sats (rs.map norm) x ↔ Sats rs x := by
  constructor
  · intro h r hr
    exact (norm_sat r x).1 (h _ (List.mem_map_of_mem hr))
  · intro h r hr
    rw [List.mem_map] at hr
    obtain ⟨q, hq, rfl⟩ := hr
    exact (norm_sat q x).2 (h q hq)

/-- A margin for strict rows. -/
theorem margin {rs : List Row} (hl : Lin rs) {x : Nat → ℚ} (h : Sats rs x) : ∃ e : ℚ, 0 < e ∧ ∀ r ∈ rs, RowOK r x e := by
  induction rs with
  | nil => exact ⟨1, by norm_num, by simp⟩
  | cons r rs ih =>
    obtain ⟨e, e0, he⟩ := ih (fun q hq => hl q (List.mem_cons_of_mem _ hq)) (fun q hq => h q (List.mem_cons_of_mem _ hq))
    have h1 := h r (List.mem_cons_self ..)
    have h2 := hl r (List.mem_cons_self ..)
    have hmono : ∀ e' : ℚ, e' ≤ e → ∀ q ∈ rs, RowOK q x e' := by
      intro e' hle q hq
      have := he q hq
      unfold RowOK at this ⊢
      cases hh : q.rel <;> simp only [hh] at this ⊢ <;> linarith
    have h3 : ∃ d : ℚ, 0 < d ∧ ∀ e', e' ≤ d → RowOK r x e' := by
      unfold RowSat at h1
      unfold RowOK
      cases hh : r.rel <;> simp only [hh] at h1 h2 ⊢
      · exact ⟨1, by norm_num, fun _ _ => h1⟩
      · simp at h2
      · exact ⟨r.cols.getD 0 0 - lhs r x, by linarith, fun e' he' => by linarith⟩
      · exact ⟨lhs r x - r.cols.getD 0 0, by linarith, fun e' he' => by linarith⟩
      · exact ⟨1, by norm_num, fun _ _ => h1⟩
      · exact ⟨1, by norm_num, fun _ _ => h1⟩
    obtain ⟨d, d0, hd⟩ := h3
    refine ⟨min d e, lt_min d0 e0, ?_⟩
    intro q hq
    rcases List.mem_cons.1 hq with rfl | hq
    · exact hd _ (min_le_left _ _)
    · exact hmono _ (min_le_right _ _) q hq

theorem ok_sat {r : Row} {x : Nat → ℚ} {e : ℚ} (h : RowOK r x e) (he : strictRel r.rel = true → 0 < e) : RowSat r x := by
  unfold RowOK at h
  unfold RowSat
  cases hh : r.rel <;> simp only [hh, strictRel] at h he ⊢ <;> simp at he <;> linarith

theorem sat_ok {r : Row} {x : Nat → ℚ} (h : RowSat r x) (hl : r.rel ≠ .ne ∧ r.rel ≠ .cost) : RowOK r x 0 := by
  unfold RowSat at h
  unfold RowOK
  cases hh : r.rel <;> simp only [hh] at h hl ⊢ <;> simp at hl <;> linarith

theorem plain_lin {n : Nat} {rs : List Row} (h : Plain n rs) : Lin rs := h.rel

/-- The standard form has a solution where the rows have one. -/
theorem feas_iff {n : Nat} {rs : List Row} {s : Std} (hp : Plain n rs) (h : StdOf n rs s) : s.Feas ↔ ∃ x, Sats rs x := by
  constructor
  · rintro ⟨v, v0, vs, ve⟩
    refine ⟨unsplit (signedOf rs) v, ?_⟩
    intro r hr
    apply ok_sat (h.sound hp v0 vs r hr)
    intro hst
    have hstr : strictOf rs = true := by
      unfold strictOf
      rw [List.any_eq_true]
      exact ⟨r, hr, hst⟩
    have he := h.eps
    rw [if_pos hstr] at he
    unfold epsVal
    rw [he]
    exact ve _ he
  · rintro ⟨x, hx⟩
    obtain ⟨e, e0, he⟩ := margin (plain_lin hp) hx
    obtain ⟨v, v0, vs, ve⟩ := h.complete hp (le_of_lt e0) he
    exact ⟨v, v0, vs, fun k hk => by rw [ve k hk]; exact e0⟩

/-- Without strict rows, any solution does. -/
theorem strictOf_false {rs : List Row} (h : ∀ r ∈ rs, strictRel r.rel = false) : strictOf rs = false := by
  unfold strictOf
  rw [List.any_eq_false]
  intro r hr
  simp [h r hr]

theorem flip_strict (q : Rel) : strictRel (flip q) = strictRel q := by cases q <;> rfl

theorem norm_strict (r : Row) : strictRel (norm r).rel = strictRel r.rel := by
  unfold norm
  split
  · exact flip_strict _
  · rfl

/-- After the first phase, if there are no `<>`. -/
theorem addNE_zero (t : Tab) (h : t.ur = []) : addNE t.ur.length 0 t = .ok t := by rw [h]; rfl

theorem unresolved_zero (fuel : Nat) (t : Tab) (h : t.ur = []) : unresolved fuel t.ur.length t = .ok (some t) := by rw [h]; rfl

/-- The rows that are left of the constraints, and that nothing is lost. -/
theorem tableau_cases {n : Nat} {rs : List Row} (hl : ∀ r ∈ rs, r.cols.length = n + 1) (h : Lin rs) :
    (standardTableau n rs = .ok none ∧ ∀ x, ¬ Sats rs x) ∨
    (standardTableau n rs = .ok (some none) ∧ ∀ x, Sats rs x) ∨
    (∃ s, standardTableau n rs = .ok (some (some s)) ∧
      Plain n ((rs.filter (fun r => !r.cols.all (· == 0))).map norm) ∧
      StdOf n ((rs.filter (fun r => !r.cols.all (· == 0))).map norm) s ∧
      ∀ x, Sats ((rs.filter (fun r => !r.cols.all (· == 0))).map norm) x ↔ Sats rs x) := by
  unfold standardTableau
  cases he : eliminateZeros rs with
  | none => left; exact ⟨rfl, eliminate_none he⟩
  | some rs' =>
    obtain ⟨a, b⟩ := eliminate_some he
    cases hr : rs' with
    | nil =>
      right; left
      refine ⟨rfl, ?_⟩
      intro x
      rw [← b x, hr]
      intro r hr'
      simp at hr'
    | cons r0 rest =>
      right; right
      rw [← hr]
      have hmem : ∀ r ∈ rs', r ∈ rs := by
        intro r hr'
        rw [a] at hr'
        exact (List.mem_filter.1 hr').1
      have hlin : Lin rs' := fun r hr' => h r (hmem r hr')
      have hp := norm_plain (fun r hr' => hl r (hmem r hr')) hlin
      obtain ⟨s, s1, s2⟩ := standardize_eq hp
      rw [← a]
      refine ⟨s, ?_, hp, s2, ?_⟩
      · have hm : mapOut standard1 rs' = .ok (rs'.map norm) := mapOut_eq (fun r hr' => standard1_eq (hlin r hr').2)
        rw [hr] at hm s1 ⊢
        simp only [bind, Out.bind, hm]
        rw [s1]
      · intro x
        rw [norm_sats, b x]

/-- Constraints without strict inequalities: an answer is right. -/
theorem solution_any {n : Nat} {rs : List Row} (hl : ∀ r ∈ rs, r.cols.length = n + 1) (h : Lin rs)
    (hst : ∀ r ∈ rs, strictRel r.rel = false) {fuel : Nat} {o : Option (List ℚ)} (hs : solution fuel n rs = .ok o) :
    o.isSome = true ↔ ∃ x, Sats rs x := by
  unfold solution at hs
  rcases tableau_cases hl h with ⟨h1, h2⟩ | ⟨h1, h2⟩ | ⟨s, h1, hp, h2, h3⟩
  · rw [h1] at hs
    simp only [bind, Out.bind] at hs
    injection hs with hs
    subst hs
    simp only [Option.isSome_none, Bool.false_eq_true, false_iff]
    rintro ⟨x, hx⟩
    exact h2 x hx
  · rw [h1] at hs
    simp only [bind, Out.bind] at hs
    injection hs with hs
    subst hs
    simp only [Option.isSome_some, true_iff]
    exact ⟨fun _ => 0, h2 _⟩
  · rw [h1] at hs
    simp only [bind, Out.bind] at hs
    have hno : strictOf ((rs.filter (fun r => !r.cols.all (· == 0))).map norm) = false := by
      apply strictOf_false
      intro r hr
      rw [List.mem_map] at hr
      obtain ⟨q, hq, rfl⟩ := hr
      rw [norm_strict]
      exact hst q (List.mem_filter.1 hq).1
    have heps : s.eps = none := by rw [h2.eps, hno]; rfl
    have hfeas := feas_iff hp h2
    have hwf := h2.wf hp
    cases hb : findBfs fuel s with
    | ok r =>
      rw [hb] at hs
      obtain ⟨f1, f2⟩ := findBfs_any hwf hb
      cases r with
      | none =>
        simp only [] at hs
        injection hs with hs
        subst hs
        simp only [Option.isSome_none, Bool.false_eq_true, false_iff]
        rintro ⟨x, hx⟩
        obtain ⟨v, v0, vs, _⟩ := hfeas.2 ⟨x, (h3 x).2 hx⟩
        exact f1 rfl ⟨v, v0, fun e he => by rw [heps] at he; exact absurd he (by simp), vs⟩
      | some t =>
        obtain ⟨t1, t2, t3, v, v0, vs⟩ := f2 t rfl
        simp only [] at hs
        have hur : t.ur = [] := t2.trans h2.ur
        rw [addNE_zero t hur] at hs
        have hsi : strictIneq t = false := by unfold strictIneq; rw [t1, heps]
        simp only [hsi, Bool.false_eq_true, if_false] at hs
        rw [unresolved_zero fuel t hur] at hs
        simp only [] at hs
        injection hs with hs
        subst hs
        simp only [Option.isSome_some, true_iff]
        obtain ⟨x, hx⟩ := hfeas.1 ⟨v, v0, vs, fun e he => by rw [heps] at he; exact absurd he (by simp)⟩
        exact ⟨x, (h3 x).1 hx⟩
    | fail => rw [hb] at hs; exact absurd hs (by simp)
    | die => rw [hb] at hs; exact absurd hs (by simp)
    | ub => rw [hb] at hs; exact absurd hs (by simp)
    | loop => rw [hb] at hs; exact absurd hs (by simp)

end Voss.Lp
