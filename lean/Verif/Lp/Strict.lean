import Verif.Lp.Drive

/-! The second phase: strict inequalities. -/
namespace Voss.Lp
open Tab

/-- The standard form has a solution in which `eps` is positive. -/
def Std.Feas (s : Std) : Prop := ∃ v : Nat → ℚ, (∀ j, 0 ≤ v j) ∧ Sol s.rows.length s.ncol s.mat v ∧ ∀ e, s.eps = some e → 0 < v e

theorem simplex_out (noeps : Bool) : ∀ (k : Nat) (t : Tab), t.simplex noeps k = .loop ∨ ∃ t' ub, t.simplex noeps k = .ok (t', ub) := by
  intro k
  induction k with
  | zero => intro t; exact Or.inl rfl
  | succ k ih =>
    intro t
    rw [simplex]
    simp only []
    split
    · exact Or.inr ⟨_, _, rfl⟩
    · split
      · exact Or.inr ⟨_, _, rfl⟩
      · exact ih _

theorem ready_strict_false {s : Std} {t : Tab} {β : Nat → Nat} (hs : s.WF) (h : Ready s t β) (hf : strictIneq t = false) : s.Feas := by
  unfold strictIneq at hf
  rw [h.eps] at hf
  cases he : s.eps with
  | none =>
    refine ⟨bv s.rows.length t.mat β, fun j => spread_nonneg h.pos j, (h.sol _).1 (sol_bv h.canon), ?_⟩
    intro e h'
    rw [he] at h'
    exact absurd h' (by simp)
  | some e =>
    rw [he] at hf
    simp only [List.any_eq_false] at hf
    have hz : ∀ i, 1 ≤ i → i ≤ s.rows.length → t.mat i e = 0 := by
      intro i a b
      have := hf i (by rw [List.mem_range'_1, h.wf.nrow]; omega)
      rw [mat_at h.wf b]
      by_cases h0 : t.at' i e = 0
      · exact h0
      · exact absurd (decide_eq_true h0) this
    obtain ⟨e1, e2⟩ := hs.eps e he
    refine ⟨ray s.rows.length t.mat β e 1, fun j => ray_nonneg h.pos (fun i a b => le_of_eq (hz i a b)) (by norm_num) j,
      (h.sol _).1 (sol_ray h.canon e1 e2 1), ?_⟩
    intro e' h'
    rw [he] at h'
    injection h' with h'
    subst h'
    unfold ray bv
    have hb : ∀ i, 1 ≤ i → i ≤ s.rows.length → β i ≠ e := by
      intro i a b heq
      exact h.basic i a b (by rw [he, heq])
    rw [spread_off hb, spread_off hb, if_pos rfl]
    norm_num

theorem ready_costEps {s : Std} {t : Tab} {β : Nat → Nat} (hs : s.WF) (h : Ready s t β) {e : Nat} (he : s.eps = some e) :
    (costEps t).WF s.rows.length s.ncol ∧ (costEps t).eps = some e ∧ (costEps t).ur = t.ur ∧ (costEps t).var = t.var ∧
    ∀ r c, c ≤ s.ncol → (costEps t).mat r c = if r = 0 ∧ c = e then -1 else t.mat r c := by
  obtain ⟨e1, e2⟩ := hs.eps e he
  have hte : t.eps = some e := h.eps.trans he
  have hc : costEps t = t.write 0 ((t.row 0).set e (-1)) := by unfold costEps; rw [hte]
  have hl : ((t.row 0).set e (-1)).length = s.ncol + 1 := by rw [List.length_set]; exact h.wf.row_len (Nat.zero_le _)
  have hw := h.wf.write (i := 0) _ hl
  rw [hc]
  refine ⟨hw, hte, rfl, rfl, ?_⟩
  intro r c hcn
  by_cases hr : r ≤ s.rows.length
  · rw [mat_at hw hr, mat_at h.wf hr, at', at', h.wf.row_write (Nat.zero_le _) _ hl hr]
    by_cases h0 : r = 0
    · rw [if_pos h0]
      subst h0
      have hlc : c < (t.row 0).length := by rw [h.wf.row_len (Nat.zero_le _)]; omega
      rw [List.getD_eq_getElem _ _ (by rw [List.length_set]; exact hlc), List.getElem_set, List.getD_eq_getElem _ _ hlc]
      by_cases hce : c = e
      · rw [if_pos hce.symm, if_pos ⟨rfl, hce⟩]
      · rw [if_neg (fun x => hce x.symm), if_neg (fun x => hce x.2)]
    · rw [if_neg h0, if_neg (fun x => h0 x.1)]
  · unfold mat
    have h2 : ¬(r = 0 ∧ c = e) := by rintro ⟨x, _⟩; omega
    rw [if_neg h2, if_neg (by rw [hw.nrow]; exact hr), if_neg (by rw [h.wf.nrow]; exact hr)]

theorem ready_solve {s : Std} {t : Tab} {β : Nat → Nat} (hs : s.WF) (h : Ready s t β) (hf : strictIneq t = true) {fuel : Nat} :
    solveStrict fuel t = .loop ∨ ∃ r, solveStrict fuel t = .ok r ∧ (r.isSome = true ↔ s.Feas) ∧
      ∀ t', r = some t' → t'.ur = t.ur ∧ t'.var = t.var := by
  obtain ⟨e, he⟩ : ∃ e, s.eps = some e := by
    unfold strictIneq at hf
    rw [h.eps] at hf
    cases hh : s.eps with
    | none => rw [hh] at hf; exact absurd hf (by simp)
    | some e => exact ⟨e, rfl⟩
  obtain ⟨e1, e2⟩ := hs.eps e he
  obtain ⟨w1, w2, w3, w4, w5⟩ := ready_costEps hs h he
  unfold solveStrict
  rcases simplex_out false fuel (costEps t) with hl | ⟨t', ub, hr⟩
  · left; rw [hl]; rfl
  right
  rw [hr]
  refine ⟨_, rfl, ?_, ?_⟩
  rotate_left
  · intro t'' ht
    have hinv := simplex_inv false (some e) (fun _ => True) (fun _ _ _ _ _ _ _ => trivial) fuel (costEps t) t' ub β w1 w2
      (by
        intro i a b
        refine ⟨(h.canon i a b).1, (h.canon i a b).2.1, ?_⟩
        intro r hr'
        rw [w5 r _ (h.canon i a b).2.1, if_neg, (h.canon i a b).2.2 r hr']
        rintro ⟨_, x⟩
        exact h.basic i a b (by rw [he, x]))
      (by
        intro i a b
        rw [w5 i 0 (Nat.zero_le _), if_neg (by omega)]
        exact h.pos i a b) (by simp) trivial hr
    obtain ⟨_, _, _, q3, q4, _⟩ := hinv
    split at ht
    · injection ht with ht
      rw [← ht]
      exact ⟨q3.trans w3, q4.trans w4⟩
    · exact absurd ht (by simp)
  have hres0 : ∀ v, res s.ncol (costEps t).mat 0 v = - v e := by
    intro v
    unfold res
    rw [w5 0 0 (Nat.zero_le _), if_neg (by omega), h.cost 0 (Nat.zero_le _)]
    rw [sm_congr (g := fun j => if e = j then - v j else 0)
      (by
        intro j _ j2
        rw [w5 0 j j2]
        by_cases hj : j = e
        · rw [if_pos ⟨rfl, hj⟩, if_pos hj.symm]; ring
        · rw [if_neg (fun x => hj x.2), if_neg (fun x => hj x.symm), h.cost j j2, zero_mul]), sm_pick (fun j => - v j) e1 e2]
    ring
  have hsol0 : ∀ v, Sol s.rows.length s.ncol (costEps t).mat v ↔ Sol s.rows.length s.ncol s.mat v := by
    intro v
    rw [← h.sol]
    have : ∀ i, 1 ≤ i → res s.ncol (costEps t).mat i v = res s.ncol t.mat i v := by
      intro i a
      unfold res
      rw [w5 i 0 (Nat.zero_le _), if_neg (by omega)]
      congr 1
      apply sm_congr
      intro j _ j2
      rw [w5 i j j2, if_neg (by omega)]
    unfold Sol
    constructor
    · intro hh i a b; rw [← this i a]; exact hh i a b
    · intro hh i a b; rw [this i a]; exact hh i a b
  obtain ⟨β', q1, q2, q3, q4, q5, q6, q7, q8, q9, q10⟩ := simplex_inv false (some e)
    (fun A => (∀ v, Sol s.rows.length s.ncol A v ↔ Sol s.rows.length s.ncol s.mat v) ∧
      ∀ v, Sol s.rows.length s.ncol A v → res s.ncol A 0 v = - v e)
    (by
      rintro A i j i1 i2 hp ⟨a, b⟩
      refine ⟨fun v => by rw [sol_piv i1 i2 hp]; exact a v, ?_⟩
      intro v hv
      rw [sol_piv i1 i2 hp] at hv
      rw [obj_piv i1 i2 hv]
      exact b v hv) fuel (costEps t) t' ub β w1 w2
    (by
      intro i a b
      refine ⟨(h.canon i a b).1, (h.canon i a b).2.1, ?_⟩
      intro r hr'
      rw [w5 r _ (h.canon i a b).2.1, if_neg, (h.canon i a b).2.2 r hr']
      rintro ⟨_, x⟩
      exact h.basic i a b (by rw [he, x]))
    (by
      intro i a b
      rw [w5 i 0 (Nat.zero_le _), if_neg (by omega)]
      exact h.pos i a b) (by simp) ⟨hsol0, fun v _ => hres0 v⟩ hr
  obtain ⟨p1, p2⟩ := q8
  have hval : bv s.rows.length t'.mat β' e = t'.mat 0 0 := by
    have h1 := p2 _ (sol_bv q5)
    rw [obj_bv q5] at h1
    linarith
  have hge : 0 ≤ t'.mat 0 0 := by rw [← hval]; exact spread_nonneg q6 _
  have h00 : t'.mat 0 0 = t'.at' 0 0 := mat_at q1 (Nat.zero_le _) 0
  unfold isFeasible
  by_cases hpos : 0 < t'.at' 0 0 ∨ ub = true
  · rw [if_pos hpos]
    refine ⟨fun _ => ?_, fun _ => rfl⟩
    cases ub with
    | false =>
      have hp' : 0 < t'.at' 0 0 := by simpa using hpos
      refine ⟨bv s.rows.length t'.mat β', fun j => spread_nonneg q6 j, (p1 _).1 (sol_bv q5), ?_⟩
      intro e' h'
      rw [he] at h'
      injection h' with h'
      subst h'
      rw [hval, h00]
      exact hp'
    | true =>
      obtain ⟨j, j1, j2, j3, _, j5⟩ := q10 rfl
      have hx : 0 ≤ 1 / (- t'.mat 0 j) := div_nonneg (by norm_num) (by linarith)
      refine ⟨ray s.rows.length t'.mat β' j (1 / (- t'.mat 0 j)), fun k => ray_nonneg q6 j5 hx k,
        (p1 _).1 (sol_ray q5 j1 j2 _), ?_⟩
      intro e' h'
      rw [he] at h'
      injection h' with h'
      subst h'
      have h1 := p2 _ (sol_ray q5 j1 j2 (1 / (- t'.mat 0 j)))
      rw [obj_ray q5 j1 j2] at h1
      have hj : t'.mat 0 j ≠ 0 := ne_of_lt j3
      have h3 : 1 / (- t'.mat 0 j) * t'.mat 0 j = -1 := by field_simp
      rw [h3] at h1
      linarith
  · rw [if_neg hpos]
    have hz : t'.at' 0 0 = 0 := by
      rw [← h00]
      apply le_antisymm _ hge
      rw [h00]
      exact not_lt.1 (fun x => hpos (Or.inl x))
    have hubf : ub = false := by
      cases ub with
      | false => rfl
      | true => exact absurd (Or.inr rfl) hpos
    rw [if_pos hz]
    simp only [Bool.false_eq_true, if_false, Option.isSome_none, false_iff]
    rintro ⟨v, v0, vs, ve⟩
    have hv := ve e he
    have h1 := p2 v ((p1 v).2 vs)
    unfold res at h1
    rw [h00, hz] at h1
    have h2 : 0 ≤ sm s.ncol (fun j => t'.mat 0 j * v j) := by
      apply sm_nonneg
      intro j j1 j2
      exact mul_nonneg (q9 hubf j j1 j2 (by simp)) (v0 j)
    linarith

theorem artTab_eps (s : Std) : (artTab s).eps = s.eps := rfl

/-- Driving out keeps unresolved rows, `eps` and labels, whatever else happens. -/
theorem clear_keeps (i j : Nat) : ∀ (ks : List Nat) (t : Tab), (ks.foldl (clear i j) t).eps = t.eps ∧
    (ks.foldl (clear i j) t).ur = t.ur ∧ (ks.foldl (clear i j) t).var = t.var := by
  intro ks
  induction ks with
  | nil => intro t; exact ⟨rfl, rfl, rfl⟩
  | cons k ks ih =>
    intro t
    rw [List.foldl_cons]
    obtain ⟨a, b, c⟩ := ih (clear i j t k)
    rw [a, b, c]
    unfold clear
    split <;> exact ⟨rfl, rfl, rfl⟩

theorem pivot_keeps (t : Tab) (i j : Nat) : (t.pivot i j).eps = t.eps ∧ (t.pivot i j).ur = t.ur ∧ (t.pivot i j).var = t.var := by
  unfold pivot
  exact clear_keeps i j _ _

theorem drive_keeps (b : List Nat) : ∀ (is : List Nat) (t t' : Tab), driveGo b t is = .ok t' →
    t'.eps = t.eps ∧ t'.ur = t.ur ∧ t'.var = t.var := by
  intro is
  induction is with
  | nil => intro t t' h; rw [driveGo] at h; injection h with h; rw [h]; exact ⟨rfl, rfl, rfl⟩
  | cons i is ih =>
    intro t t' h
    rw [driveGo] at h
    split at h
    · split at h
      · split at h
        · split at h
          · exact absurd h (by simp)
          · obtain ⟨a, b', c⟩ := ih _ _ h
            exact ⟨a, b', c⟩
        · exact absurd h (by simp)
      · obtain ⟨a, b', c⟩ := ih _ _ h
        obtain ⟨a', b'', c'⟩ := pivot_keeps t (b.getD i 0) _
        exact ⟨a.trans a', b'.trans b'', c.trans c'⟩
    · exact ih _ _ h

/-- The first phase, for any rows: if it ends, it ends right. -/
theorem findBfs_any {s : Std} (hs : s.WF) {fuel : Nat} {r : Option Tab} (h : findBfs fuel s = .ok r) :
    (r = none → ¬ ∃ v : Nat → ℚ, (∀ j, 0 ≤ v j) ∧ (∀ e, s.eps = some e → v e = 0) ∧ Sol s.rows.length s.ncol s.mat v) ∧
    (∀ t, r = some t → t.eps = s.eps ∧ t.ur = s.ur ∧ t.var = s.var ∧
      ∃ v : Nat → ℚ, (∀ j, 0 ≤ v j) ∧ Sol s.rows.length s.ncol s.mat v) := by
  unfold findBfs at h
  rcases simplex_out true fuel (artTab s) with hl | ⟨t, ub, hr⟩
  · rw [hl] at h
    exact absurd h (by simp [bind, Out.bind])
  · rw [hr] at h
    obtain ⟨hub, ⟨β, hd⟩, hn⟩ := first_phase hs hr
    subst hub
    have h00 : t.mat 0 0 = t.at' 0 0 := mat_at hd.wf (Nat.zero_le _) 0
    simp only [bind, Out.bind, Bool.false_eq_true, if_false] at h
    by_cases h0 : t.at' 0 0 = 0
    · rw [if_neg (by simpa using h0)] at h
      cases hdo : t.driveOut with
      | ok t' =>
        rw [hdo] at h
        simp only [] at h
        injection h with h
        subst h
        refine ⟨fun x => absurd x (by simp), ?_⟩
        intro t'' ht
        injection ht with ht
        subst ht
        obtain ⟨a, b, c⟩ := drive_keeps _ _ _ _ hdo
        refine ⟨a.trans hd.eps, b.trans hd.ur, c.trans hd.var, bv s.rows.length t.mat β, fun j => spread_nonneg hd.pos j, ?_⟩
        exact (hd.zero (by rw [h00]; exact h0)).2
      | fail => rw [hdo] at h; exact absurd h (by simp)
      | die => rw [hdo] at h; exact absurd h (by simp)
      | ub => rw [hdo] at h; exact absurd h (by simp)
      | loop => rw [hdo] at h; exact absurd h (by simp)
    · rw [if_pos (by simpa using h0)] at h
      injection h with h
      subst h
      refine ⟨fun _ => hn (by rw [h00]; exact h0), fun t ht => absurd ht (by simp)⟩

/-- The first phase, for independent rows. -/
theorem findBfs_ind {s : Std} (hs : s.WF) (hi : s.Ind) (fuel : Nat) : findBfs fuel s = .loop ∨
    (findBfs fuel s = .ok none) ∨ ∃ t β, findBfs fuel s = .ok (some t) ∧ Ready s t β := by
  unfold findBfs
  rcases simplex_out true fuel (artTab s) with hl | ⟨t, ub, hr⟩
  · left; rw [hl]; rfl
  · right
    rw [hr]
    obtain ⟨hub, ⟨β, hd⟩, hn⟩ := first_phase hs hr
    subst hub
    have h00 : t.mat 0 0 = t.at' 0 0 := mat_at hd.wf (Nat.zero_le _) 0
    simp only [bind, Out.bind, Bool.false_eq_true, if_false]
    by_cases h0 : t.at' 0 0 = 0
    · right
      rw [if_neg (by simpa using h0)]
      obtain ⟨t', β', d1, d2, d3, d4⟩ := drive_out hi hd (by rw [h00]; exact h0)
      rw [d1]
      refine ⟨_, β', rfl, ?_⟩
      rw [hd.wf.nrow]
      exact forget_ready d2 d3 d4
    · left
      rw [if_pos (by simpa using h0)]

end Voss.Lp
