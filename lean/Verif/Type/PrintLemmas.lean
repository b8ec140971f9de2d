import Verif.Type.Print
import Verif.Type.DeclTake
/-
Lemmas about star counts.
-/
namespace Voss.TC

def annotL (s : Stars) (l : List Nat) : Stars := l.foldl (fun s v => (star s v).2) s

mutual
theorem annot_eq : ∀ (t : Ty) (s : Stars), annot s t = annotL s t.vars
  | .var v, s => by simp only [annot, Ty.vars, annotL, List.foldl]
  | .con _ ts, s => by simp only [annot, Ty.vars]; exact annots_eq ts s
theorem annots_eq : ∀ (ts : Tys) (s : Stars), annots s ts = annotL s ts.vars
  | .nil, s => by simp only [annots, Tys.vars, annotL, List.foldl]
  | .cons t ts, s => by
    simp only [annots, Tys.vars, annotL, List.foldl_append]
    rw [annot_eq t, annots_eq ts]
    rfl
end

mutual
theorem reset_cnt : ∀ (t : Ty) (s : Stars) w, (resetCnt s t).cnt w = if w ∈ t.vars then none else s.cnt w
  | .var v, s, w => by simp [resetCnt, Ty.vars]
  | .con _ ts, s, w => by simp only [resetCnt, Ty.vars]; exact reset_cnts ts s w
theorem reset_cnts : ∀ (ts : Tys) (s : Stars) w, (resetCnts s ts).cnt w = if w ∈ ts.vars then none else s.cnt w
  | .nil, s, w => by simp [resetCnts, Tys.vars]
  | .cons t ts, s, w => by
    simp only [resetCnts, Tys.vars, List.mem_append]
    rw [reset_cnts ts, reset_cnt t]
    by_cases h1 : w ∈ t.vars <;> by_cases h2 : w ∈ ts.vars <;> simp [h1, h2]
end

theorem star_cnt (s : Stars) (v w : Nat) :
    (star s v).2.cnt w = if w = v ∧ s.cnt v = none then some s.next else s.cnt w := by
  unfold star
  cases h : s.cnt v with
  | some k => simp
  | none => simp only; split <;> simp_all

theorem star_next (s : Stars) (v : Nat) : (star s v).2.next = if s.cnt v = none then s.next + 1 else s.next := by
  unfold star
  cases h : s.cnt v <;> simp

theorem star_fst (s : Stars) (v : Nat) : (star s v).2.cnt v = some (star s v).1 := by
  unfold star
  cases h : s.cnt v with
  | some k => simpa using h
  | none => simp

theorem star_keep {s : Stars} {v w k : Nat} (h : s.cnt w = some k) : (star s v).2.cnt w = some k := by
  rw [star_cnt, if_neg]
  · exact h
  · rintro ⟨rfl, e⟩
    rw [e] at h
    cases h

theorem annotL_keep {w k : Nat} : ∀ (l : List Nat) (s : Stars), s.cnt w = some k → (annotL s l).cnt w = some k
  | [], _, h => h
  | _ :: l, _, h => annotL_keep l _ (star_keep h)

theorem annotL_mem {w : Nat} : ∀ (l : List Nat) (s : Stars), w ∈ l → ((annotL s l).cnt w).isSome
  | v :: l, s, h => by
    rcases List.mem_cons.1 h with rfl | h
    · have : (annotL s (w :: l)).cnt w = some _ := annotL_keep l _ (star_fst s w)
      rw [this]; rfl
    · exact annotL_mem l _ h

theorem annotL_other {w : Nat} : ∀ (l : List Nat) (s : Stars), w ∉ l → (annotL s l).cnt w = s.cnt w
  | [], _, _ => rfl
  | v :: l, s, h => by
    show (annotL (star s v).2 l).cnt w = _
    rw [annotL_other l _ fun q => h (List.mem_cons_of_mem _ q), star_cnt, if_neg]
    rintro ⟨rfl, _⟩
    exact h (by simp)

/-- Corresponding states. -/
structure StarRel (r : Nat → Nat) (V : Nat → Prop) (s s' : Stars) : Prop where
  next : s.next = s'.next
  cnt : ∀ v, V v → s'.cnt (r v) = s.cnt v

theorem starRel_step {r V s s' v} (hr : ∀ v w, V v → V w → r v = r w → v = w) (h : StarRel r V s s') (hv : V v) :
    StarRel r V (star s v).2 (star s' (r v)).2 := by
  refine ⟨?_, fun w hw => ?_⟩
  · rw [star_next, star_next, h.next, h.cnt v hv]
  · rw [star_cnt, star_cnt, h.next, h.cnt v hv, h.cnt w hw]
    by_cases e : w = v
    · subst e; simp
    · have : r w ≠ r v := fun q => e (hr w v hw hv q)
      simp [e, this]

theorem starRel_annotL {r V} (hr : ∀ v w, V v → V w → r v = r w → v = w) : ∀ (l : List Nat) (s s' : Stars),
    StarRel r V s s' → (∀ v ∈ l, V v) → StarRel r V (annotL s l) (annotL s' (l.map r))
  | [], _, _, h, _ => h
  | v :: l, s, s', h, hl =>
    starRel_annotL hr l _ _ (starRel_step hr h (hl v (by simp))) fun w hw => hl w (List.mem_cons_of_mem _ hw)

/-- The number of a variable in the list. -/
def num (l : List Nat) (v : Nat) : Nat := ((annotL ⟨fun _ => none, 1⟩ l).cnt v).getD 0

theorem annotL_num {l : List Nat} {s : Stars} (hn : s.next = 1) (hs : ∀ v ∈ l, s.cnt v = none) {v : Nat} (hv : v ∈ l) :
    (annotL s l).cnt v = some (num l v) := by
  have := starRel_annotL (r := fun v => v) (V := fun v => v ∈ l) (fun _ _ _ _ h => h) l ⟨fun _ => none, 1⟩ s
    ⟨hn.symm, fun v hv => hs v hv⟩ fun v h => h
  rw [List.map_id'] at this
  rw [this.cnt v hv]
  have hsome := annotL_mem l ⟨fun _ => none, 1⟩ hv
  obtain ⟨k, hk⟩ := Option.isSome_iff_exists.1 hsome
  rw [num, hk]
  rfl

theorem num_map {l : List Nat} {r : Nat → Nat} (hr : ∀ v w, v ∈ l → w ∈ l → r v = r w → v = w) {v : Nat} (hv : v ∈ l) :
    num (l.map r) (r v) = num l v := by
  have := starRel_annotL (r := r) (V := fun v => v ∈ l) hr l ⟨fun _ => none, 1⟩ ⟨fun _ => none, 1⟩
    ⟨rfl, fun _ _ => rfl⟩ fun v h => h
  rw [num, num, this.cnt v hv]

structure StarInj (s : Stars) : Prop where
  lt : ∀ v k, s.cnt v = some k → k < s.next
  inj : ∀ v w k, s.cnt v = some k → s.cnt w = some k → v = w

theorem starInj_step {s : Stars} (h : StarInj s) (v : Nat) : StarInj (star s v).2 := by
  unfold star
  cases hv : s.cnt v with
  | some k => exact h
  | none =>
    refine ⟨fun w k hw => ?_, fun a b k ha hb => ?_⟩
    · simp only at hw
      split at hw
      · cases hw; exact Nat.lt_succ_self _
      · exact Nat.lt_succ_of_lt (h.lt w k hw)
    · simp only at ha hb
      split at ha <;> split at hb
      · next h1 h2 => rw [h1, h2]
      · cases ha
        exact absurd (h.lt b _ hb) (Nat.lt_irrefl _)
      · cases hb
        exact absurd (h.lt a _ ha) (Nat.lt_irrefl _)
      · exact h.inj a b k ha hb

theorem starInj_annotL : ∀ (l : List Nat) (s : Stars), StarInj s → StarInj (annotL s l)
  | [], _, h => h
  | v :: l, _, h => starInj_annotL l _ (starInj_step h v)

theorem num_inj {l : List Nat} {v w : Nat} (hv : v ∈ l) (hw : w ∈ l) (h : num l v = num l w) : v = w := by
  have hI := starInj_annotL l ⟨fun _ => none, 1⟩ ⟨(fun _ _ h => by cases h), (fun _ _ _ h => by cases h)⟩
  have h1 := annotL_num (s := ⟨fun _ => none, 1⟩) rfl (fun _ _ => rfl) hv
  have h2 := annotL_num (s := ⟨fun _ => none, 1⟩) rfl (fun _ _ => rfl) hw
  rw [← h] at h2
  exact hI.inj v w _ h1 h2

/-- The type with its variables numbered from left to right. -/
def canon (t : Ty) : Ty := t.sub fun v => .var (num t.vars v)

mutual
theorem sub_sub (ρ σ : Nat → Ty) : ∀ t : Ty, (t.sub ρ).sub σ = t.sub fun v => (ρ v).sub σ
  | .var _ => rfl
  | .con _ ts => by simp only [Ty.sub, subs_sub ρ σ ts]
theorem subs_sub (ρ σ : Nat → Ty) : ∀ ts : Tys, (ts.sub ρ).sub σ = ts.sub fun v => (ρ v).sub σ
  | .nil => rfl
  | .cons t ts => by simp only [Tys.sub, sub_sub ρ σ t, subs_sub ρ σ ts]
end

mutual
theorem sub_id : ∀ t : Ty, t.sub .var = t
  | .var _ => rfl
  | .con _ ts => by simp only [Ty.sub, subs_id ts]
theorem subs_id : ∀ ts : Tys, ts.sub .var = ts
  | .nil => rfl
  | .cons t ts => by simp only [Tys.sub, sub_id t, subs_id ts]
end

mutual
theorem vars_rename (r : Nat → Nat) : ∀ t : Ty, (t.sub fun v => .var (r v)).vars = t.vars.map r
  | .var _ => by simp [Ty.sub, Ty.vars]
  | .con _ ts => by simp only [Ty.sub, Ty.vars, vars_renames r ts]
theorem vars_renames (r : Nat → Nat) : ∀ ts : Tys, (ts.sub fun v => .var (r v)).vars = ts.vars.map r
  | .nil => by simp [Tys.sub, Tys.vars]
  | .cons t ts => by simp only [Tys.sub, Tys.vars, vars_rename r t, vars_renames r ts, List.map_append]
end

/-- `canon t` can be undone. -/
theorem canon_inv (t : Ty) : ∃ σ : Nat → Ty, t = (canon t).sub σ := by
  refine ⟨fun n => .var ((t.vars.find? fun v => num t.vars v == n).getD 0), ?_⟩
  rw [canon, sub_sub]
  conv => lhs; rw [← sub_id t]
  apply sub_congr
  intro v hv
  simp only [Ty.sub]
  cases h : t.vars.find? fun w => num t.vars w == num t.vars v with
  | none => exact absurd (List.find?_eq_none.1 h v hv) (by simp)
  | some w =>
    have h1 := List.find?_some h
    have h2 := List.mem_of_find?_eq_some h
    rw [num_inj hv h2 (by simpa using Eq.symm (by simpa using h1))]
    rfl

theorem canon_eq_iff (t t' : Ty) : canon t = canon t' ↔ Instance t t' ∧ Instance t' t := by
  constructor
  · intro h
    obtain ⟨σ, e⟩ := canon_inv t
    obtain ⟨σ', e'⟩ := canon_inv t'
    refine ⟨⟨fun v => ((Ty.var (num t.vars v)).sub σ'), ?_⟩, ⟨fun v => ((Ty.var (num t'.vars v)).sub σ), ?_⟩⟩
    · conv => lhs; rw [e', ← h, canon, sub_sub]
    · conv => lhs; rw [e, h, canon, sub_sub]
  · rintro ⟨⟨ρ, h⟩, ⟨ρ', h'⟩⟩
    have key : ∀ v ∈ t.vars, (ρ v).sub ρ' = .var v := by
      have : t.sub (fun v => (ρ v).sub ρ') = t.sub .var := by rw [sub_id, ← sub_sub, ← h, ← h']
      exact sub_agree t this
    have hvar : ∀ v ∈ t.vars, ∃ w, ρ v = .var w := by
      intro v hv
      have := key v hv
      cases hr : ρ v with
      | var w => exact ⟨w, rfl⟩
      | con o ts => rw [hr] at this; simp [Ty.sub] at this
    let r : Nat → Nat := fun v => match ρ v with | .var w => w | _ => 0
    have hr : ∀ v ∈ t.vars, ρ v = .var (r v) := by
      intro v hv
      obtain ⟨w, hw⟩ := hvar v hv
      simp [r, hw]
    have ht' : t' = t.sub fun v => .var (r v) := by rw [h]; exact sub_congr t hr
    have hinj : ∀ v w, v ∈ t.vars → w ∈ t.vars → r v = r w → v = w := by
      intro v w hv hw e
      have h1 := key v hv
      have h2 := key w hw
      rw [hr v hv, e] at h1
      rw [hr w hw, h1] at h2
      exact (Ty.var.inj h2)
    rw [canon, canon, ht', vars_rename, sub_sub]
    apply sub_congr
    intro v hv
    simp only [Ty.sub, num_map hinj hv]

mutual
theorem eqStar_iff (f : Nat → Nat) (s : Stars) : ∀ t t' : Ty, (∀ v ∈ t.vars, s.cnt v = some (f v)) →
    (∀ v ∈ t'.vars, s.cnt v = some (f v)) →
    (eqStar s t t').2 = s ∧ ((eqStar s t t').1 = true ↔ (t.sub fun v => .var (f v)) = t'.sub fun v => .var (f v))
  | .var v, .var w, h, h' => by
    have hv := h v (by simp [Ty.vars])
    have hw := h' w (by simp [Ty.vars])
    rw [eqStar.eq_def]
    simp [star, hv, hw, Ty.sub]
  | .con o ts, .con o' ts', h, h' => by
    rw [eqStar.eq_def]
    simp only
    have ih := eqStars_iff f s ts ts' (by simpa [Ty.vars] using h) (by simpa [Ty.vars] using h')
    by_cases e : o = o'
    · simp only [e, ne_eq, not_true_eq_false, if_false, Ty.sub, Ty.con.injEq, true_and]
      exact ih
    · simp [e, Ty.sub]
  | .var _, .con _ _, _, _ => by rw [eqStar.eq_def]; simp [Ty.sub]
  | .con _ _, .var _, _, _ => by rw [eqStar.eq_def]; simp [Ty.sub]
theorem eqStars_iff (f : Nat → Nat) (s : Stars) : ∀ ts ts' : Tys, (∀ v ∈ ts.vars, s.cnt v = some (f v)) →
    (∀ v ∈ ts'.vars, s.cnt v = some (f v)) →
    (eqStars s ts ts').2 = s ∧ ((eqStars s ts ts').1 = true ↔ (ts.sub fun v => .var (f v)) = ts'.sub fun v => .var (f v))
  | .nil, .nil, _, _ => by rw [eqStars.eq_def]; simp
  | .cons t ts, .cons t' ts', h, h' => by
    have ih := eqStar_iff f s t t' (fun v hv => h v (by simp [Tys.vars, hv])) fun v hv => h' v (by simp [Tys.vars, hv])
    have ih2 := eqStars_iff f s ts ts' (fun v hv => h v (by simp [Tys.vars, hv])) fun v hv => h' v (by simp [Tys.vars, hv])
    rw [eqStars.eq_def]
    simp only
    cases he : eqStar s t t' with
    | mk b s1 =>
      rw [he] at ih
      simp only at ih
      obtain ⟨rfl, ih⟩ := ih
      cases b with
      | true =>
        simp only [Tys.sub, Tys.cons.injEq, ih.1 rfl, true_and]
        exact ih2
      | false =>
        have hn : ¬ (t.sub fun v => .var (f v)) = t'.sub fun v => .var (f v) := fun q => by cases ih.2 q
        simp [Tys.sub, hn]
  | .nil, .cons _ _, _, _ => by rw [eqStars.eq_def]; simp [Tys.sub]
  | .cons _ _, .nil, _, _ => by rw [eqStars.eq_def]; simp [Tys.sub]
end

theorem forwardOk_iff (s : Stars) (t t' : Ty) (hd : ∀ v ∈ t.vars, v ∉ t'.vars) :
    forwardOk s t t' = true ↔ canon t = canon t' := by
  unfold forwardOk
  simp only [annot_eq]
  generalize hs1 : ({ resetCnt s t with next := 1 } : Stars) = s1
  generalize hs2 : ({ resetCnt (annotL s1 t.vars) t' with next := 1 } : Stars) = s2
  have h1 : ∀ v ∈ t.vars, (annotL s1 t.vars).cnt v = some (num t.vars v) := by
    intro v hv
    refine annotL_num (by rw [← hs1]) (fun w hw => ?_) hv
    rw [← hs1]
    show (resetCnt s t).cnt w = none
    rw [reset_cnt, if_pos hw]
  have h2 : ∀ v ∈ t'.vars, (annotL s2 t'.vars).cnt v = some (num t'.vars v) := by
    intro v hv
    refine annotL_num (by rw [← hs2]) (fun w hw => ?_) hv
    rw [← hs2]
    show (resetCnt _ t').cnt w = none
    rw [reset_cnt, if_pos hw]
  have h3 : ∀ v ∈ t.vars, (annotL s2 t'.vars).cnt v = some (num t.vars v) := by
    intro v hv
    rw [annotL_other _ _ (hd v hv), ← hs2]
    show (resetCnt _ t').cnt v = _
    rw [reset_cnt, if_neg (hd v hv)]
    exact h1 v hv
  let f : Nat → Nat := fun v => if v ∈ t.vars then num t.vars v else num t'.vars v
  have f1 : ∀ v ∈ t.vars, f v = num t.vars v := fun v hv => by simp [f, hv]
  have f2 : ∀ v ∈ t'.vars, f v = num t'.vars v := fun v hv => by
    have : v ∉ t.vars := fun q => hd v q hv
    simp [f, this]
  rw [(eqStar_iff f _ t t' (fun v hv => by rw [f1 v hv]; exact h3 v hv) fun v hv => by rw [f2 v hv]; exact h2 v hv).2]
  rw [canon, canon, sub_congr t (ρ' := fun v => .var (num t.vars v)) fun v hv => by rw [f1 v hv],
    sub_congr t' (ρ' := fun v => .var (num t'.vars v)) fun v hv => by rw [f2 v hv]]

end Voss.TC
