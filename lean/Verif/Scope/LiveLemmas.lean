import Verif.Scope.RunLemmas

/-! Whole sessions: the relation to the scopes for fine sessions; what is found is visible, for all
sessions. -/

namespace Voss.Scope

open Spec (Frame newest remaining Env Ghost)

theorem begin_inv {s e g segs H} (h : Inv s e g segs H) :
    ∃ segs' H', Inv (beginADT s) (Spec.step e .opens) (g.step e .opens) segs' H' := by
  obtain ⟨p, hp⟩ : ∃ p, s.defs.head? = some p := by
    obtain ⟨rel, defs, _⟩ := h
    rw [defs]
    generalize e.scopes = fr at rel
    generalize g.hidden = hd at rel
    generalize s.adt = ad at rel
    cases rel with
    | @base seg _ _ hb hne =>
      cases seg with
      | nil => exact absurd rfl hne
      | cons p _ => exact ⟨p, by simp⟩
    | @cons seg _ _ rest _ _ _ p _ _ hp =>
      cases seg with
      | nil => exact ⟨p, by simpa using hp⟩
      | cons q _ => exact ⟨q, by simp⟩
  have hadt : (beginADT s).adt = p.id :: s.adt := by
    simp only [beginADT]
    cases hd : s.defs with
    | nil => rw [hd] at hp; simp at hp
    | cons q t =>
      rw [hd] at hp
      obtain rfl := Option.some.inj hp
      rfl
  refine ⟨[] :: segs, H, ?_, ?_, h.nodup, h.next, h.bound, h.hbound, h.vis, h.exp, h.ebound, h.fwd,
    h.pbound, h.tbl, ?_⟩
  · rw [hadt]
    refine Rel.cons ⟨⟨fun n => rfl, by simp, fun n _ => by simp [count]⟩, rfl, by simp, by simp⟩ h.rel ?_
    rw [← h.defs]
    exact hp
  · simp only [beginADT, List.flatten_cons, List.nil_append]
    exact h.defs
  · simp only [beginADT, List.length_cons]
    rw [h.level]
    omega

theorem step_inv {s e g segs H} (h : Inv s e g segs H) (o : Op) (hf : Spec.fine e g o = true) :
    ∃ segs' H', Inv (step s o) (Spec.step e o) (g.step e o) segs' H' := by
  cases o with
  | define n => exact define_inv h n hf
  | overload n =>
    obtain ⟨segs', h'⟩ := push_inv h n false
    exact ⟨segs', H, by simpa [Env.add, step, overload, Spec.step, Ghost.step] using h'⟩
  | forward n =>
    obtain ⟨segs', h'⟩ := push_inv h n true
    exact ⟨segs', H, by simpa [step, forward, Spec.step, Ghost.step] using h'⟩
  | types cs fs =>
    simp only [Spec.fine, Bool.and_eq_true, decide_eq_true_eq, List.all_eq_true] at hf
    obtain ⟨segs', h'⟩ := types_inv h hf.1 (cs ++ fs) hf.2
    refine ⟨segs', H, ?_⟩
    obtain ⟨a1, a2, a3, a4, a5, a6, a7, a8, a9, a10, a11, a12, a13⟩ := h'
    exact ⟨a1, a2, a3, a4, a5, a6, a7, a8, a9, a10, a11, a12, a13⟩
  | exp n => exact export_inv h n
  | opens => exact begin_inv h
  | closes ks => exact close_inv h ks hf

theorem run_inv {s e g segs H} (h : Inv s e g segs H) (os : List Op)
    (hf : Spec.fineFrom e g os = true) :
    ∃ g' segs' H', Inv (os.foldl step s) (os.foldl Spec.step e) g' segs' H' := by
  induction os generalizing s e g segs H with
  | nil => exact ⟨g, segs, H, h⟩
  | cons o os ih =>
    simp only [Spec.fineFrom, Bool.and_eq_true] at hf
    obtain ⟨segs', H', h'⟩ := step_inv h o hf.1
    exact ih h' hf.2

/-! ### All sessions -/

/-- What is found is a visible record of the name. -/
structure Live (s : St) : Prop where
  nodup : (s.defs.map (·.id)).Nodup
  bound : ∀ r ∈ s.defs, r.id < s.next
  live : ∀ n i, lookup s.tbl n = some i → ∃ r ∈ s.defs, r.id = i ∧ r.name = n ∧ r.visible = true

theorem modify_ids (i : Nat) (f : Fn → Fn) (hf : ∀ r, (f r).id = r.id) (l : List Fn) :
    (modify i f l).map (·.id) = l.map (·.id) := by
  simp only [modify, List.map_map]
  refine List.map_congr_left (fun r _ => ?_)
  simp only [Function.comp_def]
  split
  · exact hf r
  · rfl

/-- `update_stbl` for a record `i` that is in the list and not yet in the table. -/
theorem live_update {s : St} {i : Nat} {n : Name} {lvl : Int} (hn : (s.defs.map (·.id)).Nodup)
    (hb : ∀ r ∈ s.defs, r.id < s.next) (q : Fn) (hq : q ∈ s.defs) (hqi : q.id = i)
    (hqn : q.name = n) (hqv : q.visible = true)
    (hl : ∀ m j, lookup s.tbl m = some j → j ≠ i ∧ ∃ r ∈ s.defs, r.id = j ∧ r.name = m
      ∧ r.visible = true) : Live (updateStbl s i n lvl) := by
  unfold updateStbl
  cases hf : s.find n with
  | none =>
    refine ⟨hn, hb, fun m j hj => ?_⟩
    simp only [lookup] at hj
    by_cases hm : n = m
    · rw [if_pos hm] at hj
      obtain rfl := Option.some.inj hj
      exact ⟨q, hq, hqi, hqn.trans hm, hqv⟩
    · rw [if_neg hm] at hj
      exact (hl m j hj).2
  | some last =>
    obtain ⟨hli, r, hr, hri, hrn, hrv⟩ := hl n last hf
    have hg : s.get last = some r := by
      rw [← hri]
      exact get_mem hn hr
    dsimp only
    rw [if_neg hli, hg]
    dsimp only
    by_cases hlv : r.level = lvl
    · rw [if_pos hlv]
      refine ⟨?_, ?_, fun m j hj => ?_⟩
      · dsimp only
        rw [modify_ids last (fun q => { q with visible := false }) (fun _ => rfl) s.defs]
        exact hn
      · intro x hx
        obtain ⟨y, hy, rfl⟩ := List.mem_map.1 hx
        split
        · exact hb y hy
        · exact hb y hy
      · simp only [lookup] at hj
        have hkeep : ∀ x ∈ s.defs, x.id ≠ last → x ∈ modify last (fun q => { q with visible := false })
            s.defs := by
          intro x hx hne
          refine List.mem_map.2 ⟨x, hx, ?_⟩
          rw [if_neg hne]
        by_cases hm : n = m
        · rw [if_pos hm] at hj
          obtain rfl := Option.some.inj hj
          exact ⟨q, hkeep q hq (by rw [hqi]; exact Ne.symm hli), hqi, hqn.trans hm, hqv⟩
        · rw [if_neg hm, lookup_remove_ne _ (Ne.symm hm)] at hj
          obtain ⟨_, x, hx, hxi, hxn, hxv⟩ := hl m j hj
          refine ⟨x, hkeep x hx ?_, hxi, hxn, hxv⟩
          intro hxl
          have := id_unique hn hx hr (hxl.trans hri.symm)
          rw [this, hrn] at hxn
          exact hm hxn
    · rw [if_neg hlv]
      refine ⟨hn, hb, fun m j hj => ?_⟩
      simp only [lookup] at hj
      by_cases hm : n = m
      · rw [if_pos hm] at hj
        obtain rfl := Option.some.inj hj
        exact ⟨q, hq, hqi, hqn.trans hm, hqv⟩
      · rw [if_neg hm, lookup_remove_ne _ (Ne.symm hm)] at hj
        exact (hl m j hj).2

theorem live_old {s : St} (h : Live s) :
    ∀ m j, lookup s.tbl m = some j → j ≠ s.next ∧ ∃ r ∈ s.defs, r.id = j ∧ r.name = m
      ∧ r.visible = true := by
  intro m j hj
  obtain ⟨r, hr, h1, h2, h3⟩ := h.live m j hj
  have := h.bound r hr
  exact ⟨by omega, r, hr, h1, h2, h3⟩

theorem live_next {s : St} (h : Live s) : s.next ∉ s.defs.map (·.id) := by
  intro hc
  obtain ⟨r, hr, he⟩ := List.mem_map.1 hc
  have := h.bound r hr
  omega

theorem live_push {s : St} (h : Live s) (n : Name) (fwd : Bool) : Live (pushDef s n fwd) := by
  unfold pushDef
  refine live_update (q := ⟨s.next, n, true, false, fwd, s.level⟩) ?_ ?_ (by simp) rfl rfl rfl ?_
  · simp only [List.map_cons, List.nodup_cons]
    exact ⟨live_next h, h.nodup⟩
  · intro r hr
    rcases List.mem_cons.1 hr with rfl | hr
    · exact Nat.lt_succ_self _
    · exact Nat.lt_succ_of_lt (h.bound r hr)
  · intro m j hj
    obtain ⟨h0, r, hr, h1⟩ := live_old h m j hj
    exact ⟨h0, r, List.mem_cons_of_mem _ hr, h1⟩

theorem live_addCtor {s : St} (h : Live s) (n : Name) : Live (addCtor s n) := by
  unfold addCtor
  refine live_update (q := ⟨s.next, n, true, false, false, s.level⟩) ?_ ?_ (by simp) rfl rfl rfl ?_
  · simp only [List.map_append, List.map_cons, List.map_nil]
    rw [List.nodup_append]
    refine ⟨h.nodup, by simp, fun a ha b hb' hab => ?_⟩
    have hb' : b = s.next := by simpa using hb'
    exact live_next h (by rw [← hb', ← hab]; exact ha)
  · intro r hr
    rcases List.mem_append.1 hr with hr | hr
    · exact Nat.lt_succ_of_lt (h.bound r hr)
    · rw [List.mem_singleton.1 hr]
      exact Nat.lt_succ_self _
  · intro m j hj
    obtain ⟨h0, r, hr, h1⟩ := live_old h m j hj
    exact ⟨h0, r, List.mem_append_left _ hr, h1⟩

theorem live_modify {s : St} (h : Live s) (i : Nat) (f : Fn → Fn)
    (hf : ∀ r, (f r).id = r.id ∧ (f r).name = r.name ∧ (r.visible = true → (f r).visible = true)) :
    Live { s with defs := modify i f s.defs } := by
  refine ⟨?_, ?_, fun m j hj => ?_⟩
  · dsimp only
    rw [modify_ids _ _ (fun r => (hf r).1)]
    exact h.nodup
  · intro x hx
    obtain ⟨y, hy, rfl⟩ := List.mem_map.1 hx
    split
    · rw [(hf y).1]
      exact h.bound y hy
    · exact h.bound y hy
  · obtain ⟨r, hr, h1, h2, h3⟩ := h.live m j hj
    refine ⟨_, List.mem_map_of_mem hr, ?_⟩
    split
    · exact ⟨(hf r).1.trans h1, (hf r).2.1.trans h2, (hf r).2.2 h3⟩
    · exact ⟨h1, h2, h3⟩

theorem lookup_mem {t : List (Name × Nat)} {n : Name} {i : Nat} (h : lookup t n = some i) :
    (n, i) ∈ t := by
  rw [← newest_eq] at h
  exact newest_mem h

theorem openLoop_mem (l : List Fn) (t : List (Name × Nat)) (n : Name) (i : Nat)
    (h : (n, i) ∈ openLoop l t) : (n, i) ∈ t ∨ ∃ r ∈ l, r.id = i ∧ r.name = n ∧ r.visible = true := by
  induction l generalizing t with
  | nil => exact Or.inl h
  | cons r l ih =>
    rw [openLoop] at h
    by_cases hv : r.visible = true
    · rw [if_pos hv] at h
      cases hl : lookup t r.name with
      | none =>
        rw [hl] at h
        rcases ih _ h with h | ⟨q, hq, h'⟩
        · rcases List.mem_cons.1 h with h | h
          · simp only [Prod.mk.injEq] at h
            exact Or.inr ⟨r, by simp, h.2.symm, h.1.symm, hv⟩
          · exact Or.inl h
        · exact Or.inr ⟨q, by simp [hq], h'⟩
      | some j =>
        rw [hl] at h
        rcases ih _ h with h | ⟨q, hq, h'⟩
        · exact Or.inl h
        · exact Or.inr ⟨q, by simp [hq], h'⟩
    · rw [if_neg hv] at h
      rcases ih _ h with h | ⟨q, hq, h'⟩
      · exact Or.inl h
      · exact Or.inr ⟨q, by simp [hq], h'⟩

theorem closeLoop_mem (lvl : Int) (l : List Fn) (K : List Name) (t : List (Name × Nat))
    (cs : List Name) :
    (closeLoop lvl l K t cs).1.map (·.id) = l.map (·.id)
      ∧ ∀ n i, (n, i) ∈ (closeLoop lvl l K t cs).2.1 →
        (n, i) ∈ t ∨ ∃ r ∈ (closeLoop lvl l K t cs).1, r.id = i ∧ r.name = n ∧ r.visible = true := by
  induction l generalizing K t cs with
  | nil => exact ⟨rfl, fun n i h => Or.inl h⟩
  | cons r l ih =>
    rw [closeLoop]
    split
    · obtain ⟨i1, i2⟩ := ih K ((r.name, r.id) :: t) (cs.erase r.name)
      refine ⟨by simp [i1], fun n i h => ?_⟩
      rcases i2 n i h with h | ⟨q, hq, h'⟩
      · rcases List.mem_cons.1 h with h | h
        · simp only [Prod.mk.injEq] at h
          exact Or.inr ⟨_, List.mem_cons_self, h.2.symm, h.1.symm, rfl⟩
        · exact Or.inl h
      · exact Or.inr ⟨q, List.mem_cons_of_mem _ hq, h'⟩
    · split
      · obtain ⟨i1, i2⟩ := ih (K.filter (fun k => decide (k ≠ r.name))) ((r.name, r.id) :: t)
          (cs.erase r.name)
        refine ⟨by rw [List.map_cons, List.map_cons, i1], fun n i h => ?_⟩
        rcases i2 n i h with h | ⟨q, hq, h'⟩
        · rcases List.mem_cons.1 h with h | h
          · simp only [Prod.mk.injEq] at h
            exact Or.inr ⟨_, List.mem_cons_self, h.2.symm, h.1.symm, rfl⟩
          · exact Or.inl h
        · exact Or.inr ⟨q, List.mem_cons_of_mem _ hq, h'⟩
      · obtain ⟨i1, i2⟩ := ih K t (cs.erase r.name)
        refine ⟨by rw [List.map_cons, List.map_cons, i1], fun n i h => ?_⟩
        rcases i2 n i h with h | ⟨q, hq, h'⟩
        · exact Or.inl h
        · exact Or.inr ⟨q, List.mem_cons_of_mem _ hq, h'⟩

theorem live_end {s : St} (h : Live s) (ks : List Name) : Live (endADT s ks) := by
  unfold endADT
  cases hadt : s.adt with
  | nil => exact ⟨h.nodup, h.bound, h.live⟩
  | cons last rest =>
    dsimp only
    split
    · exact ⟨h.nodup, h.bound, h.live⟩
    · have hc := closeLoop_mem (s.level - 1) (s.defs.takeWhile (fun r => decide (r.id ≠ last))) ks []
        s.ctors
      generalize closeLoop (s.level - 1) (s.defs.takeWhile (fun r => decide (r.id ≠ last))) ks []
        s.ctors = res at hc
      obtain ⟨l, t, c⟩ := res
      obtain ⟨c1, c2⟩ := hc
      dsimp only at c1 c2 ⊢
      have hids : (l ++ s.defs.dropWhile (fun r => decide (r.id ≠ last))).map (·.id)
          = s.defs.map (·.id) := by
        rw [List.map_append, c1, ← List.map_append, List.takeWhile_append_dropWhile]
      refine ⟨by rw [hids]; exact h.nodup, fun r hr => ?_, fun n i hi => ?_⟩
      · have : r.id ∈ s.defs.map (·.id) := by
          rw [← hids]
          exact List.mem_map_of_mem hr
        obtain ⟨q, hq, he⟩ := List.mem_map.1 this
        rw [← he]
        exact h.bound q hq
      · rcases openLoop_mem _ _ _ _ (lookup_mem hi) with h' | ⟨r, hr, h'⟩
        · rcases c2 n i h' with h' | ⟨r, hr, h'⟩
          · cases h'
          · exact ⟨r, List.mem_append_left _ hr, h'⟩
        · exact ⟨r, List.mem_append_right _ hr, h'⟩

theorem live_step {s : St} (h : Live s) (o : Op) : Live (step s o) := by
  cases o with
  | define n =>
    show Live (define s n)
    unfold define
    cases s.find n with
    | none => exact live_push h n false
    | some i =>
      dsimp only
      cases s.get i with
      | none => exact live_push h n false
      | some r =>
        dsimp only
        split
        · refine live_modify h i (fun q => ⟨q.id, q.name, true, false, false, q.level⟩)
            (fun r => ⟨rfl, rfl, fun _ => rfl⟩)
        · exact live_push h n false
  | overload n => exact live_push h n false
  | forward n => exact live_push h n true
  | types cs fs =>
    have : ∀ (ns : List Name) (s : St), Live s → Live (ns.foldl addCtor s) := by
      intro ns
      induction ns with
      | nil => exact fun s h => h
      | cons n ns ih => exact fun s h => ih _ (live_addCtor h n)
    obtain ⟨a, b, c⟩ := this (cs ++ fs) s h
    exact ⟨a, b, c⟩
  | exp n =>
    show Live (exportFun s n)
    unfold exportFun
    cases s.find n with
    | none => exact h
    | some i => exact live_modify h i _ (fun r => ⟨rfl, rfl, fun h => h⟩)
  | opens => exact ⟨h.nodup, h.bound, h.live⟩
  | closes ks => exact live_end h ks

theorem live_run {s : St} (h : Live s) (os : List Op) : Live (os.foldl step s) := by
  induction os generalizing s with
  | nil => exact h
  | cons o os ih => exact ih (live_step h o)

theorem live_start : Live start := by
  refine ⟨by simp [start], by simp [start], fun n i h => ?_⟩
  simp only [start, lookup] at h
  by_cases hn : "//DuMmY" = n
  · rw [if_pos hn] at h
    obtain rfl := Option.some.inj h
    exact ⟨_, List.mem_singleton.2 rfl, rfl, hn, rfl⟩
  · rw [if_neg hn] at h
    cases h

end Voss.Scope
