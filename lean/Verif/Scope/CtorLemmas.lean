import Verif.Scope.LiveLemmas

/-! A constructor of a type that is declared inside an abstract type is found after it. -/

namespace Voss.Scope

open Spec (Frame newest remaining Env Ghost)

/-! ### The program -/

theorem lookup_update {s : St} {i : Nat} {n : Name} {lvl : Int} (m : Name)
    (h : lookup s.tbl m ≠ none ∨ m = n) : lookup (updateStbl s i n lvl).tbl m ≠ none := by
  unfold updateStbl
  cases hf : s.find n with
  | none =>
    simp only [lookup]
    by_cases hm : n = m
    · rw [if_pos hm]; simp
    · rw [if_neg hm]
      exact h.resolve_right (fun e => hm e.symm)
  | some last =>
    dsimp only
    split
    · rcases h with h | rfl
      · exact h
      · rw [St.find] at hf
        rw [hf]
        simp
    · simp only [lookup]
      by_cases hm : n = m
      · rw [if_pos hm]; simp
      · rw [if_neg hm, lookup_remove_ne _ (Ne.symm hm)]
        exact h.resolve_right (fun e => hm e.symm)

theorem find_define (s : St) (n m : Name) (h : s.find m ≠ none ∨ m = n) :
    (define s n).find m ≠ none := by
  have hp : (pushDef s n false).find m ≠ none := by
    unfold pushDef
    exact lookup_update m h
  unfold define
  cases hf : s.find n with
  | none => exact hp
  | some i =>
    dsimp only
    cases s.get i with
    | none => exact hp
    | some r =>
      dsimp only
      split
      · rcases h with h | rfl
        · exact h
        · show s.find m ≠ none
          rw [hf]
          simp
      · exact hp

/-- A visible record of a name on the part of the list that `end_abstype` does not walk. -/
structure Marked (s : St) (mark : Nat) (n : Name) : Prop where
  live : Live s
  adt : s.adt.head? = some mark
  lt : mark < s.next
  mem : ∃ r ∈ s.defs.dropWhile (fun r => decide (r.id ≠ mark)), r.name = n ∧ r.visible = true

theorem dropWhile_modify (mark i : Nat) (f : Fn → Fn) (hf : ∀ r, (f r).id = r.id) (l : List Fn) :
    (modify i f l).dropWhile (fun r => decide (r.id ≠ mark))
      = modify i f (l.dropWhile (fun r => decide (r.id ≠ mark))) := by
  unfold modify
  rw [List.dropWhile_map]
  congr 2
  funext r
  simp only [Function.comp_def]
  split
  · rw [hf]
  · rfl

theorem dropWhile_sub {p : Fn → Bool} {l : List Fn} {r : Fn} (h : r ∈ l.dropWhile p) : r ∈ l :=
  (List.dropWhile_sublist p).subset h

theorem marked_push {s : St} {mark : Nat} {n m : Name} (h : Marked s mark n) (hm : m ≠ n)
    (fwd : Bool) : Marked (pushDef s m fwd) mark n := by
  have hlive := live_push h.live m fwd
  obtain ⟨r, hr, hrn, hrv⟩ := h.mem
  have hlt := h.lt
  have hdrop : r ∈ ((⟨s.next, m, true, false, fwd, s.level⟩ : Fn) :: s.defs).dropWhile
      (fun r => decide (r.id ≠ mark)) := by
    rw [List.dropWhile_cons_of_pos]
    · exact hr
    · simp only [decide_eq_true_eq]
      omega
  unfold pushDef at hlive ⊢
  unfold updateStbl at hlive ⊢
  cases hf : lookup s.tbl m with
  | none =>
    simp only [St.find, hf] at hlive ⊢
    exact ⟨hlive, h.adt, Nat.lt_succ_of_lt hlt, r, hdrop, hrn, hrv⟩
  | some last =>
    simp only [St.find, hf] at hlive ⊢
    split
    · rw [if_pos (by assumption)] at hlive
      exact ⟨hlive, h.adt, Nat.lt_succ_of_lt hlt, r, hdrop, hrn, hrv⟩
    · rw [if_neg (by assumption)] at hlive
      refine ⟨hlive, h.adt, Nat.lt_succ_of_lt hlt, ?_⟩
      dsimp only
      split
      · split
        · rw [dropWhile_modify mark last (fun q => { q with visible := false }) (fun _ => rfl)]
          refine ⟨r, List.mem_map.2 ⟨r, hdrop, ?_⟩, hrn, hrv⟩
          rw [if_neg]
          intro hl
          obtain ⟨q, hq, hqi, hqn, _⟩ := h.live.live m last hf
          have := id_unique h.live.nodup hq (dropWhile_sub hr) (hqi.trans hl.symm)
          rw [this, hrn] at hqn
          exact hm hqn.symm
        · exact ⟨r, hdrop, hrn, hrv⟩
      · exact ⟨r, hdrop, hrn, hrv⟩

theorem marked_define {s : St} {mark : Nat} {n m : Name} (h : Marked s mark n) (hm : m ≠ n) :
    Marked (define s m) mark n := by
  have hlive := live_step h.live (.define m)
  simp only [step] at hlive
  have hp := marked_push h hm false
  unfold define at hlive ⊢
  cases hf : s.find m with
  | none => exact hp
  | some i =>
    rw [hf] at hlive
    dsimp only at hlive ⊢
    cases hg : s.get i with
    | none => exact hp
    | some r =>
      rw [hg] at hlive
      dsimp only at hlive ⊢
      split
      · rw [if_pos (by assumption)] at hlive
        refine ⟨hlive, h.adt, h.lt, ?_⟩
        obtain ⟨q, hq, hqn, hqv⟩ := h.mem
        rw [dropWhile_modify mark i (fun q => ⟨q.id, q.name, true, false, false, q.level⟩)
          (fun _ => rfl)]
        refine ⟨_, List.mem_map_of_mem hq, ?_⟩
        split
        · exact ⟨hqn, rfl⟩
        · exact ⟨hqn, hqv⟩
      · exact hp

theorem marked_defines (ds : List Name) {s : St} {mark : Nat} {n : Name} (h : Marked s mark n)
    (hn : n ∉ ds) : Marked (ds.foldl define s) mark n := by
  induction ds generalizing s with
  | nil => exact h
  | cons d ds ih =>
    simp only [List.mem_cons, not_or] at hn
    exact ih (marked_define h (Ne.symm hn.1)) hn.2

theorem find_defines (ds : List Name) (s : St) (m : Name) (h : s.find m ≠ none ∨ m ∈ ds) :
    (ds.foldl define s).find m ≠ none := by
  induction ds generalizing s with
  | nil => simpa using h
  | cons d ds ih =>
    refine ih (define s d) ?_
    rcases h with h | h
    · exact Or.inl (find_define s d m (Or.inl h))
    · rcases List.mem_cons.1 h with h | h
      · exact Or.inl (find_define s d m (Or.inr h))
      · exact Or.inr h

/-- Before the type is declared. -/
structure Opened (s : St) (mark : Nat) : Prop where
  live : Live s
  adt : s.adt.head? = some mark
  lt : mark < s.next
  mem : ∃ r ∈ s.defs, r.id = mark

theorem define_keeps (s : St) (n : Name) :
    (define s n).adt = s.adt ∧ s.next ≤ (define s n).next
      ∧ ∀ r ∈ s.defs, ∃ q ∈ (define s n).defs, q.id = r.id := by
  have hu : ∀ (s : St) (i : Nat) (lvl : Int), (updateStbl s i n lvl).adt = s.adt
      ∧ (updateStbl s i n lvl).next = s.next
      ∧ ∀ r ∈ s.defs, ∃ q ∈ (updateStbl s i n lvl).defs, q.id = r.id := by
    intro s i lvl
    unfold updateStbl
    split
    · exact ⟨rfl, rfl, fun r hr => ⟨r, hr, rfl⟩⟩
    · split
      · exact ⟨rfl, rfl, fun r hr => ⟨r, hr, rfl⟩⟩
      · refine ⟨rfl, rfl, fun r hr => ?_⟩
        dsimp only
        split
        · split
          · refine ⟨_, List.mem_map_of_mem hr, ?_⟩
            split <;> rfl
          · exact ⟨r, hr, rfl⟩
        · exact ⟨r, hr, rfl⟩
  have hp : (pushDef s n false).adt = s.adt ∧ s.next ≤ (pushDef s n false).next
      ∧ ∀ r ∈ s.defs, ∃ q ∈ (pushDef s n false).defs, q.id = r.id := by
    unfold pushDef
    obtain ⟨h1, h2, h3⟩ := hu { s with
      defs := ⟨s.next, n, true, false, false, s.level⟩ :: s.defs
      next := s.next + 1 } s.next s.level
    exact ⟨h1, by rw [h2]; exact Nat.le_succ _, fun r hr => h3 r (List.mem_cons_of_mem _ hr)⟩
  unfold define
  split
  · split
    · split
      · refine ⟨rfl, Nat.le_refl _, fun r hr => ⟨_, List.mem_map_of_mem hr, ?_⟩⟩
        split <;> rfl
      · exact hp
    · exact hp
  · exact hp

theorem opened_defines (ds : List Name) {s : St} {mark : Nat} (h : Opened s mark) :
    Opened (ds.foldl define s) mark := by
  induction ds generalizing s with
  | nil => exact h
  | cons d ds ih =>
    obtain ⟨h1, h2, h3⟩ := define_keeps s d
    refine ih ⟨live_step h.live (.define d), h1 ▸ h.adt, Nat.lt_of_lt_of_le h.lt h2, ?_⟩
    obtain ⟨r, hr, hi⟩ := h.mem
    obtain ⟨q, hq, hqi⟩ := h3 r hr
    exact ⟨q, hq, hqi.trans hi⟩

theorem marked_ctor {s : St} {mark : Nat} (h : Opened s mark) (n : Name) :
    Marked (types s [n] []) mark n := by
  have hlive := live_step h.live (.types [n] [])
  simp only [step] at hlive
  refine ⟨hlive, ?_, ?_, ?_⟩
  · show (addCtor s n).adt.head? = some mark
    rw [← h.adt]
    unfold addCtor updateStbl
    dsimp only
    split
    · rfl
    · split <;> rfl
  · show mark < (addCtor s n).next
    have : (addCtor s n).next = s.next + 1 := by
      unfold addCtor updateStbl
      dsimp only
      split
      · rfl
      · split <;> rfl
    rw [this]
    exact Nat.lt_succ_of_lt h.lt
  · show ∃ r ∈ (addCtor s n).defs.dropWhile (fun r => decide (r.id ≠ mark)), r.name = n
      ∧ r.visible = true
    obtain ⟨q, hq, hqi⟩ := h.mem
    have hlast : (⟨s.next, n, true, false, false, s.level⟩ : Fn) ∈
        (s.defs ++ [(⟨s.next, n, true, false, false, s.level⟩ : Fn)]).dropWhile
          (fun r => decide (r.id ≠ mark)) := by
      have : ∀ l : List Fn, q ∈ l → ∃ l', (l ++ [(⟨s.next, n, true, false, false, s.level⟩ : Fn)]).dropWhile
          (fun r => decide (r.id ≠ mark)) = l' ++ [⟨s.next, n, true, false, false, s.level⟩] := by
        intro l
        induction l with
        | nil => intro h; cases h
        | cons a l ih =>
          intro hq
          by_cases ha : a.id = mark
          · refine ⟨a :: l, ?_⟩
            rw [List.cons_append, List.dropWhile_cons_of_neg (by simpa using ha)]
          · rw [List.cons_append, List.dropWhile_cons_of_pos (by simpa using ha)]
            rcases List.mem_cons.1 hq with rfl | hq
            · exact absurd hqi ha
            · exact ih hq
      obtain ⟨l', hl'⟩ := this s.defs hq
      rw [hl']
      simp
    unfold addCtor updateStbl
    cases hf : lookup s.tbl n with
    | none =>
      simp only [St.find, hf]
      exact ⟨_, hlast, rfl, rfl⟩
    | some last =>
      simp only [St.find, hf]
      split
      · exact ⟨_, hlast, rfl, rfl⟩
      · dsimp only
        split
        · split
          · rw [dropWhile_modify mark last (fun q => { q with visible := false }) (fun _ => rfl)]
            refine ⟨⟨s.next, n, true, false, false, s.level⟩, List.mem_map.2 ⟨_, hlast, ?_⟩, rfl, rfl⟩
            rw [if_neg]
            obtain ⟨q, hq, hqi, _⟩ := h.live.live n last hf
            have := h.live.bound q hq
            show s.next ≠ last
            omega
          · exact ⟨_, hlast, rfl, rfl⟩
        · exact ⟨_, hlast, rfl, rfl⟩

theorem find_ctor (s : St) (n m : Name) (h : s.find m ≠ none) : (types s [n] []).find m ≠ none := by
  show lookup (addCtor s n).tbl m ≠ none
  unfold addCtor
  exact lookup_update m (Or.inl h)

theorem openLoop_keeps (l : List Fn) (t : List (Name × Nat)) (n : Name)
    (h : lookup t n ≠ none ∨ ∃ r ∈ l, r.name = n ∧ r.visible = true) :
    lookup (openLoop l t) n ≠ none := by
  induction l generalizing t with
  | nil => simpa [openLoop] using h
  | cons r l ih =>
    rw [openLoop]
    by_cases hv : r.visible = true
    · rw [if_pos hv]
      cases hl : lookup t r.name with
      | none =>
        refine ih _ ?_
        by_cases hn : r.name = n
        · left
          simp [lookup, hn]
        · rcases h with h | ⟨q, hq, h1, h2⟩
          · left
            simpa [lookup, hn] using h
          · rcases List.mem_cons.1 hq with rfl | hq
            · exact absurd h1 hn
            · exact Or.inr ⟨q, hq, h1, h2⟩
      | some j =>
        refine ih _ ?_
        by_cases hn : r.name = n
        · left
          rw [← hn, hl]
          simp
        · rcases h with h | ⟨q, hq, h1, h2⟩
          · exact Or.inl h
          · rcases List.mem_cons.1 hq with rfl | hq
            · exact absurd h1 hn
            · exact Or.inr ⟨q, hq, h1, h2⟩
    · rw [if_neg hv]
      refine ih _ ?_
      rcases h with h | ⟨q, hq, h1, h2⟩
      · exact Or.inl h
      · rcases List.mem_cons.1 hq with rfl | hq
        · exact absurd h2 hv
        · exact Or.inr ⟨q, hq, h1, h2⟩

theorem marked_end {s : St} {mark : Nat} {n : Name} (h : Marked s mark n) (ks : List Name)
    (hk : ∀ k ∈ ks, s.find k ≠ none) : (endADT s ks).find n ≠ none := by
  unfold endADT
  cases hadt : s.adt with
  | nil =>
    have := h.adt
    rw [hadt] at this
    cases this
  | cons last rest =>
    have : last = mark := by
      have := h.adt
      rw [hadt] at this
      exact Option.some.inj this
    subst this
    dsimp only
    rw [if_neg]
    · show lookup (openLoop _ _) n ≠ none
      exact openLoop_keeps _ _ _ (Or.inr h.mem)
    · simp only [List.any_eq_true, not_exists, not_and, Option.isNone_iff_eq_none]
      exact hk

/-- The list of definitions is never empty. -/
theorem defs_ne (os : List Op) : (run os).defs ≠ [] := by
  have hm : ∀ (i : Nat) (f : Fn → Fn) (l : List Fn), l ≠ [] → modify i f l ≠ [] := by
    intro i f l hl hc
    exact hl (List.map_eq_nil_iff.1 hc)
  have hu : ∀ (s : St) (i : Nat) (n : Name) (lvl : Int), s.defs ≠ [] →
      (updateStbl s i n lvl).defs ≠ [] := by
    intro s i n lvl h
    unfold updateStbl
    split
    · exact h
    · split
      · exact h
      · dsimp only
        split
        · split
          · exact hm _ _ _ h
          · exact h
        · exact h
  have hp : ∀ (s : St) (n : Name) (b : Bool), (pushDef s n b).defs ≠ [] := by
    intro s n b
    unfold pushDef
    exact hu _ _ _ _ (by simp)
  have hs : ∀ (s : St) (o : Op), s.defs ≠ [] → (step s o).defs ≠ [] := by
    intro s o h
    cases o with
    | define n =>
      show (define s n).defs ≠ []
      unfold define
      split
      · split
        · split
          · exact hm _ _ _ h
          · exact hp _ _ _
        · exact hp _ _ _
      · exact hp _ _ _
    | overload n => exact hp _ _ _
    | forward n => exact hp _ _ _
    | types cs fs =>
      have : ∀ (ns : List Name) (s : St), s.defs ≠ [] → (ns.foldl addCtor s).defs ≠ [] := by
        intro ns
        induction ns with
        | nil => exact fun s h => h
        | cons n ns ih =>
          intro s h
          refine ih _ ?_
          unfold addCtor
          exact hu _ _ _ _ (by simp)
      exact this _ s h
    | exp n =>
      show (exportFun s n).defs ≠ []
      unfold exportFun
      split
      · exact h
      · exact hm _ _ _ h
    | opens => exact h
    | closes ks =>
      show (endADT s ks).defs ≠ []
      unfold endADT
      cases s.adt with
      | nil => exact h
      | cons last rest =>
        dsimp only
        split
        · exact h
        · have hc := (closeLoop_mem (s.level - 1) (s.defs.takeWhile (fun r => decide (r.id ≠ last)))
            ks [] s.ctors).1
          generalize closeLoop (s.level - 1) (s.defs.takeWhile (fun r => decide (r.id ≠ last))) ks []
            s.ctors = res at hc
          obtain ⟨l, t, c⟩ := res
          dsimp only at hc ⊢
          intro he
          rw [List.append_eq_nil_iff] at he
          have h1 : s.defs.takeWhile (fun r => decide (r.id ≠ last)) = [] := by
            rw [he.1] at hc
            exact List.map_eq_nil_iff.1 hc.symm
          have := List.takeWhile_append_dropWhile (p := fun r => decide (r.id ≠ last)) (l := s.defs)
          rw [h1, he.2] at this
          exact h this.symm
  have : ∀ (os : List Op) (s : St), s.defs ≠ [] → (os.foldl step s).defs ≠ [] := by
    intro os
    induction os with
    | nil => exact fun s h => h
    | cons o os ih => exact fun s h => ih _ (hs s o h)
  exact this os start (by simp [start])

theorem opened_begin (os : List Op) : ∃ mark, Opened (beginADT (run os)) mark := by
  have hl := live_run live_start os
  change Live (run os) at hl
  have hne := defs_ne os
  cases hd : (run os).defs with
  | nil => exact absurd hd hne
  | cons r l =>
    have hr : r ∈ (run os).defs := by rw [hd]; simp
    exact ⟨r.id, ⟨hl.nodup, hl.bound, hl.live⟩, by simp [beginADT, hd], hl.bound r hr,
      r, hr, rfl⟩

theorem foldl_define (ds : List Name) (s : St) :
    (ds.map Op.define).foldl step s = ds.foldl define s := by
  induction ds generalizing s with
  | nil => rfl
  | cons d ds ih => exact ih (define s d)

/-! ### The scopes -/

/-- The name has no definition in the outer scopes, and none that is exported in the inner one. -/
def Unknown (e : Env) (n : Name) : Prop :=
  ∃ f g fs, e.scopes = f :: g :: fs ∧ (∀ p ∈ f, p.1 = n → p.2 ∉ e.exported)
    ∧ (∀ p ∈ (g :: fs).flatten, p.1 ≠ n) ∧ ∀ i ∈ e.exported, i < e.next

theorem unknown_add {e : Env} {n : Name} (h : Unknown e n) (m : Name) : Unknown (e.add m) n := by
  obtain ⟨f, g, fs, h1, h2, h3, h4⟩ := h
  refine ⟨(m, e.next) :: f, g, fs, by simp [Env.add, h1], ?_, h3, ?_⟩
  · intro p hp hn
    rcases List.mem_cons.1 hp with rfl | hp
    · intro hc
      exact Nat.lt_irrefl _ (h4 _ hc)
    · exact h2 p hp hn
  · intro i hi
    exact Nat.lt_succ_of_lt (h4 i hi)

theorem unknown_define {e : Env} {n : Name} (h : Unknown e n) (m : Name) :
    Unknown (Spec.define e m) n := by
  unfold Spec.define
  split
  · split
    · exact h
    · exact unknown_add h m
  · exact unknown_add h m

theorem meaning_add (e : Env) (n m : Name) (h : e.meaning m ≠ none ∨ m = n) :
    (e.add n).meaning m ≠ none := by
  unfold Env.meaning Env.add
  cases hs : e.scopes with
  | nil =>
    dsimp only
    rw [List.flatten_cons, List.flatten_nil, List.append_nil, newest_cons]
    rcases h with h | rfl
    · rw [Env.meaning, hs] at h
      exact absurd rfl h
    · simp
  | cons f fs =>
    dsimp only
    rw [List.flatten_cons, List.cons_append, newest_cons]
    rcases h with h | rfl
    · rw [Env.meaning, hs, List.flatten_cons] at h
      split
      · simp
      · exact h
    · simp

theorem meaning_define (e : Env) (n m : Name) (h : e.meaning m ≠ none ∨ m = n) :
    (Spec.define e n).meaning m ≠ none := by
  unfold Spec.define
  cases hm : e.meaning n with
  | none => exact meaning_add e n m h
  | some i =>
    dsimp only
    split
    · rcases h with h | rfl
      · exact h
      · show e.meaning m ≠ none
        rw [hm]
        simp
    · exact meaning_add e n m h

theorem spec_defines (ds : List Name) (e : Env) (n m : Name) :
    (Unknown e n → Unknown ((ds.map Op.define).foldl Spec.step e) n)
      ∧ (e.meaning m ≠ none ∨ m ∈ ds → ((ds.map Op.define).foldl Spec.step e).meaning m ≠ none) := by
  induction ds generalizing e with
  | nil => exact ⟨fun h => h, fun h => by simpa using h⟩
  | cons d ds ih =>
    refine ⟨fun h => (ih (Spec.define e d)).1 (unknown_define h d), fun h => ?_⟩
    refine (ih (Spec.define e d)).2 ?_
    rcases h with h | h
    · exact Or.inl (meaning_define e d m (Or.inl h))
    · rcases List.mem_cons.1 h with h | h
      · exact Or.inl (meaning_define e d m (Or.inr h))
      · exact Or.inr h

theorem remaining_sub (E : List Nat) (ks : List Name) (f : Frame) :
    ∀ p ∈ remaining E ks f, p ∈ f ∧ (p.2 ∈ E ∨ p.1 ∈ ks) := by
  induction f generalizing ks with
  | nil => intro p hp; simp [remaining] at hp
  | cons q f ih =>
    obtain ⟨m, j⟩ := q
    intro p hp
    rw [remaining] at hp
    split at hp
    · rename_i hc
      rcases List.mem_cons.1 hp with rfl | hp
      · exact ⟨List.mem_cons_self, hc⟩
      · obtain ⟨h1, h2⟩ := ih _ p hp
        exact ⟨List.mem_cons_of_mem _ h1, h2.imp id (fun h => (List.mem_filter.1 h).1)⟩
    · obtain ⟨h1, h2⟩ := ih _ p hp
      exact ⟨List.mem_cons_of_mem _ h1, h2⟩

theorem newest_none {f : Frame} {n : Name} (h : ∀ p ∈ f, p.1 ≠ n) : newest f n = none := by
  cases hn : newest f n with
  | none => rfl
  | some i => exact absurd rfl (h _ (newest_mem hn))

theorem unknown_close {e : Env} {n : Name} (h : Unknown e n) (ks : List Name) (hn : n ∉ ks)
    (hk : ∀ k ∈ ks, e.meaning k ≠ none) : (Spec.step e (.closes ks)).meaning n = none := by
  obtain ⟨f, g, fs, h1, h2, h3, h4⟩ := h
  simp only [Spec.step, h1]
  rw [if_neg]
  · refine newest_none ?_
    intro p hp
    dsimp only at hp
    rw [List.flatten_cons, List.append_assoc, ← List.flatten_cons] at hp
    rcases List.mem_append.1 hp with hp | hp
    · obtain ⟨hp1, hp2⟩ := remaining_sub _ _ _ p hp
      intro he
      rcases hp2 with hp2 | hp2
      · exact h2 p hp1 he hp2
      · rw [he] at hp2
        exact hn hp2
    · exact h3 p hp
  · simp only [List.any_eq_true, not_exists, not_and, Option.isNone_iff_eq_none]
    exact hk

theorem unknown_begin {s e g segs H} (h : Inv s e g segs H) {n : Name} (hn : e.meaning n = none) :
    Unknown (Spec.step e .opens) n := by
  have hne : ∃ f fs, e.scopes = f :: fs := by
    obtain ⟨rel, _⟩ := h
    generalize e.scopes = fr at rel
    generalize g.hidden = hd at rel
    generalize s.adt = ad at rel
    cases rel with
    | base => exact ⟨_, _, rfl⟩
    | cons => exact ⟨_, _, rfl⟩
  obtain ⟨f, fs, hs⟩ := hne
  refine ⟨[], f, fs, by simp [Spec.step, hs], by simp, ?_, ?_⟩
  · intro p hp he
    rw [Env.meaning, hs] at hn
    have : ∀ (l : Frame), p ∈ l → newest l n ≠ none := by
      intro l
      induction l with
      | nil => intro h; cases h
      | cons q l ih =>
        obtain ⟨m, j⟩ := q
        intro hp
        rw [newest_cons]
        rcases List.mem_cons.1 hp with rfl | hp
        · rw [if_pos he]; simp
        · split
          · simp
          · exact ih hp
    exact this _ hp hn
  · intro i hi
    have := (h.ebound i hi).1
    rw [h.next] at this
    exact this

end Voss.Scope
