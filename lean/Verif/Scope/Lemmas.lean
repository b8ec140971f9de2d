import Verif.Scope.Spec

/-! Lemmas about the symbol table: lists, the relation between records and scopes. -/

namespace Voss.Scope

open Spec (Frame newest remaining Env Ghost)

/-- The first visible definition of a name in a list of records. -/
def firstVis (l : List Fn) (n : Name) : Option Nat :=
  (l.find? (fun r => r.visible && decide (r.name = n))).map (·.id)

/-- The number of visible definitions of a name. -/
def count (l : List Fn) (n : Name) : Nat :=
  (l.filter (fun r => r.visible && decide (r.name = n))).length

def key (r : Fn) : Name × Nat := (r.name, r.id)

def hide (q : Fn) : Fn := { q with visible := false }

/-! ### Lookups -/

theorem newest_eq (f : Frame) (n : Name) : newest f n = lookup f n := by
  induction f with
  | nil => rfl
  | cons p f ih =>
    obtain ⟨m, i⟩ := p
    simp only [newest, lookup, List.find?_cons] at ih ⊢
    by_cases h : m = n
    · simp [h]
    · simp [h, ih]

theorem newest_append (f g : Frame) (n : Name) :
    newest (f ++ g) n = (newest f n).or (newest g n) := by
  simp only [newest, List.find?_append]
  cases f.find? (fun p => decide (p.1 = n)) <;> simp

theorem newest_cons (m : Name) (i : Nat) (f : Frame) (n : Name) :
    newest ((m, i) :: f) n = if m = n then some i else newest f n := by
  simp only [newest, List.find?_cons]
  by_cases h : m = n <;> simp [h]

theorem firstVis_append (l r : List Fn) (n : Name) :
    firstVis (l ++ r) n = (firstVis l n).or (firstVis r n) := by
  simp only [firstVis, List.find?_append]
  cases l.find? (fun p => p.visible && decide (p.name = n)) <;> simp

theorem firstVis_cons (r : Fn) (l : List Fn) (n : Name) :
    firstVis (r :: l) n = if r.visible ∧ r.name = n then some r.id else firstVis l n := by
  simp only [firstVis, List.find?_cons]
  by_cases h : r.visible = true ∧ r.name = n
  · simp [h.1, h.2]
  · rw [if_neg h]
    have : (r.visible && decide (r.name = n)) = false := by
      rw [Bool.eq_false_iff]
      simpa using h
    rw [this]

theorem lookup_remove_ne (t : List (Name × Nat)) {n m : Name} (h : m ≠ n) :
    lookup (remove t n) m = lookup t m := by
  induction t with
  | nil => rfl
  | cons p t ih =>
    obtain ⟨a, i⟩ := p
    by_cases ha : a = n
    · subst ha
      simp [remove, lookup, Ne.symm h]
    · by_cases hm : a = m
      · subst hm
        simp [remove, lookup, h]
      · simp [remove, lookup, ha, hm, ih]

theorem firstVis_some {l : List Fn} {n : Name} {i : Nat} (h : firstVis l n = some i) :
    ∃ r ∈ l, r.visible = true ∧ r.name = n ∧ r.id = i := by
  simp only [firstVis, Option.map_eq_some_iff] at h
  obtain ⟨r, hr, hi⟩ := h
  have := List.find?_some hr
  simp only [Bool.and_eq_true, decide_eq_true_eq] at this
  exact ⟨r, List.mem_of_find?_eq_some hr, this.1, this.2, hi⟩

theorem firstVis_none {l : List Fn} {n : Name} (h : firstVis l n = none) :
    ∀ r ∈ l, r.visible = true → r.name ≠ n := by
  simp only [firstVis, Option.map_eq_none_iff, List.find?_eq_none] at h
  intro r hr hv hn
  exact h r hr (by simp [hv, hn])

theorem count_cons (r : Fn) (l : List Fn) (n : Name) :
    count (r :: l) n = (if r.visible ∧ r.name = n then 1 else 0) + count l n := by
  simp only [count, List.filter_cons]
  by_cases h : r.visible = true ∧ r.name = n
  · simp [h.1, h.2]; omega
  · rw [if_neg h]
    have : (r.visible && decide (r.name = n)) = false := by
      rw [Bool.eq_false_iff]
      simpa using h
    simp [this]

theorem count_append (l r : List Fn) (n : Name) : count (l ++ r) n = count l n + count r n := by
  simp [count]

theorem count_zero {l : List Fn} {n : Name} : count l n = 0 ↔ firstVis l n = none := by
  simp [count, firstVis, List.find?_eq_none]

/-! ### Assigning to a record -/

theorem id_unique {l : List Fn} (h : (l.map (·.id)).Nodup) {a b : Fn} (ha : a ∈ l) (hb : b ∈ l)
    (e : a.id = b.id) : a = b := by
  induction l with
  | nil => cases ha
  | cons r l ih =>
    simp only [List.map_cons, List.nodup_cons] at h
    rcases List.mem_cons.1 ha with rfl | ha' <;> rcases List.mem_cons.1 hb with rfl | hb'
    · rfl
    · exact absurd (e ▸ List.mem_map_of_mem hb') h.1
    · exact absurd (e ▸ List.mem_map_of_mem ha') h.1
    · exact ih h.2 ha' hb'

theorem modify_absent {i : Nat} {f : Fn → Fn} {l : List Fn} (h : i ∉ l.map (·.id)) :
    modify i f l = l := by
  induction l with
  | nil => rfl
  | cons r l ih =>
    simp only [List.map_cons, List.mem_cons, not_or] at h
    simp only [modify, List.map_cons] at ih ⊢
    rw [if_neg (Ne.symm h.1), ih h.2]

theorem modify_append (i : Nat) (f : Fn → Fn) (l r : List Fn) :
    modify i f (l ++ r) = modify i f l ++ modify i f r := by
  simp [modify]

theorem firstVis_hide_ne {l : List Fn} {i : Nat} {n m : Name} (hm : m ≠ n)
    (h : ∀ r ∈ l, r.id = i → r.name = n) : firstVis (modify i hide l) m = firstVis l m := by
  induction l with
  | nil => rfl
  | cons r l ih =>
    have ih := ih (fun q hq => h q (List.mem_cons_of_mem _ hq))
    simp only [modify, List.map_cons] at ih ⊢
    rw [firstVis_cons, firstVis_cons, ih]
    by_cases hi : r.id = i
    · have hn := h r List.mem_cons_self hi
      rw [if_pos hi]
      have h1 : ¬ (r.visible = true ∧ r.name = m) := fun c => hm (c.2.symm.trans hn)
      rw [if_neg h1, if_neg]
      simp [hide]
    · rw [if_neg hi]

theorem count_hide_le (l : List Fn) (i : Nat) (n : Name) : count (modify i hide l) n ≤ count l n := by
  induction l with
  | nil => exact Nat.le_refl _
  | cons r l ih =>
    simp only [modify, List.map_cons] at ih ⊢
    rw [count_cons, count_cons]
    by_cases hi : r.id = i
    · rw [if_pos hi, if_neg (by simp [hide])]
      omega
    · rw [if_neg hi]
      omega

theorem count_hide {l : List Fn} {i : Nat} {n : Name} (h1 : count l n ≤ 1)
    (h : firstVis l n = some i) : count (modify i hide l) n = 0 := by
  induction l with
  | nil => simp [firstVis] at h
  | cons r l ih =>
    rw [firstVis_cons] at h
    rw [count_cons] at h1
    have e : modify i hide (r :: l) = (if r.id = i then hide r else r) :: modify i hide l := rfl
    rw [e, count_cons]
    by_cases hr : r.visible = true ∧ r.name = n
    · rw [if_pos hr] at h h1
      have hi : r.id = i := by simpa using h
      rw [if_pos hi, if_neg (by simp [hide])]
      have := count_hide_le l i n
      omega
    · rw [if_neg hr] at h h1
      rw [ih (by omega) h]
      by_cases hi : r.id = i
      · rw [if_pos hi, if_neg (by simp [hide])]
      · rw [if_neg hi, if_neg hr]

/-- The effect of `update_stbl` on the records of a scope: the visible definition of the name, if
there is one, is hidden. -/
def Hidden (n : Name) (l l' : List Fn) : Prop :=
  (l' = l ∧ firstVis l n = none) ∨ ∃ i, firstVis l n = some i ∧ l' = modify i hide l

/-- Records with the same fields except that some are no longer visible. -/
def Same (f : Fn → Fn) : Prop :=
  ∀ r, (f r).id = r.id ∧ (f r).name = r.name ∧ (f r).exported = r.exported
    ∧ (f r).forward = r.forward ∧ (f r).level = r.level ∧ ((f r).visible = true → r.visible = true)

theorem Hidden.map {n : Name} {l l' : List Fn} (h : Hidden n l l') :
    ∃ f, Same f ∧ l' = l.map f := by
  rcases h with ⟨rfl, _⟩ | ⟨i, _, rfl⟩
  · exact ⟨id, fun r => ⟨rfl, rfl, rfl, rfl, rfl, fun h => h⟩, by simp⟩
  · refine ⟨fun r => if r.id = i then hide r else r, fun r => ?_, rfl⟩
    dsimp only
    split
    · exact ⟨rfl, rfl, rfl, rfl, rfl, fun h => by simp [hide] at h⟩
    · exact ⟨rfl, rfl, rfl, rfl, rfl, fun h => h⟩

theorem Hidden.ne {n : Name} {l l' : List Fn} (h : Hidden n l l') (hn : (l.map (·.id)).Nodup)
    {m : Name} (hm : m ≠ n) : firstVis l' m = firstVis l m := by
  rcases h with ⟨rfl, _⟩ | ⟨i, hi, rfl⟩
  · rfl
  · obtain ⟨r, hr, _, hrn, hri⟩ := firstVis_some hi
    refine firstVis_hide_ne hm (fun q hq hqi => ?_)
    rw [id_unique hn hq hr (hqi.trans hri.symm)]
    exact hrn

theorem Hidden.countNe {n : Name} {l l' : List Fn} (h : Hidden n l l') (m : Name) :
    count l' m ≤ count l m := by
  rcases h with ⟨rfl, _⟩ | ⟨i, _, rfl⟩
  · exact Nat.le_refl _
  · exact count_hide_le l i m

theorem Hidden.count {n : Name} {l l' : List Fn} (h : Hidden n l l') (h1 : count l n ≤ 1) :
    count l' n = 0 := by
  rcases h with ⟨rfl, h0⟩ | ⟨i, hi, rfl⟩
  · exact count_zero.2 h0
  · exact count_hide h1 hi

/-! ### Records and scopes -/

/-- The records of a scope, of which only what is visible matters (the outermost scope). -/
structure Base (dbl : List Name) (k : Int) (seg : List Fn) (frame : Frame) : Prop where
  first : ∀ n, firstVis seg n = newest frame n
  lvl : ∀ r ∈ seg, r.visible = true → r.level = k
  once : ∀ n, n ∉ dbl → count seg n ≤ 1

/-- The records of a scope inside an abstract type; `H` are the definitions that are hidden by
abstract types inside the scope. -/
structure Upper (H : List Nat) (dbl : List Name) (k : Int) (seg : List Fn) (frame : Frame)
    (hid : List Name) : Prop extends Base dbl k seg frame where
  frame_eq : frame = (seg.filter (fun r => decide (r.id ∉ H))).map key
  vis : ∀ r ∈ seg, r.visible = true → r.id ∉ H
  newestOk : ∀ n, n ∉ hid → ∀ r, seg.find? (fun r => decide (r.name = n)) = some r → r.id ∉ H

/-- The list of records is the concatenation of those of the scopes. -/
inductive Rel (H : List Nat) (dbl : List Name) :
    List (List Fn) → List Frame → List (List Name) → List Nat → Prop
  | base {seg frame h} : Base dbl 1 seg frame → seg ≠ [] → Rel H dbl [seg] [frame] [h] []
  | cons {seg frame h segs frames hs adt p} :
      Upper H dbl ((segs.length : Int) + 1) seg frame h → Rel H dbl segs frames hs adt →
      segs.flatten.head? = some p → Rel H dbl (seg :: segs) (frame :: frames) (h :: hs) (p.id :: adt)

theorem Rel.first {H dbl segs frames hs adt} (h : Rel H dbl segs frames hs adt) (n : Name) :
    firstVis segs.flatten n = newest frames.flatten n := by
  induction h with
  | base hb _ => simpa using hb.first n
  | cons hu _ _ ih =>
    simp only [List.flatten_cons]
    rw [firstVis_append, newest_append, ih, hu.first n]

theorem Rel.level {H dbl segs frames hs adt} (h : Rel H dbl segs frames hs adt) :
    ∀ r ∈ segs.flatten, r.visible = true → r.level ≤ segs.length := by
  induction h with
  | base hb _ =>
    intro r hr hv
    have := hb.lvl r (by simpa using hr) hv
    simp [this]
  | cons hu _ _ ih =>
    intro r hr hv
    simp only [List.flatten_cons, List.mem_append] at hr
    simp only [List.length_cons]
    rcases hr with hr | hr
    · have := hu.lvl r hr hv
      omega
    · have := ih r hr hv
      omega

/-- The whole invariant. -/
structure Inv (s : St) (e : Env) (g : Ghost) (segs : List (List Fn)) (H : List Nat) : Prop where
  rel : Rel H g.doubled segs e.scopes g.hidden s.adt
  defs : s.defs = segs.flatten
  nodup : (s.defs.map (·.id)).Nodup
  next : s.next = e.next
  bound : ∀ r ∈ s.defs, r.id < s.next
  hbound : ∀ i ∈ H, i < s.next
  vis : ∀ r ∈ s.defs, r.visible = true → r.id ∉ H
  exp : ∀ r ∈ s.defs, r.exported = decide (r.id ∈ e.exported)
  ebound : ∀ i ∈ e.exported, i < s.next ∧ i ∉ H
  fwd : ∀ r ∈ s.defs, r.forward = decide (r.id ∈ e.pending)
  pbound : ∀ i ∈ e.pending, i < s.next
  tbl : ∀ n, lookup s.tbl n = firstVis s.defs n
  level : s.level = segs.length

theorem Inv.meaning {s e g segs H} (h : Inv s e g segs H) (n : Name) : s.find n = e.meaning n := by
  rw [St.find, h.tbl, h.defs, h.rel.first]
  rfl

theorem start_inv : Inv start Spec.start ⟨[[]], []⟩ [start.defs] [] where
  rel := by
    refine Rel.base ⟨fun n => ?_, ?_, fun n _ => ?_⟩ (by simp [start])
    · simp only [start]
      rw [firstVis_cons, newest_cons]
      simp [firstVis, newest]
    · simp [start]
    · simp only [start]
      rw [count_cons]
      simp only [count, List.filter_nil, List.length_nil]
      split <;> omega
  defs := by simp
  nodup := by simp [start]
  next := rfl
  bound := by simp [start]
  hbound := by simp
  vis := by simp
  exp := by simp [start, Spec.start]
  ebound := by simp [Spec.start]
  fwd := by simp [start, Spec.start]
  pbound := by simp [Spec.start]
  tbl := by
    intro n
    simp only [start, lookup]
    rw [firstVis_cons]
    simp [firstVis]
  level := by simp [start]

/-! ### New definitions -/

theorem get_mem {s : St} (hn : (s.defs.map (·.id)).Nodup) {r : Fn} (hr : r ∈ s.defs) :
    s.get r.id = some r := by
  unfold St.get
  cases h : s.defs.find? (fun q => q.id == r.id) with
  | none =>
    rw [List.find?_eq_none] at h
    exact absurd (h r hr) (by simp)
  | some q =>
    have := List.find?_some h
    simp only [beq_iff_eq] at this
    rw [id_unique hn (List.mem_of_find?_eq_some h) hr this]

/-- `update_stbl` for a new record `i` of the name `n` at the level of the innermost scope `seg`. -/
theorem updateStbl_eq {s : St} {i : Nat} {n : Name} {lvl : Int} {pre seg rest post : List Fn}
    (hd : s.defs = pre ++ seg ++ rest ++ post) (hn : (s.defs.map (·.id)).Nodup)
    (hpre : ∀ r ∈ pre, r.id = i) (hpost : ∀ r ∈ post, r.id = i) (hi : i ∉ (seg ++ rest).map (·.id))
    (htbl : ∀ m, lookup s.tbl m = firstVis (seg ++ rest) m)
    (hl : ∀ r ∈ seg, r.visible = true → r.level = lvl)
    (hr : ∀ r ∈ rest, r.visible = true → r.level ≠ lvl) :
    ∃ seg', Hidden n seg seg' ∧ ∃ t, updateStbl s i n lvl
        = { s with defs := pre ++ seg' ++ rest ++ post, tbl := t }
      ∧ ∀ m, lookup t m = if m = n then some i else lookup s.tbl m := by
  have hf : s.find n = (firstVis seg n).or (firstVis rest n) := by
    rw [St.find, htbl, firstVis_append]
  cases hs : firstVis seg n with
  | none =>
    refine ⟨seg, Or.inl ⟨rfl, hs⟩, ?_⟩
    cases hrest : firstVis rest n with
    | none =>
      rw [hs, hrest] at hf
      refine ⟨(n, i) :: s.tbl, ?_, fun m => ?_⟩
      · simp only [updateStbl, hf, Option.or_none]
        rw [← hd]
      · simp only [lookup]
        by_cases h : m = n
        · simp [h]
        · simp [h, Ne.symm h]
    | some last =>
      rw [hs, hrest] at hf
      obtain ⟨q, hq, hqv, hqn, hqi⟩ := firstVis_some hrest
      have hne : last ≠ i := by
        rintro rfl
        exact hi (hqi ▸ List.mem_map_of_mem (List.mem_append_right _ hq))
      have hg : s.get last = some q := by
        rw [← hqi]
        exact get_mem hn (by rw [hd]; simp [hq])
      refine ⟨(n, i) :: remove s.tbl n, ?_, fun m => ?_⟩
      · simp only [updateStbl, hf, Option.none_or, if_neg hne, hg, if_neg (hr q hq hqv)]
        rw [← hd]
      · simp only [lookup]
        by_cases h : m = n
        · simp [h]
        · rw [if_neg (Ne.symm h), if_neg h, lookup_remove_ne _ h]
  | some last =>
    rw [hs] at hf
    obtain ⟨q, hq, hqv, hqn, hqi⟩ := firstVis_some hs
    have hne : last ≠ i := by
      rintro rfl
      exact hi (hqi ▸ List.mem_map_of_mem (List.mem_append_left _ hq))
    have hg : s.get last = some q := by
      rw [← hqi]
      exact get_mem hn (by rw [hd]; simp [hq])
    refine ⟨modify last hide seg, Or.inr ⟨last, hs, rfl⟩, (n, i) :: remove s.tbl n, ?_, fun m => ?_⟩
    · have hp : modify last hide pre = pre := by
        refine modify_absent (fun hc => ?_)
        obtain ⟨r, hr', he⟩ := List.mem_map.1 hc
        exact hne (he ▸ hpre r hr')
      have hp' : modify last hide post = post := by
        refine modify_absent (fun hc => ?_)
        obtain ⟨r, hr', he⟩ := List.mem_map.1 hc
        exact hne (he ▸ hpost r hr')
      have hrst : modify last hide rest = rest := by
        refine modify_absent (fun hc => ?_)
        rw [hd, List.map_append, List.nodup_append] at hn
        replace hn := hn.1
        rw [List.map_append, List.nodup_append] at hn
        refine hn.2.2 last ?_ last hc rfl
        rw [← hqi]
        exact List.mem_map_of_mem (List.mem_append_right _ hq)
      simp only [updateStbl, hf, Option.some_or, if_neg hne, hg, if_pos (hl q hq hqv)]
      have : modify last (fun q => { q with visible := false }) s.defs
          = pre ++ modify last hide seg ++ rest ++ post := by
        rw [hd]
        show modify last hide _ = _
        rw [modify_append, modify_append, modify_append, hp, hrst, hp']
      rw [this]
    · simp only [lookup]
      by_cases h : m = n
      · simp [h]
      · rw [if_neg (Ne.symm h), if_neg h, lookup_remove_ne _ h]

theorem Base.push {dbl k seg seg' frame n i fwd} (h : Base dbl k seg frame) (hh : Hidden n seg seg')
    (hn : (seg.map (·.id)).Nodup) :
    Base dbl k (⟨i, n, true, false, fwd, k⟩ :: seg') ((n, i) :: frame) where
  first := by
    intro m
    rw [firstVis_cons, newest_cons]
    by_cases hm : n = m
    · simp [hm]
    · simp only [hm, and_false, if_false]
      rw [hh.ne hn (Ne.symm hm), h.first]
  lvl := by
    obtain ⟨f, hf, rfl⟩ := hh.map
    intro r hr hv
    rcases List.mem_cons.1 hr with rfl | hr
    · rfl
    · obtain ⟨q, hq, rfl⟩ := List.mem_map.1 hr
      obtain ⟨_, _, _, _, h5, h6⟩ := hf q
      rw [h5]
      exact h.lvl q hq (h6 hv)
  once := by
    intro m hm
    rw [count_cons]
    have h1 := h.once m hm
    have h2 := hh.countNe m
    by_cases hn : n = m
    · subst hn
      rw [hh.count h1]
      split <;> omega
    · rw [if_neg (by simp [hn])]
      omega

theorem Upper.push {H dbl k seg seg' frame hid n i fwd} (h : Upper H dbl k seg frame hid)
    (hh : Hidden n seg seg') (hn : (seg.map (·.id)).Nodup) (hi : i ∉ H) :
    Upper H dbl k (⟨i, n, true, false, fwd, k⟩ :: seg') ((n, i) :: frame)
      (hid.filter (fun m => m ≠ n)) where
  toBase := h.toBase.push hh hn
  frame_eq := by
    obtain ⟨f, hf, rfl⟩ := hh.map
    rw [List.filter_cons_of_pos (by simpa using hi), List.map_cons, h.frame_eq]
    congr 1
    rw [List.filter_map, List.map_map]
    have e1 : ((fun r : Fn => decide (r.id ∉ H)) ∘ f) = fun r => decide (r.id ∉ H) := by
      funext r
      simp [(hf r).1]
    rw [e1]
    refine List.map_congr_left (fun r _ => ?_)
    simp [key, (hf r).1, (hf r).2.1]
  vis := by
    obtain ⟨f, hf, rfl⟩ := hh.map
    intro r hr hv
    rcases List.mem_cons.1 hr with rfl | hr
    · exact hi
    · obtain ⟨q, hq, rfl⟩ := List.mem_map.1 hr
      rw [(hf q).1]
      exact h.vis q hq ((hf q).2.2.2.2.2 hv)
  newestOk := by
    obtain ⟨f, hf, rfl⟩ := hh.map
    intro m hm r hr
    rw [List.find?_cons] at hr
    by_cases hnm : n = m
    · simp only [hnm, decide_true] at hr
      rw [← Option.some.inj hr]
      exact hi
    · simp only [hnm, decide_false] at hr
      rw [List.find?_map] at hr
      have e1 : ((fun r : Fn => decide (r.name = m)) ∘ f) = fun r => decide (r.name = m) := by
        funext r
        simp [(hf r).2.1]
      rw [e1, Option.map_eq_some_iff] at hr
      obtain ⟨q, hq, rfl⟩ := hr
      rw [(hf q).1]
      refine h.newestOk m (fun hc => hm ?_) q hq
      simp [hc, Ne.symm hnm]

end Voss.Scope
