import Verif.Scope.StepLemmas
import Mathlib.Tactic.ByContra

/-! The end of an abstract type keeps the invariant. -/

namespace Voss.Scope

open Spec (Frame newest remaining Env Ghost)

/-! ### The loops of `end_abstype` -/

theorem openLoop_eq (l : List Fn) (t : List (Name × Nat)) (n : Name) :
    lookup (openLoop l t) n = (lookup t n).or (firstVis l n) := by
  induction l generalizing t with
  | nil => simp [openLoop, firstVis]
  | cons r l ih =>
    rw [openLoop, firstVis_cons]
    by_cases hv : r.visible = true
    · rw [if_pos hv]
      cases hl : lookup t r.name with
      | none =>
        dsimp only
        rw [ih, lookup]
        by_cases hn : r.name = n
        · rw [if_pos hn, if_pos ⟨hv, hn⟩, ← hn, hl]
          simp
        · rw [if_neg hn, if_neg (fun c => hn c.2)]
      | some i =>
        dsimp only
        rw [ih]
        by_cases hn : r.name = n
        · rw [if_pos ⟨hv, hn⟩, ← hn, hl]
          simp
        · rw [if_neg (fun c => hn c.2)]
    · rw [if_neg hv, if_neg (fun c => hv c.1), ih]

theorem lookup_append (a b : List (Name × Nat)) (n : Name) :
    lookup (a ++ b) n = (lookup a n).or (lookup b n) := by
  rw [← newest_eq, ← newest_eq, ← newest_eq, newest_append]

theorem lookup_none {t : List (Name × Nat)} {n : Name} (h : n ∉ t.map (·.1)) : lookup t n = none := by
  induction t with
  | nil => rfl
  | cons p t ih =>
    obtain ⟨m, i⟩ := p
    simp only [List.map_cons, List.mem_cons, not_or] at h
    rw [lookup, if_neg (Ne.symm h.1), ih h.2]

theorem lookup_reverse {t : List (Name × Nat)} (h : (t.map (·.1)).Nodup) (n : Name) :
    lookup t.reverse n = lookup t n := by
  induction t with
  | nil => rfl
  | cons p t ih =>
    obtain ⟨m, i⟩ := p
    simp only [List.map_cons, List.nodup_cons] at h
    rw [List.reverse_cons, lookup_append, ih h.2, lookup, lookup, lookup]
    by_cases hm : m = n
    · subst hm
      rw [lookup_none h.1]
      simp
    · simp [hm]

/-- The fields of a record that the end of an abstract type does not change. -/
def fixedPart (r : Fn) : Nat × Name × Bool × Bool := (r.id, r.name, r.exported, r.forward)

theorem closeLoop_spec (lvl : Int) (E H : List Nat) :
    ∀ (seg : List Fn) (K : List Name) (tbl : List (Name × Nat)) (cs : List Name),
    (∀ r ∈ seg, r.exported = decide (r.id ∈ E)) → (∀ r ∈ seg, r.id ∈ E → r.id ∉ H) →
    (∀ k ∈ K, ∀ r, seg.find? (fun r => decide (r.name = k)) = some r → r.id ∉ H) →
    (∀ r ∈ seg, r.id ∈ E → r.name ∉ K) →
    ((closeLoop lvl seg K tbl cs).1.filter (fun r => r.visible)).map key
        = remaining E K ((seg.filter (fun r => decide (r.id ∉ H))).map key)
      ∧ (closeLoop lvl seg K tbl cs).2.1
        = (remaining E K ((seg.filter (fun r => decide (r.id ∉ H))).map key)).reverse ++ tbl
      ∧ (closeLoop lvl seg K tbl cs).1.map fixedPart = seg.map fixedPart
      ∧ (∀ r ∈ (closeLoop lvl seg K tbl cs).1, r.visible = true → r.level = lvl ∧ r.id ∉ H)
      ∧ (∀ r ∈ (closeLoop lvl seg K tbl cs).1, r.exported = true → r.visible = true) := by
  intro seg
  induction seg with
  | nil => intros; simp [closeLoop, remaining]
  | cons r seg ih =>
    intro K tbl cs ha hb hc hd
    have ha' : ∀ q ∈ seg, q.exported = decide (q.id ∈ E) :=
      fun q hq => ha q (List.mem_cons_of_mem _ hq)
    have hb' : ∀ q ∈ seg, q.id ∈ E → q.id ∉ H := fun q hq => hb q (List.mem_cons_of_mem _ hq)
    have hfind : ∀ k, r.name ≠ k → (r :: seg).find? (fun r => decide (r.name = k))
        = seg.find? (fun r => decide (r.name = k)) := by
      intro k hk
      rw [List.find?_cons]
      simp [hk]
    by_cases hx : r.id ∈ E
    · have hxr : r.exported = true := by rw [ha r List.mem_cons_self]; simp [hx]
      have hrH := hb r List.mem_cons_self hx
      have hrK := hd r List.mem_cons_self hx
      have hKf : K.filter (fun k => decide (k ≠ r.name)) = K := by
        rw [List.filter_eq_self]
        intro k hk
        simp only [ne_eq, decide_eq_true_eq]
        rintro rfl
        exact hrK hk
      have ih' := ih K ((r.name, r.id) :: tbl) (cs.erase r.name) ha' hb'
        (fun k hk q hq => hc k hk q (by
          rw [hfind k (by rintro rfl; exact hrK hk)]
          exact hq))
        (fun q hq => hd q (List.mem_cons_of_mem _ hq))
      obtain ⟨i1, i2, i3, i4, i5⟩ := ih'
      rw [List.filter_cons_of_pos (by simpa using hrH), List.map_cons]
      have hrem : ∀ f, remaining E K (key r :: f) = key r :: remaining E K f := by
        intro f
        show remaining E K ((r.name, r.id) :: f) = (r.name, r.id) :: _
        rw [remaining, if_pos (Or.inl hx), hKf]
      rw [hrem]
      simp only [closeLoop, hxr, if_true]
      refine ⟨?_, ?_, ?_, ?_, ?_⟩
      · rw [List.filter_cons_of_pos rfl, List.map_cons, i1]
        rfl
      · rw [i2]
        simp [key]
      · rw [List.map_cons, List.map_cons, i3]
        simp [fixedPart, hxr]
      · intro q hq hv
        rcases List.mem_cons.1 hq with rfl | hq
        · exact ⟨rfl, hrH⟩
        · exact i4 q hq hv
      · intro q hq hv
        rcases List.mem_cons.1 hq with rfl | hq
        · rfl
        · exact i5 q hq hv
    · have hxr : r.exported = false := by rw [ha r List.mem_cons_self]; simp [hx]
      by_cases hk : r.name ∈ K
      · have hrH : r.id ∉ H := hc r.name hk r (by rw [List.find?_cons]; simp)
        have ih' := ih (K.filter (fun k => decide (k ≠ r.name))) ((r.name, r.id) :: tbl)
          (cs.erase r.name) ha' hb'
          (fun k hk q hq => by
            rw [List.mem_filter] at hk
            have hne : k ≠ r.name := by simpa using hk.2
            exact hc k hk.1 q (by rw [hfind k (Ne.symm hne)]; exact hq))
          (fun q hq hqE hqK => by
            rw [List.mem_filter] at hqK
            exact hd q (List.mem_cons_of_mem _ hq) hqE hqK.1)
        obtain ⟨i1, i2, i3, i4, i5⟩ := ih'
        rw [List.filter_cons_of_pos (by simpa using hrH), List.map_cons]
        have hrem : ∀ f, remaining E K (key r :: f)
            = key r :: remaining E (K.filter (fun k => decide (k ≠ r.name))) f := by
          intro f
          show remaining E K ((r.name, r.id) :: f) = (r.name, r.id) :: _
          rw [remaining, if_pos (Or.inr hk)]
        rw [hrem]
        simp only [closeLoop, hxr, Bool.false_eq_true, if_false, hk, if_true]
        refine ⟨?_, ?_, ?_, ?_, ?_⟩
        · rw [List.filter_cons_of_pos rfl, List.map_cons, i1]
          rfl
        · rw [i2]
          simp [key]
        · rw [List.map_cons, List.map_cons, i3]
          simp [fixedPart, hxr]
        · intro q hq hv
          rcases List.mem_cons.1 hq with rfl | hq
          · exact ⟨rfl, hrH⟩
          · exact i4 q hq hv
        · intro q hq hv
          rcases List.mem_cons.1 hq with rfl | hq
          · rfl
          · exact i5 q hq hv
      · have ih' := ih K tbl (cs.erase r.name) ha' hb'
          (fun k hk' q hq => hc k hk' q (by
            rw [hfind k (by rintro rfl; exact hk hk')]
            exact hq))
          (fun q hq => hd q (List.mem_cons_of_mem _ hq))
        obtain ⟨i1, i2, i3, i4, i5⟩ := ih'
        have hrem : remaining E K (((r :: seg).filter (fun r => decide (r.id ∉ H))).map key)
            = remaining E K ((seg.filter (fun r => decide (r.id ∉ H))).map key) := by
          rw [List.filter_cons]
          split
          · rw [List.map_cons]
            show remaining E K ((r.name, r.id) :: _) = _
            rw [remaining, if_neg (by rintro (h | h); exact hx h; exact hk h)]
          · rfl
        rw [hrem]
        simp only [closeLoop, hxr, Bool.false_eq_true, if_false, hk]
        refine ⟨?_, ?_, ?_, ?_, ?_⟩
        · rw [List.filter_cons_of_neg (by simp), i1]
        · exact i2
        · rw [List.map_cons, List.map_cons, i3]
          simp [fixedPart, hxr]
        · intro q hq hv
          rcases List.mem_cons.1 hq with rfl | hq
          · simp at hv
          · exact i4 q hq hv
        · intro q hq hv
          rcases List.mem_cons.1 hq with rfl | hq
          · simp only [hxr] at hv
            exact absurd hv (by simp)
          · exact i5 q hq hv

/-! ### Scopes after the end -/

theorem firstVis_eq (l : List Fn) (n : Name) :
    firstVis l n = newest ((l.filter (fun r => r.visible)).map key) n := by
  induction l with
  | nil => rfl
  | cons r l ih =>
    rw [firstVis_cons, List.filter_cons]
    by_cases hv : r.visible = true
    · rw [if_pos hv, List.map_cons, key, newest_cons, ih]
      simp [hv]
    · rw [if_neg hv, if_neg (fun c => hv c.1), ih]

theorem count_le_one {l : List Fn} {R : Frame} (h : (l.filter (fun r => r.visible)).map key = R)
    (hR : (R.map (·.1)).Nodup) (n : Name) : count l n ≤ 1 := by
  induction l generalizing R with
  | nil => simp [count]
  | cons r l ih =>
    rw [count_cons]
    rw [List.filter_cons] at h
    by_cases hv : r.visible = true
    · rw [if_pos hv, List.map_cons] at h
      subst h
      simp only [List.map_cons, List.nodup_cons] at hR
      by_cases hn : r.name = n
      · have : count l n = 0 := by
          rw [count_zero, firstVis_eq, newest_eq]
          refine lookup_none ?_
          rw [← hn]
          exact hR.1
        rw [if_pos ⟨hv, hn⟩]
        omega
      · rw [if_neg (fun c => hn c.2)]
        have := ih rfl hR.2
        omega
    · rw [if_neg hv] at h
      rw [if_neg (fun c => hv c.1)]
      have := ih h hR
      omega

theorem Upper.mono {H H' : List Nat} {dbl dbl' : List Name} {k seg frame hid}
    (h : Upper H dbl k seg frame hid) (hH : ∀ r ∈ seg, r.id ∈ H' ↔ r.id ∈ H)
    (hd : ∀ n ∈ dbl, n ∈ dbl') : Upper H' dbl' k seg frame hid where
  first := h.first
  lvl := h.lvl
  once n hn := h.once n (fun c => hn (hd n c))
  frame_eq := by
    rw [h.frame_eq]
    congr 1
    refine List.filter_congr (fun r hr => ?_)
    simp [hH r hr]
  vis r hr hv := by
    rw [hH r hr]
    exact h.vis r hr hv
  newestOk n hn r hr := by
    rw [hH r (List.mem_of_find?_eq_some hr)]
    exact h.newestOk n hn r hr

theorem Rel.mono {H H' : List Nat} {dbl dbl' : List Name} {segs frames hs adt}
    (h : Rel H dbl segs frames hs adt) (hH : ∀ r ∈ segs.flatten, r.id ∈ H' ↔ r.id ∈ H)
    (hd : ∀ n ∈ dbl, n ∈ dbl') : Rel H' dbl' segs frames hs adt := by
  induction h with
  | base hb hne =>
    exact Rel.base ⟨hb.first, hb.lvl, fun n hn => hb.once n (fun c => hn (hd n c))⟩ hne
  | cons hu hr hp ih =>
    exact Rel.cons (hu.mono (fun r hr => hH r (by simp [hr])) hd)
      (ih (fun r hr => hH r (List.mem_append_right _ hr))) hp

/-- What is known of the records of a closed scope. -/
structure Closed (H : List Nat) (lvl : Int) (l : List Fn) (R : Frame) : Prop where
  vis_eq : (l.filter (fun r => r.visible)).map key = R
  distinct : (R.map (·.1)).Nodup
  lvl : ∀ r ∈ l, r.visible = true → r.level = lvl ∧ r.id ∉ H

theorem Base.close {H dbl dbl' k seg frame l R} (h : Base dbl k seg frame) (hc : Closed H k l R)
    (hd : ∀ n ∈ dbl, n ∈ dbl') (hd2 : ∀ n ∈ R.map (·.1), (newest frame n).isSome → n ∈ dbl') :
    Base dbl' k (l ++ seg) (R ++ frame) where
  first n := by
    rw [firstVis_append, newest_append, h.first, firstVis_eq, hc.vis_eq]
  lvl r hr hv := by
    rcases List.mem_append.1 hr with hr | hr
    · exact (hc.lvl r hr hv).1
    · exact h.lvl r hr hv
  once n hn := by
    rw [count_append]
    have h1 := h.once n (fun c => hn (hd n c))
    have h2 := count_le_one hc.vis_eq hc.distinct n
    by_cases h3 : count l n = 0
    · omega
    · have h4 : count seg n = 0 := by
        rw [count_zero, h.first]
        cases hf : newest frame n with
        | none => rfl
        | some i =>
          refine absurd (hd2 n ?_ (by rw [hf]; rfl)) hn
          rw [count_zero, firstVis_eq, hc.vis_eq, newest_eq] at h3
          by_contra hc'
          exact h3 (lookup_none hc')
      omega

theorem find_fixed {l seg : List Fn} (h : l.map fixedPart = seg.map fixedPart) (n : Name) :
    (l.find? (fun r => decide (r.name = n))).map fixedPart
      = (seg.find? (fun r => decide (r.name = n))).map fixedPart := by
  induction l generalizing seg with
  | nil =>
    cases seg with
    | nil => rfl
    | cons _ _ => simp at h
  | cons r l ih =>
    cases seg with
    | nil => simp at h
    | cons q seg =>
      simp only [List.map_cons, List.cons.injEq] at h
      have hn : r.name = q.name := by
        have := h.1
        simp only [fixedPart, Prod.mk.injEq] at this
        exact this.2.1
      rw [List.find?_cons, List.find?_cons, hn]
      by_cases hq : q.name = n
      · simp [hq, h.1]
      · simp [hq, ih h.2]

theorem newest_filter {seg : List Fn} {H : List Nat} {n : Name} {r : Fn}
    (hr : seg.find? (fun r => decide (r.name = n)) = some r) (hH : r.id ∉ H) :
    newest ((seg.filter (fun r => decide (r.id ∉ H))).map key) n = some r.id := by
  induction seg with
  | nil => simp at hr
  | cons q seg ih =>
    rw [List.find?_cons] at hr
    rw [List.filter_cons]
    by_cases hq : q.name = n
    · simp only [hq, decide_true] at hr
      obtain rfl := Option.some.inj hr
      rw [if_pos (by simpa using hH), List.map_cons, key, newest_cons, if_pos hq]
    · simp only [hq, decide_false] at hr
      split
      · rw [List.map_cons, key, newest_cons, if_neg hq, ih hr]
      · exact ih hr

theorem newest_mem {f : Frame} {n : Name} {i : Nat} (h : newest f n = some i) : (n, i) ∈ f := by
  induction f with
  | nil => simp [newest] at h
  | cons p f ih =>
    obtain ⟨m, j⟩ := p
    rw [newest_cons] at h
    by_cases hm : m = n
    · rw [if_pos hm] at h
      obtain rfl := Option.some.inj h
      simp [hm]
    · rw [if_neg hm] at h
      exact List.mem_cons_of_mem _ (ih h)

theorem Upper.close {H dbl dbl' k seg frame hid l R segT frameT hidT} {k' : Int}
    (h : Upper H dbl k seg frame hid) (hT : Upper H dbl k' segT frameT hidT) (hc : Closed H k l R)
    (hl : l.map fixedPart = segT.map fixedPart)
    (hnd : ((l ++ seg).map (·.id)).Nodup)
    (hd : ∀ n ∈ dbl, n ∈ dbl') (hd2 : ∀ n ∈ R.map (·.1), (newest frame n).isSome → n ∈ dbl') :
    Upper (H ++ (l.filter (fun r => !r.visible)).map (·.id)) dbl' k (l ++ seg) (R ++ frame)
      ((frameT.map (·.1) ++ hidT ++ hid).filter (fun n => !(decide (n ∉ hidT) &&
        (match newest frameT n with
        | some i => decide ((n, i) ∈ R)
        | none => false)))) := by
  have hl' : ∀ r ∈ l, r.id ∈ H ++ (l.filter (fun r => !r.visible)).map (·.id) ↔
      r.visible = false := by
    intro r hr
    constructor
    · intro hm
      by_contra hv
      have hv : r.visible = true := by simpa using hv
      rcases List.mem_append.1 hm with hm | hm
      · exact (hc.lvl r hr hv).2 hm
      · obtain ⟨q, hq, he⟩ := List.mem_map.1 hm
        rw [List.mem_filter] at hq
        have := id_unique hnd (List.mem_append_left _ hq.1) (List.mem_append_left _ hr) he
        rw [this, hv] at hq
        simp at hq
    · intro hv
      refine List.mem_append_right _ (List.mem_map_of_mem ?_)
      rw [List.mem_filter]
      exact ⟨hr, by simp [hv]⟩
  have hs' : ∀ r ∈ seg, r.id ∈ H ++ (l.filter (fun r => !r.visible)).map (·.id) ↔ r.id ∈ H := by
    intro r hr
    constructor
    · intro hm
      rcases List.mem_append.1 hm with hm | hm
      · exact hm
      · obtain ⟨q, hq, he⟩ := List.mem_map.1 hm
        rw [List.mem_filter] at hq
        rw [List.map_append, List.nodup_append] at hnd
        exact absurd he (hnd.2.2 _ (List.mem_map_of_mem hq.1) _ (List.mem_map_of_mem hr))
    · exact fun hm => List.mem_append_left _ hm
  refine ⟨h.toBase.close hc hd hd2, ?_, ?_, ?_⟩
  · rw [List.filter_append, List.map_append]
    congr 1
    · rw [← hc.vis_eq]
      congr 1
      refine List.filter_congr (fun r hr => ?_)
      have := hl' r hr
      rw [Bool.eq_iff_iff]
      simp only [decide_eq_true_eq]
      rw [this]
      simp
    · rw [h.frame_eq]
      congr 1
      refine List.filter_congr (fun r hr => ?_)
      simp only [hs' r hr]
  · intro r hr hv
    rcases List.mem_append.1 hr with hr | hr
    · rw [hl' r hr, hv]
      simp
    · rw [hs' r hr]
      exact h.vis r hr hv
  · intro n hn r hr
    have hshown : n ∈ frameT.map (·.1) ∨ n ∈ hidT ∨ n ∈ hid →
        n ∉ hidT ∧ ∃ i, newest frameT n = some i ∧ (n, i) ∈ R := by
      intro hm
      by_contra hc'
      refine hn ?_
      rw [List.mem_filter]
      refine ⟨by simpa [or_assoc] using hm, ?_⟩
      rw [Bool.not_eq_true']
      by_contra hb
      simp only [Bool.not_eq_false, Bool.and_eq_true, decide_eq_true_eq] at hb
      refine hc' ⟨hb.1, ?_⟩
      cases hw : newest frameT n with
      | none => rw [hw] at hb; simp at hb
      | some i => rw [hw] at hb; exact ⟨i, rfl, by simpa using hb.2⟩
    rw [List.find?_append] at hr
    have hff := find_fixed hl n
    cases hfl : l.find? (fun r => decide (r.name = n)) with
    | some r' =>
      rw [hfl, Option.some_or] at hr
      obtain rfl := Option.some.inj hr
      rw [hfl] at hff
      obtain ⟨q, hq, hqe⟩ := Option.map_eq_some_iff.1 hff.symm
      have hqid : q.id = r'.id := by
        simp only [fixedPart, Prod.mk.injEq] at hqe
        exact hqe.1
      have hmem : n ∈ frameT.map (·.1) ∨ n ∈ hidT ∨ n ∈ hid := by
        by_cases hh : n ∈ hidT
        · exact Or.inr (Or.inl hh)
        · have hqH := hT.newestOk n hh q hq
          have := newest_mem (newest_filter hq hqH)
          rw [← hT.frame_eq] at this
          exact Or.inl (List.mem_map_of_mem this)
      obtain ⟨hh, i, hi, hiR⟩ := hshown hmem
      have hqH := hT.newestOk n hh q hq
      have h1 := newest_filter hq hqH
      rw [← hT.frame_eq, hi] at h1
      have hri : r'.id = i := by rw [← hqid]; exact (Option.some.inj h1).symm
      rw [← hc.vis_eq] at hiR
      obtain ⟨p, hp, hpe⟩ := List.mem_map.1 hiR
      rw [List.mem_filter] at hp
      have hpi : p.id = i := by
        simp only [key, Prod.mk.injEq] at hpe
        exact hpe.2
      have hr'l := List.mem_of_find?_eq_some hfl
      have := id_unique hnd (List.mem_append_left _ hp.1) (List.mem_append_left _ hr'l)
        (hpi.trans hri.symm)
      rw [hl' r' hr'l, ← this]
      simp [hp.2]
    | none =>
      rw [hfl, Option.none_or] at hr
      rw [hs' r (List.mem_of_find?_eq_some hr)]
      refine h.newestOk n (fun hh => ?_) r hr
      obtain ⟨_, i, hi, _⟩ := hshown (Or.inr (Or.inr hh))
      have := newest_mem hi
      rw [hT.frame_eq] at this
      obtain ⟨q, hq, hqe⟩ := List.mem_map.1 this
      have hqn : q.name = n := by
        simp only [key, Prod.mk.injEq] at hqe
        exact hqe.1
      rw [hfl] at hff
      have hnone := Option.map_eq_none_iff.1 hff.symm
      rw [List.find?_eq_none] at hnone
      exact hnone q (List.mem_filter.1 hq).1 (by simp [hqn])

end Voss.Scope
