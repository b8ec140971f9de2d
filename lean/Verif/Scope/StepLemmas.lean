import Verif.Scope.Lemmas

/-! Every statement of a fine session keeps the invariant. -/

namespace Voss.Scope

open Spec (Frame newest remaining Env Ghost)

/-! ### New definitions -/

/-- The innermost scope. -/
theorem Rel.top {H dbl segs frames hs adt} (h : Rel H dbl segs frames hs adt) :
    ∃ seg rest, segs = seg :: rest ∧ (∀ r ∈ seg, r.visible = true → r.level = (segs.length : Int))
      ∧ (∀ r ∈ rest.flatten, r.visible = true → r.level ≠ (segs.length : Int)) := by
  cases h with
  | @base seg _ _ hb _ =>
    refine ⟨seg, [], rfl, fun r hr hv => ?_, by simp⟩
    simpa using hb.lvl r hr hv
  | @cons seg _ _ rest _ _ _ _ hu hr _ =>
    refine ⟨seg, rest, rfl, fun r hr hv => ?_, fun r hm hv => ?_⟩
    · have := hu.lvl r hr hv
      simpa using this
    · have := hr.level r hm hv
      simp only [List.length_cons]
      omega

theorem Rel.push {H dbl seg seg' rest frames hs adt n i fwd} {k : Int}
    (h : Rel H dbl (seg :: rest) frames hs adt) (hk : k = ((seg :: rest).length : Int))
    (hh : Hidden n seg seg') (hn : (seg.map (·.id)).Nodup) (hi : i ∉ H) :
    Rel H dbl ((⟨i, n, true, false, fwd, k⟩ :: seg') :: rest)
      (match frames with | f :: fs => ((n, i) :: f) :: fs | [] => [[(n, i)]])
      (Ghost.defined ⟨hs, dbl⟩ n).hidden adt := by
  cases h with
  | base hb _ =>
    have hk : k = 1 := by simpa using hk
    subst hk
    exact Rel.base (hb.push hh hn) (by simp)
  | cons hu hr hp =>
    have hk : k = (rest.length : Int) + 1 := by simpa using hk
    subst hk
    exact Rel.cons (hu.push hh hn hi) hr hp

theorem push_inv {s e g segs H} (h : Inv s e g segs H) (n : Name) (fwd : Bool) :
    ∃ segs', Inv (pushDef s n fwd)
      { e.add n with pending := if fwd then e.next :: e.pending else e.pending } (g.defined n)
      segs' H := by
  obtain ⟨seg, rest, rfl, hl, hr⟩ := h.rel.top
  have hd : s.defs = seg ++ rest.flatten := by rw [h.defs]; simp
  have hnew : s.next ∉ s.defs.map (·.id) := by
    intro hc
    obtain ⟨r, hr, he⟩ := List.mem_map.1 hc
    have := h.bound r hr
    omega
  have hseg : (seg.map (·.id)).Nodup := by
    have := h.nodup
    rw [hd, List.map_append, List.nodup_append] at this
    exact this.1
  obtain ⟨seg', hh, t, he, ht⟩ := updateStbl_eq
    (s := { s with defs := ⟨s.next, n, true, false, fwd, s.level⟩ :: s.defs, next := s.next + 1 })
    (i := s.next) (n := n) (lvl := s.level) (pre := [⟨s.next, n, true, false, fwd, s.level⟩])
    (seg := seg) (rest := rest.flatten) (post := [])
    (by simp [hd]) (by simpa using ⟨by simpa using hnew, h.nodup⟩) (by simp) (by simp)
    (by rw [← hd]; exact hnew) (fun m => by rw [← hd]; exact h.tbl m)
    (by rw [h.level]; exact hl) (by rw [h.level]; exact hr)
  have hp : pushDef s n fwd = { s with
      defs := ⟨s.next, n, true, false, fwd, s.level⟩ :: (seg' ++ rest.flatten)
      tbl := t, next := s.next + 1 } := by
    rw [pushDef]
    dsimp only
    rw [he]
    simp
  obtain ⟨f, hf, hfe⟩ := hh.map
  have hmem : ∀ r ∈ seg' ++ rest.flatten, ∃ q ∈ s.defs, q.id = r.id ∧ q.exported = r.exported
      ∧ q.forward = r.forward ∧ (r.visible = true → q.visible = true) := by
    intro r hr
    rcases List.mem_append.1 hr with hr | hr
    · rw [hfe] at hr
      obtain ⟨q, hq, rfl⟩ := List.mem_map.1 hr
      exact ⟨q, by rw [hd]; simp [hq], (hf q).1.symm, (hf q).2.2.1.symm, (hf q).2.2.2.1.symm,
        (hf q).2.2.2.2.2⟩
    · exact ⟨r, by rw [hd]; exact List.mem_append_right _ hr, rfl, rfl, rfl, fun h => h⟩
  have hids : (seg' ++ rest.flatten).map (·.id) = s.defs.map (·.id) := by
    rw [hd, hfe]
    simp only [List.map_append, List.map_map]
    congr 1
    refine List.map_congr_left (fun r _ => ?_)
    simp [(hf r).1]
  have hnH : s.next ∉ H := fun hc => Nat.lt_irrefl _ (h.hbound _ hc)
  rw [hp]
  refine ⟨(⟨s.next, n, true, false, fwd, s.level⟩ :: seg') :: rest, ?_, ?_, ?_, ?_, ?_, ?_, ?_, ?_, ?_, ?_,
    ?_, ?_, ?_⟩
  · have := h.rel.push (fwd := fwd) h.level hh hseg hnH
    simp only [Env.add, ← h.next]
    exact this
  · simp
  · simp only [List.map_cons, List.nodup_cons, hids]
    exact ⟨hnew, h.nodup⟩
  · simp [Env.add, h.next]
  · intro r hr
    rcases List.mem_cons.1 hr with rfl | hr
    · exact Nat.lt_succ_self _
    · obtain ⟨q, hq, e1, _⟩ := hmem r hr
      have := h.bound q hq
      show r.id < s.next + 1
      omega
  · intro i hi
    exact Nat.lt_succ_of_lt (h.hbound i hi)
  · intro r hr hv
    rcases List.mem_cons.1 hr with rfl | hr
    · exact hnH
    · obtain ⟨q, hq, e1, _, _, e4⟩ := hmem r hr
      rw [← e1]
      exact h.vis q hq (e4 hv)
  · intro r hr
    rcases List.mem_cons.1 hr with rfl | hr
    · have : s.next ∉ e.exported := fun hc => Nat.lt_irrefl _ (h.ebound _ hc).1
      simp [Env.add, this]
    · obtain ⟨q, hq, e1, e2, _⟩ := hmem r hr
      rw [← e2, h.exp q hq, e1]
      rfl
  · intro i hi
    exact ⟨Nat.lt_succ_of_lt (h.ebound i hi).1, (h.ebound i hi).2⟩
  · intro r hr
    have hnp : s.next ∉ e.pending := fun hc => Nat.lt_irrefl _ (h.pbound _ hc)
    rcases List.mem_cons.1 hr with rfl | hr
    · cases fwd
      · simp [Env.add, hnp]
      · simp [h.next]
    · obtain ⟨q, hq, e1, _, e3, _⟩ := hmem r hr
      have hq' := h.bound q hq
      rw [← e3, h.fwd q hq, e1]
      cases fwd
      · rfl
      · have : r.id ≠ e.next := by rw [← h.next]; omega
        simp [this]
  · intro i hi
    show i < s.next + 1
    cases fwd
    · exact Nat.lt_succ_of_lt (h.pbound i hi)
    · rcases List.mem_cons.1 hi with rfl | hi
      · rw [h.next]; omega
      · exact Nat.lt_succ_of_lt (h.pbound i hi)
  · intro m
    show lookup t m = _
    rw [ht m, firstVis_cons]
    by_cases hm : m = n
    · simp [hm]
    · rw [if_neg hm, if_neg (by simp [Ne.symm hm])]
      show lookup s.tbl m = _
      rw [h.tbl m, hd, firstVis_append, firstVis_append, hh.ne hseg hm]
  · show s.level = _
    rw [h.level]
    simp

/-! ### Type declarations in the outermost scope -/

theorem Base.append {dbl k seg seg' frame n i fwd} (h : Base dbl k seg frame) (hh : Hidden n seg seg')
    (hn : (seg.map (·.id)).Nodup) (hd : n ∉ dbl) :
    Base dbl k (seg' ++ [⟨i, n, true, false, fwd, k⟩]) ((n, i) :: frame) where
  first := by
    intro m
    rw [firstVis_append, newest_cons]
    by_cases hm : n = m
    · subst hm
      rw [count_zero.1 (hh.count (h.once n hd)), firstVis_cons]
      simp
    · rw [hh.ne hn (Ne.symm hm), h.first, firstVis_cons]
      simp [hm, firstVis]
  lvl := by
    obtain ⟨f, hf, rfl⟩ := hh.map
    intro r hr hv
    rcases List.mem_append.1 hr with hr | hr
    · obtain ⟨q, hq, rfl⟩ := List.mem_map.1 hr
      obtain ⟨_, _, _, _, h5, h6⟩ := hf q
      rw [h5]
      exact h.lvl q hq (h6 hv)
    · rw [List.mem_singleton.1 hr]
  once := by
    intro m hm
    rw [count_append, count_cons]
    have h1 := h.once m hm
    have h2 := hh.countNe m
    have h3 : count ([] : List Fn) m = 0 := rfl
    by_cases hn : n = m
    · subst hn
      rw [hh.count h1, h3]
      split <;> omega
    · rw [if_neg (by simp [hn]), h3]
      omega

theorem addCtor_inv {s e g segs H} (h : Inv s e g segs H) (h1 : e.scopes.length = 1) (n : Name)
    (hdb : n ∉ g.doubled) :
    ∃ segs', Inv (addCtor s n) (e.add n) g segs' H ∧ (e.add n).scopes.length = 1 := by
  obtain ⟨rel, defs, nodup, next, bound, hbound, vis, exp, ebound, fwd, pbound, tbl, level⟩ := h
  generalize hsc : e.scopes = frames at rel
  generalize hhd : g.hidden = hs at rel
  generalize hadt : s.adt = adt at rel
  cases rel with
  | cons hu hr hp =>
    rw [hsc] at h1
    cases hr <;> simp at h1
  | @base seg frame hid hb hne =>
    have hd : s.defs = seg := by simpa using defs
    have hnew : s.next ∉ s.defs.map (·.id) := by
      intro hc
      obtain ⟨r, hr, he⟩ := List.mem_map.1 hc
      have := bound r hr
      omega
    have hlev : s.level = 1 := by simpa using level
    obtain ⟨seg', hh, t, he, ht⟩ := updateStbl_eq
      (s := { s with defs := s.defs ++ [⟨s.next, n, true, false, false, s.level⟩],
                     next := s.next + 1 })
      (i := s.next) (n := n) (lvl := s.level) (pre := [])
      (seg := seg) (rest := []) (post := [⟨s.next, n, true, false, false, s.level⟩])
      (by simp [hd])
      (by
        simp only [List.map_append, List.map_cons, List.map_nil]
        rw [List.nodup_append]
        refine ⟨nodup, by simp, fun a ha b hb' hab => ?_⟩
        have hb' : b = s.next := by simpa using hb'
        exact hnew (by rw [← hb', ← hab]; exact ha))
      (by simp) (by simp)
      (by rw [List.append_nil, ← hd]; exact hnew)
      (fun m => by rw [List.append_nil, ← hd]; exact tbl m)
      (by rw [hlev]; exact hb.lvl) (by simp)
    have hp : addCtor s n = { s with
        defs := seg' ++ [⟨s.next, n, true, false, false, s.level⟩]
        tbl := t, next := s.next + 1 } := by
      rw [addCtor]
      dsimp only
      rw [he]
      simp
    obtain ⟨f, hf, hfe⟩ := hh.map
    have hmem : ∀ r ∈ seg', ∃ q ∈ s.defs, q.id = r.id ∧ q.exported = r.exported
        ∧ q.forward = r.forward ∧ (r.visible = true → q.visible = true) := by
      intro r hr
      rw [hfe] at hr
      obtain ⟨q, hq, rfl⟩ := List.mem_map.1 hr
      exact ⟨q, by rw [hd]; simp [hq], (hf q).1.symm, (hf q).2.2.1.symm, (hf q).2.2.2.1.symm,
        (hf q).2.2.2.2.2⟩
    have hids : seg'.map (·.id) = s.defs.map (·.id) := by
      rw [hd, hfe, List.map_map]
      refine List.map_congr_left (fun r _ => ?_)
      simp [(hf r).1]
    have hsegn : (seg.map (·.id)).Nodup := by rw [← hd]; exact nodup
    have hmem2 : ∀ r ∈ seg' ++ [(⟨s.next, n, true, false, false, s.level⟩ : Fn)],
        r ∈ seg' ∨ r = ⟨s.next, n, true, false, false, s.level⟩ := by
      intro r hr
      simpa using hr
    rw [hp]
    have hadd : (e.add n).scopes = [(n, e.next) :: frame] := by simp [Env.add, hsc]
    refine ⟨[seg' ++ [⟨s.next, n, true, false, false, s.level⟩]], ⟨?_, ?_, ?_, ?_, ?_, ?_, ?_, ?_, ?_, ?_,
      ?_, ?_, ?_⟩, by rw [hadd]; rfl⟩
    · rw [hadd]
      dsimp only
      rw [hhd, hadt, ← next, hlev]
      exact Rel.base (hb.append hh hsegn hdb) (by simp)
    · simp
    · simp only [List.map_append, List.map_cons, List.map_nil, hids]
      rw [List.nodup_append]
      refine ⟨nodup, by simp, fun a ha b hb' hab => ?_⟩
      have hb' : b = s.next := by simpa using hb'
      exact hnew (by rw [← hb', ← hab]; exact ha)
    · simp [Env.add, next]
    · intro r hr
      show r.id < s.next + 1
      rcases hmem2 r hr with hr | rfl
      · obtain ⟨q, hq, e1, _⟩ := hmem r hr
        have := bound q hq
        omega
      · exact Nat.lt_succ_self _
    · intro i hi
      exact Nat.lt_succ_of_lt (hbound i hi)
    · intro r hr hv
      rcases hmem2 r hr with hr | rfl
      · obtain ⟨q, hq, e1, _, _, e4⟩ := hmem r hr
        rw [← e1]
        exact vis q hq (e4 hv)
      · exact fun hc => Nat.lt_irrefl _ (hbound _ hc)
    · intro r hr
      rcases hmem2 r hr with hr | rfl
      · obtain ⟨q, hq, e1, e2, _⟩ := hmem r hr
        rw [← e2, exp q hq, e1]
        rfl
      · have : s.next ∉ e.exported := fun hc => Nat.lt_irrefl _ (ebound _ hc).1
        simp [Env.add, this]
    · intro i hi
      exact ⟨Nat.lt_succ_of_lt (ebound i hi).1, (ebound i hi).2⟩
    · intro r hr
      rcases hmem2 r hr with hr | rfl
      · obtain ⟨q, hq, e1, _, e3, _⟩ := hmem r hr
        rw [← e3, fwd q hq, e1]
        rfl
      · have hnp : s.next ∉ e.pending := fun hc => Nat.lt_irrefl _ (pbound _ hc)
        simp [Env.add, hnp]
    · intro i hi
      exact Nat.lt_succ_of_lt (pbound i hi)
    · intro m
      have hb2 := (hb.append (i := s.next) (fwd := false) hh hsegn hdb).first m
      rw [← hlev, newest_cons, ← hb.first] at hb2
      show lookup t m = _
      rw [ht m]
      dsimp only
      rw [hb2, tbl m, hd]
      by_cases hm : m = n
      · simp [hm]
      · rw [if_neg hm, if_neg (Ne.symm hm)]
    · show s.level = _
      rw [hlev]
      simp

theorem types_inv {s e g segs H} (h : Inv s e g segs H) (h1 : e.scopes.length = 1) (ns : List Name)
    (hdb : ∀ n ∈ ns, n ∉ g.doubled) :
    ∃ segs', Inv (ns.foldl addCtor s) (ns.foldl Env.add e) g segs' H := by
  induction ns generalizing s e segs with
  | nil => exact ⟨segs, h⟩
  | cons n ns ih =>
    obtain ⟨segs', h', h1'⟩ := addCtor_inv h h1 n (hdb n List.mem_cons_self)
    exact ih h' h1' (fun m hm => hdb m (List.mem_cons_of_mem _ hm))

/-! ### Flags of records -/

theorem firstVis_map {f : Fn → Fn} {l : List Fn}
    (hf : ∀ r ∈ l, (f r).id = r.id ∧ (f r).name = r.name ∧ (f r).visible = r.visible) (n : Name) :
    firstVis (l.map f) n = firstVis l n := by
  induction l with
  | nil => rfl
  | cons r l ih =>
    obtain ⟨h1, h2, h3⟩ := hf r List.mem_cons_self
    rw [List.map_cons, firstVis_cons, firstVis_cons, h1, h2, h3,
      ih (fun q hq => hf q (List.mem_cons_of_mem _ hq))]

theorem count_map {f : Fn → Fn} {l : List Fn}
    (hf : ∀ r ∈ l, (f r).name = r.name ∧ (f r).visible = r.visible) (n : Name) :
    count (l.map f) n = count l n := by
  induction l with
  | nil => rfl
  | cons r l ih =>
    obtain ⟨h2, h3⟩ := hf r List.mem_cons_self
    rw [List.map_cons, count_cons, count_cons, h2, h3,
      ih (fun q hq => hf q (List.mem_cons_of_mem _ hq))]

/-- Equal but for the flags that do not matter for the relation. -/
def Alike (f : Fn → Fn) (l : List Fn) : Prop :=
  ∀ r ∈ l, (f r).id = r.id ∧ (f r).name = r.name ∧ (f r).visible = r.visible ∧ (f r).level = r.level

theorem Base.map {dbl k seg frame f} (h : Base dbl k seg frame) (hf : Alike f seg) :
    Base dbl k (seg.map f) frame where
  first n := by
    rw [firstVis_map (fun r hr => ⟨(hf r hr).1, (hf r hr).2.1, (hf r hr).2.2.1⟩), h.first]
  lvl r hr hv := by
    obtain ⟨q, hq, rfl⟩ := List.mem_map.1 hr
    obtain ⟨_, _, h3, h4⟩ := hf q hq
    rw [h4]
    exact h.lvl q hq (h3 ▸ hv)
  once n hn := by
    rw [count_map (fun r hr => ⟨(hf r hr).2.1, (hf r hr).2.2.1⟩)]
    exact h.once n hn

theorem find_map_name {f : Fn → Fn} {l : List Fn} (hf : ∀ r ∈ l, (f r).name = r.name) (n : Name) :
    (l.map f).find? (fun r => decide (r.name = n))
      = (l.find? (fun r => decide (r.name = n))).map f := by
  induction l with
  | nil => rfl
  | cons r l ih =>
    rw [List.map_cons, List.find?_cons, List.find?_cons, hf r List.mem_cons_self,
      ih (fun q hq => hf q (List.mem_cons_of_mem _ hq))]
    by_cases h : r.name = n <;> simp [h]

theorem filter_map_id {f : Fn → Fn} {l : List Fn} (H : List Nat)
    (hf : ∀ r ∈ l, (f r).id = r.id ∧ (f r).name = r.name) :
    ((l.map f).filter (fun r => decide (r.id ∉ H))).map key
      = (l.filter (fun r => decide (r.id ∉ H))).map key := by
  induction l with
  | nil => rfl
  | cons r l ih =>
    obtain ⟨h1, h2⟩ := hf r List.mem_cons_self
    have ih := ih (fun q hq => hf q (List.mem_cons_of_mem _ hq))
    rw [List.map_cons, List.filter_cons, List.filter_cons, h1]
    split
    · rw [List.map_cons, List.map_cons, ih]
      simp [key, h1, h2]
    · exact ih

theorem Upper.map {H dbl k seg frame hid f} (h : Upper H dbl k seg frame hid) (hf : Alike f seg) :
    Upper H dbl k (seg.map f) frame hid where
  toBase := h.toBase.map hf
  frame_eq := by
    rw [filter_map_id H (fun r hr => ⟨(hf r hr).1, (hf r hr).2.1⟩)]
    exact h.frame_eq
  vis r hr hv := by
    obtain ⟨q, hq, rfl⟩ := List.mem_map.1 hr
    obtain ⟨h1, _, h3, _⟩ := hf q hq
    rw [h1]
    exact h.vis q hq (h3 ▸ hv)
  newestOk n hn r hr := by
    rw [find_map_name (fun r hr => (hf r hr).2.1), Option.map_eq_some_iff] at hr
    obtain ⟨q, hq, rfl⟩ := hr
    rw [(hf q (List.mem_of_find?_eq_some hq)).1]
    exact h.newestOk n hn q hq

theorem Rel.map {H dbl segs frames hs adt f} (h : Rel H dbl segs frames hs adt)
    (hf : Alike f segs.flatten) : Rel H dbl (segs.map (List.map f)) frames hs adt := by
  induction h with
  | base hb hne =>
    refine Rel.base (hb.map (fun r hr => hf r (by simpa using hr))) (by simpa using hne)
  | @cons seg frame h segs frames hs adt p hu hr hp ih =>
    have hf1 : Alike f seg := fun r hr => hf r (by simp [hr])
    have hf2 : Alike f segs.flatten := fun r hr => hf r (List.mem_append_right _ hr)
    have hpm : p ∈ segs.flatten := List.mem_of_mem_head? hp
    have hp' : (segs.map (List.map f)).flatten.head? = some (f p) := by
      rw [← List.map_flatten, List.head?_map, hp]
      rfl
    have := Rel.cons (by simpa using hu.map hf1) (ih hf2) hp'
    rw [(hf2 p hpm).1] at this
    exact this

theorem flags_inv {s e e' g segs H f} (h : Inv s e g segs H) (hf : Alike f s.defs)
    (hs : e'.scopes = e.scopes) (hn : e'.next = e.next)
    (hx : ∀ r ∈ s.defs, (f r).exported = decide (r.id ∈ e'.exported))
    (hxb : ∀ i ∈ e'.exported, i < s.next ∧ i ∉ H)
    (hp : ∀ r ∈ s.defs, (f r).forward = decide (r.id ∈ e'.pending))
    (hpb : ∀ i ∈ e'.pending, i < s.next) :
    Inv { s with defs := s.defs.map f } e' g (segs.map (List.map f)) H where
  rel := by
    rw [hs]
    exact h.rel.map (by rw [← h.defs]; exact hf)
  defs := by
    dsimp only
    rw [h.defs, List.map_flatten]
  nodup := by
    dsimp only
    have e1 : (s.defs.map f).map (·.id) = s.defs.map (·.id) := by
      rw [List.map_map]
      exact List.map_congr_left (fun r hr => (hf r hr).1)
    rw [e1]
    exact h.nodup
  next := h.next.trans hn.symm
  bound r hr := by
    obtain ⟨q, hq, rfl⟩ := List.mem_map.1 hr
    rw [(hf q hq).1]
    exact h.bound q hq
  hbound := h.hbound
  vis r hr hv := by
    obtain ⟨q, hq, rfl⟩ := List.mem_map.1 hr
    rw [(hf q hq).1]
    exact h.vis q hq ((hf q hq).2.2.1 ▸ hv)
  exp r hr := by
    obtain ⟨q, hq, rfl⟩ := List.mem_map.1 hr
    rw [(hf q hq).1]
    exact hx q hq
  ebound := hxb
  fwd r hr := by
    obtain ⟨q, hq, rfl⟩ := List.mem_map.1 hr
    rw [(hf q hq).1]
    exact hp q hq
  pbound := hpb
  tbl n := by
    dsimp only
    rw [firstVis_map (fun r hr => ⟨(hf r hr).1, (hf r hr).2.1, (hf r hr).2.2.1⟩)]
    exact h.tbl n
  level := by
    rw [List.length_map]
    exact h.level

/-- What `find` gives is a visible record that no scope has hidden. -/
theorem found {s e g segs H} (h : Inv s e g segs H) {n : Name} {i : Nat} (hi : s.find n = some i) :
    ∃ r ∈ s.defs, r.visible = true ∧ r.name = n ∧ r.id = i := by
  rw [St.find, h.tbl] at hi
  exact firstVis_some hi

end Voss.Scope
