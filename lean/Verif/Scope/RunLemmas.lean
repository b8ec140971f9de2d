import Verif.Scope.CloseLemmas

/-! Whole sessions keep the invariant. -/

namespace Voss.Scope

open Spec (Frame newest remaining Env Ghost)

theorem takeWhile_seg {seg rest : List Fn} {p : Fn} (h : ∀ r ∈ seg, r.id ≠ p.id)
    (hp : rest.head? = some p) :
    (seg ++ rest).takeWhile (fun r => decide (r.id ≠ p.id)) = seg
      ∧ (seg ++ rest).dropWhile (fun r => decide (r.id ≠ p.id)) = rest := by
  induction seg with
  | nil =>
    cases rest with
    | nil => simp at hp
    | cons q rest =>
      obtain rfl := Option.some.inj hp
      simp
  | cons q seg ih =>
    have hq := h q List.mem_cons_self
    have ih := ih (fun r hr => h r (List.mem_cons_of_mem _ hr))
    simp only [List.cons_append, List.takeWhile_cons, List.dropWhile_cons, decide_eq_true hq, if_true]
    exact ⟨by rw [ih.1], ih.2⟩

theorem ids_eq {l seg : List Fn} (h : l.map fixedPart = seg.map fixedPart) :
    l.map (·.id) = seg.map (·.id) := by
  have := congrArg (List.map (fun x => x.1)) h
  simpa [List.map_map, Function.comp_def, fixedPart] using this

theorem mem_fixed {l seg : List Fn} (h : l.map fixedPart = seg.map fixedPart) :
    ∀ r ∈ l, ∃ q ∈ seg, q.id = r.id ∧ q.name = r.name ∧ q.exported = r.exported
      ∧ q.forward = r.forward := by
  intro r hr
  have : fixedPart r ∈ seg.map fixedPart := by
    rw [← h]
    exact List.mem_map_of_mem hr
  obtain ⟨q, hq, he⟩ := List.mem_map.1 this
  simp only [fixedPart, Prod.mk.injEq] at he
  exact ⟨q, hq, he.1, he.2.1, he.2.2.1, he.2.2.2⟩

theorem close_inv {s e g segs H} (h : Inv s e g segs H) (ks : List Name)
    (hf : Spec.fine e g (.closes ks) = true) :
    ∃ segs' H', Inv (endADT s ks) (Spec.step e (.closes ks)) (g.step e (.closes ks)) segs' H' := by
  have hmean := h.meaning
  obtain ⟨rel, defs, nodup, next, bound, hbound, vis, exp, ebound, fwd, pbound, tbl, level⟩ := h
  generalize hsc : e.scopes = frames at rel
  generalize hhd : g.hidden = hs at rel
  generalize hadt : s.adt = adt at rel
  cases rel with
  | @base seg frame hid hb hne =>
    have e1 : Spec.step e (.closes ks) = e := by simp [Spec.step, hsc]
    have e2 : g.step e (.closes ks) = g := by simp [Ghost.step, hsc]
    have e3 : endADT s ks = s := by
      have hl : s.level = 1 := by simpa using level
      simp only [endADT, hadt]
      cases s
      simp_all
    rw [e1, e2, e3]
    refine ⟨[seg], H, ?_, defs, nodup, next, bound, hbound, vis, exp, ebound, fwd, pbound, tbl, level⟩
    rw [hsc, hhd, hadt]
    exact Rel.base hb hne
  | @cons seg frame hid rest frames hs adt p hu hr hp =>
    -- the conditions
    obtain ⟨framep, framesr, rfl⟩ : ∃ a b, frames = a :: b := by
      cases hr with
      | base => exact ⟨_, _, rfl⟩
      | cons => exact ⟨_, _, rfl⟩
    obtain ⟨hidp, hsr, rfl⟩ : ∃ a b, hs = a :: b := by
      cases hr with
      | base => exact ⟨_, _, rfl⟩
      | cons => exact ⟨_, _, rfl⟩
    have hf' : (ks.all (fun k => (e.meaning k).isSome && decide (k ∉ hid)
        && frame.all (fun p => !(decide (p.1 = k) && decide (p.2 ∈ e.exported))))
      && decide ((remaining e.exported ks frame).map (·.1)).Nodup) = true := by
      simpa only [Spec.fine, hsc, hhd] using hf
    simp only [Bool.and_eq_true, List.all_eq_true, decide_eq_true_eq] at hf'
    obtain ⟨hks, hdist⟩ := hf'
    have hany : ks.any (fun k => (e.meaning k).isNone) = false := by
      rw [List.any_eq_false]
      intro k hk hc
      have := (hks k hk).1.1
      rw [Option.isNone_iff_eq_none] at hc
      rw [hc] at this
      cases this
    have hany' : ks.any (fun k => (s.find k).isNone) = false := by
      rw [← hany]
      congr 1
      funext k
      rw [hmean]
    -- the records
    have hd : s.defs = seg ++ rest.flatten := by rw [defs]; simp
    have hnd := nodup
    rw [hd, List.map_append, List.nodup_append] at hnd
    have hpm : p ∈ rest.flatten := List.mem_of_mem_head? hp
    have hsegp : ∀ r ∈ seg, r.id ≠ p.id :=
      fun r hr' => hnd.2.2 _ (List.mem_map_of_mem hr') _ (List.mem_map_of_mem hpm)
    obtain ⟨htw, hdw⟩ := takeWhile_seg hsegp hp
    have hcl := closeLoop_spec (s.level - 1) e.exported H seg ks [] s.ctors
      (fun r hr' => exp r (by rw [hd]; simp [hr'])) (fun r _ hrE => (ebound r.id hrE).2)
      (fun k hk r hr' => hu.newestOk k ((hks k hk).1.2) r hr')
      (fun r hr' hrE hrK => by
        have := (hks r.name hrK).2 (r.name, r.id) (by
          rw [hu.frame_eq]
          refine List.mem_map.2 ⟨r, ?_, rfl⟩
          rw [List.mem_filter]
          exact ⟨hr', by simpa using (ebound r.id hrE).2⟩)
        simp [hrE] at this)
    rw [← hu.frame_eq] at hcl
    generalize hlv : s.level - 1 = lvl at hcl
    generalize hR : remaining e.exported ks frame = R at hcl hdist
    have hend : endADT s ks = { s with
        defs := (closeLoop lvl seg ks [] s.ctors).1 ++ rest.flatten
        tbl := openLoop rest.flatten (closeLoop lvl seg ks [] s.ctors).2.1
        adt := adt, level := lvl, ctors := (closeLoop lvl seg ks [] s.ctors).2.2 } := by
      simp only [endADT, hadt, hany', Bool.false_eq_true, if_false, hd, htw, hdw, hlv]
    rw [hend]
    generalize closeLoop lvl seg ks [] s.ctors = res at hcl
    obtain ⟨l, t, cs⟩ := res
    obtain ⟨c1, c2, c3, c4, c5⟩ := hcl
    dsimp only at c1 c2 c3 c4 c5 ⊢
    have hids := ids_eq c3
    have hlvl : lvl = (rest.length : Int) := by
      rw [← hlv, level]
      simp
    have hclosed : Closed H lvl l R := ⟨c1, hdist, c4⟩
    have hnd' : ((l ++ rest.flatten).map (·.id)).Nodup := by
      rw [List.map_append, hids, ← List.map_append, ← hd]
      exact nodup
    -- the specification
    have e1 : Spec.step e (.closes ks) = { e with scopes := (R ++ framep) :: framesr } := by
      simp only [Spec.step, hsc, hany, Bool.false_eq_true, if_false, hR]
    let H' := H ++ (l.filter (fun r => !r.visible)).map (·.id)
    let dbl' := g.doubled ++ (R.map (·.1)).filter (fun n => (newest framep n).isSome)
    let hid' := (frame.map (·.1) ++ hid ++ hidp).filter (fun n => !(decide (n ∉ hid) &&
        (match newest frame n with
        | some i => decide ((n, i) ∈ R)
        | none => false)))
    have e2 : g.step e (.closes ks) = ⟨hid' :: hsr, dbl'⟩ := by
      simp only [Ghost.step, hsc, hhd, hR, hid', dbl']
      rfl
    have hd1 : ∀ n ∈ g.doubled, n ∈ dbl' := fun n hn => List.mem_append_left _ hn
    have hd2 : ∀ n ∈ R.map (·.1), (newest framep n).isSome → n ∈ dbl' := fun n hn hs' =>
      List.mem_append_right _ (List.mem_filter.2 ⟨hn, hs'⟩)
    have hH' : ∀ r ∈ rest.flatten, r.id ∈ H' ↔ r.id ∈ H := by
      intro r hr'
      constructor
      · intro hm
        rcases List.mem_append.1 hm with hm | hm
        · exact hm
        · obtain ⟨q, hq, he⟩ := List.mem_map.1 hm
          rw [List.mem_filter] at hq
          rw [List.map_append, List.nodup_append] at hnd'
          exact absurd he (hnd'.2.2 _ (List.mem_map_of_mem hq.1) _ (List.mem_map_of_mem hr'))
      · exact fun hm => List.mem_append_left _ hm
    obtain ⟨segs', hfl, hlen, rel'⟩ : ∃ segs', segs'.flatten = l ++ rest.flatten
        ∧ segs'.length = rest.length
        ∧ Rel H' dbl' segs' ((R ++ framep) :: framesr) (hid' :: hsr) adt := by
      cases hr with
      | @base segp _ _ hb hne =>
        refine ⟨[l ++ segp], by simp, rfl, ?_⟩
        have hl1 : lvl = 1 := by simpa using hlvl
        rw [hl1] at hclosed
        exact Rel.base (hb.close hclosed hd1 hd2) (by simp [hne])
      | @cons segp _ _ rest' _ _ adt' p' hu' hr' hp' =>
        refine ⟨(l ++ segp) :: rest', by simp, rfl, ?_⟩
        have hl1 : lvl = (rest'.length : Int) + 1 := by simpa using hlvl
        rw [hl1] at hclosed
        refine Rel.cons (hu'.close hu hclosed c3 ?_ hd1 hd2) (hr'.mono ?_ hd1) hp'
        · have := hnd'
          rw [List.flatten_cons, ← List.append_assoc, List.map_append, List.nodup_append] at this
          exact this.1
        · intro r hr''
          exact hH' r (by simp only [List.flatten_cons]; exact List.mem_append_right _ hr'')
    rw [e1, e2]
    have hmem : ∀ r ∈ l ++ rest.flatten, ∃ q ∈ s.defs, q.id = r.id ∧ q.exported = r.exported
        ∧ q.forward = r.forward := by
      intro r hr'
      rcases List.mem_append.1 hr' with hr' | hr'
      · obtain ⟨q, hq, h1, _, h3, h4⟩ := mem_fixed c3 r hr'
        exact ⟨q, by rw [hd]; simp [hq], h1, h3, h4⟩
      · exact ⟨r, by rw [hd]; exact List.mem_append_right _ hr', rfl, rfl, rfl⟩
    have hlid : ∀ r ∈ l, r.id < s.next := by
      intro r hr'
      obtain ⟨q, hq, h1, _⟩ := hmem r (List.mem_append_left _ hr')
      rw [← h1]
      exact bound q hq
    refine ⟨segs', H', rel', hfl.symm, hnd', next, ?_, ?_, ?_, ?_, ?_, ?_, pbound, ?_, ?_⟩
    · intro r hr'
      obtain ⟨q, hq, h1, _⟩ := hmem r hr'
      rw [← h1]
      exact bound q hq
    · intro i hi
      rcases List.mem_append.1 hi with hi | hi
      · exact hbound i hi
      · obtain ⟨q, hq, rfl⟩ := List.mem_map.1 hi
        exact hlid q (List.mem_filter.1 hq).1
    · intro r hr' hv
      rcases List.mem_append.1 hr' with hr' | hr'
      · intro hm
        rcases List.mem_append.1 hm with hm | hm
        · exact (c4 r hr' hv).2 hm
        · obtain ⟨q, hq, he⟩ := List.mem_map.1 hm
          rw [List.mem_filter] at hq
          have := id_unique hnd' (List.mem_append_left _ hq.1) (List.mem_append_left _ hr') he
          rw [this, hv] at hq
          simp at hq
      · rw [hH' r hr']
        exact vis r (by rw [hd]; exact List.mem_append_right _ hr') hv
    · intro r hr'
      obtain ⟨q, hq, h1, h2, _⟩ := hmem r hr'
      rw [← h2, exp q hq, h1]
    · intro i hi
      refine ⟨(ebound i hi).1, fun hm => ?_⟩
      rcases List.mem_append.1 hm with hm | hm
      · exact (ebound i hi).2 hm
      · obtain ⟨q, hq, rfl⟩ := List.mem_map.1 hm
        rw [List.mem_filter] at hq
        obtain ⟨q', hq', h1, h2, _⟩ := hmem q (List.mem_append_left _ hq.1)
        have hx : q.exported = true := by
          rw [← h2, exp q' hq', h1]
          simpa using hi
        have := c5 q hq.1 hx
        rw [this] at hq
        simp at hq
    · intro r hr'
      obtain ⟨q, hq, h1, _, h3⟩ := hmem r hr'
      rw [← h3, fwd q hq, h1]
    · intro n
      dsimp only
      rw [openLoop_eq, c2, firstVis_append, List.append_nil, lookup_reverse hdist, firstVis_eq l, c1,
        newest_eq]
    · rw [hlen]
      exact hlvl

theorem define_inv {s e g segs H} (h : Inv s e g segs H) (n : Name)
    (hf : Spec.fine e g (.define n) = true) :
    ∃ segs' H', Inv (define s n) (Spec.step e (.define n)) (g.step e (.define n)) segs' H' := by
  have hm := h.meaning n
  have hpush : ∃ segs' H', Inv (pushDef s n false) (e.add n) (g.defined n) segs' H' := by
    obtain ⟨segs', h'⟩ := push_inv h n false
    exact ⟨segs', H, by simpa [Env.add] using h'⟩
  cases hw : s.find n with
  | none =>
    rw [hw] at hm
    simpa only [define, hw, Spec.step, Spec.define, ← hm, Ghost.step] using hpush
  | some i =>
    rw [hw] at hm
    obtain ⟨r, hr, hrv, hrn, hri⟩ := found h hw
    have hg : s.get i = some r := by
      rw [← hri]
      exact get_mem h.nodup hr
    have hfw := h.fwd r hr
    rw [hri] at hfw
    by_cases hp : i ∈ e.pending
    · have hrf : r.forward = true := by simpa [hp] using hfw
      simp only [Spec.fine, ← hm, hp, decide_true, Bool.true_and, Bool.not_eq_true',
        decide_eq_false_iff_not] at hf
      simp only [define, hw, hg, hrf, if_true, Spec.step, Spec.define, ← hm, hp, Ghost.step]
      refine ⟨_, H, flags_inv h ?_ rfl rfl ?_ h.ebound ?_ ?_⟩
      · intro q hq
        dsimp only
        by_cases hqi : q.id = i
        · have : q = r := id_unique h.nodup hq hr (hqi.trans hri.symm)
          rw [if_pos hqi]
          exact ⟨rfl, rfl, by rw [this, hrv], rfl⟩
        · rw [if_neg hqi]
          exact ⟨rfl, rfl, rfl, rfl⟩
      · intro q hq
        dsimp only
        by_cases hqi : q.id = i
        · rw [if_pos hqi, hqi]
          simp [hf]
        · rw [if_neg hqi]
          exact h.exp q hq
      · intro q hq
        dsimp only
        by_cases hqi : q.id = i
        · rw [if_pos hqi, hqi]
          simp
        · rw [if_neg hqi, h.fwd q hq]
          simp [hqi]
      · intro j hj
        exact h.pbound j (List.mem_filter.1 hj).1
    · have hrf : r.forward = false := by simpa [hp] using hfw
      simpa only [define, hw, hg, hrf, Bool.false_eq_true, if_false, Spec.step, Spec.define, ← hm, hp,
        Ghost.step] using hpush

theorem export_inv {s e g segs H} (h : Inv s e g segs H) (n : Name) :
    ∃ segs' H', Inv (exportFun s n) (Spec.step e (.exp n)) (g.step e (.exp n)) segs' H' := by
  have hm := h.meaning n
  cases hw : s.find n with
  | none =>
    rw [hw] at hm
    simp only [exportFun, hw, Spec.step, ← hm, Ghost.step]
    exact ⟨segs, H, h⟩
  | some i =>
    rw [hw] at hm
    obtain ⟨r, hr, hrv, hrn, hri⟩ := found h hw
    simp only [exportFun, hw, Spec.step, ← hm, Ghost.step]
    refine ⟨_, H, flags_inv h ?_ rfl rfl ?_ ?_ ?_ h.pbound⟩
    · intro q hq
      dsimp only
      by_cases hqi : q.id = i
      · rw [if_pos hqi]
        exact ⟨rfl, rfl, rfl, rfl⟩
      · rw [if_neg hqi]
        exact ⟨rfl, rfl, rfl, rfl⟩
    · intro q hq
      dsimp only
      by_cases hqi : q.id = i
      · rw [if_pos hqi, hqi]
        simp
      · rw [if_neg hqi, h.exp q hq]
        simp [hqi]
    · intro j hj
      rcases List.mem_cons.1 hj with rfl | hj
      · exact ⟨by rw [← hri]; exact h.bound r hr, by rw [← hri]; exact h.vis r hr hrv⟩
      · exact h.ebound j hj
    · intro q hq
      dsimp only
      by_cases hqi : q.id = i
      · rw [if_pos hqi]
        exact h.fwd q hq
      · rw [if_neg hqi]
        exact h.fwd q hq

end Voss.Scope
