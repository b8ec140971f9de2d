import Verif.Node.TableLemmas

namespace Voss.Node
open Voss.Vec

theorem isFull_fits {d v : Vec} (h : Fits d v) : isFull d v = some (decide (d = v)) := by
  induction h with
  | nil => rfl
  | txt s d v _ ih => simp [isFull, ih]
  | idx rs d q qs v _ ih =>
    rw [isFull, ih]
    by_cases h1 : rs = q :: qs
    · rw [if_pos h1]
      simp [h1]
    · rw [if_neg h1]
      simp [h1]

theorem look_self {N : List Int} {d : Vec} (hn : (expand d).Nodup) (hl : N.length = (expand d).length) :
    (expand d).map (look N d 0) = N := by
  refine List.ext_getElem (by simp [hl]) fun k h1 h2 => ?_
  rw [List.getElem_map, look, hn.idxOf_getElem, Nat.zero_add, List.getElem?_eq_getElem h2]
  rfl

theorem mapOne_ok {d v : Vec} {m : List Run} (hf : Fits d v) (ht : TailDown d) (hm : Runs m)
    (hl : (nodesOf m).length = (expand d).length) (hn : (expand d).Nodup) (hb : ∀ b ∈ expand v, b ∈ expand d) :
    ∃ m', mapOne d v m = .ok m' ∧ nodesOf m' = (expand v).map (look (nodesOf m) d 0) := by
  unfold mapOne
  rw [isFull_fits hf]
  by_cases h : d = v
  · subst h
    simp only [decide_true]
    exact ⟨m, rfl, (look_self hn hl).symm⟩
  · simp only [h, decide_false]
    have := mapNode_ok d v m 0 [] hf ht hm (by rw [hl, expand_length]; omega) hb
    refine ⟨_, this, ?_⟩
    rw [pushAll_nodes]
    rfl

theorem mapOne_miss {d v : Vec} {m : List Run} (hf : Fits d v) (ht : TailDown d) (hm : Runs m)
    (hl : (nodesOf m).length = (expand d).length) (hb : ¬ ∀ b ∈ expand v, b ∈ expand d) :
    mapOne d v m = .miss := by
  unfold mapOne
  rw [isFull_fits hf]
  have h : d ≠ v := by
    rintro rfl
    exact hb fun _ h => h
  simp only [h, decide_false]
  exact mapNode_miss d v m 0 [] hf ht hm (by rw [hl, expand_length]; omega) hb

theorem look_nodeOf {d : Vec} {m : List Run} {b : Vec} (hl : (nodesOf m).length = (expand d).length)
    (hb : b ∈ expand d) : NodeOf d m b (look (nodesOf m) d 0 b) := by
  have h1 := List.idxOf_lt_length_of_mem hb
  refine ⟨(expand d).idxOf b, List.getElem?_idxOf hb, ?_⟩
  rw [look, Nat.zero_add, List.getElem?_eq_getElem (by omega)]
  rfl

theorem forall2_map {α β : Type} {R : α → β → Prop} {f : α → β} {l : List α} (h : ∀ a ∈ l, R a (f a)) :
    List.Forall₂ R l (l.map f) := by
  induction l with
  | nil => exact .nil
  | cons a l ih => exact .cons (h a List.mem_cons_self) (ih fun b hb => h b (List.mem_cons_of_mem _ hb))

theorem mem_cons_expand {s : List Char} {d : Vec} {b : Vec} : Seg.txt s :: b ∈ expand (.txt s :: d) ↔ b ∈ expand d := by
  rw [expand]
  constructor
  · intro h
    obtain ⟨b', h1, h2⟩ := List.mem_map.mp h
    simp only [List.cons.injEq, true_and] at h2
    exact h2 ▸ h1
  · exact fun h => List.mem_map.mpr ⟨b, h, rfl⟩

theorem nodup_tail {s : List Char} {d : Vec} (h : (expand (.txt s :: d)).Nodup) : (expand d).Nodup := by
  rw [expand] at h
  exact List.Nodup.of_map _ h

theorem indLoop_spec {v : Vec} {m : List Run} : ∀ es : List Info,
    (∀ e ∈ es, mapOne e.decl.tail v e.map = .miss ∨ mapOne e.decl.tail v e.map = .ok m) →
    (∃ e ∈ es, mapOne e.decl.tail v e.map = .ok m) → indLoop v es = .ok m
  | [], _, ⟨e, he, _⟩ => by simp at he
  | e :: es, h, ⟨e', he', hr⟩ => by
    rw [indLoop]
    rcases h e List.mem_cons_self with h2 | h2
    · rw [h2]
      simp only
      refine indLoop_spec es (fun y hy => h y (List.mem_cons_of_mem _ hy)) ?_
      rcases List.mem_cons.mp he' with rfl | he'
      · rw [h2] at hr
        simp at hr
      · exact ⟨e', he', hr⟩
    · rw [h2]

theorem declLoop_spec {v : Vec} {m : List Run} : ∀ es : List Info,
    (∀ e ∈ es, mapOne e.decl v e.map = .miss ∨ mapOne e.decl v e.map = .ok m) →
    (∃ e ∈ es, mapOne e.decl v e.map = .ok m) → declLoop v es = .ok m
  | [], _, ⟨e, he, _⟩ => by simp at he
  | e :: es, h, ⟨e', he', hr⟩ => by
    rw [declLoop]
    rcases h e List.mem_cons_self with h2 | h2
    · rw [h2]
      simp only
      refine declLoop_spec es (fun y hy => h y (List.mem_cons_of_mem _ hy)) ?_
      rcases List.mem_cons.mp he' with rfl | he'
      · rw [h2] at hr
        simp at hr
      · exact ⟨e', he', hr⟩
    · rw [h2]

theorem declLoop_miss {v : Vec} : ∀ es : List Info, (∀ e ∈ es, mapOne e.decl v e.map = .miss) → declLoop v es = .miss
  | [], _ => rfl
  | e :: es, h => by
    rw [declLoop, h e List.mem_cons_self]
    exact declLoop_miss es fun y hy => h y (List.mem_cons_of_mem _ hy)

theorem sig_of_shape : ∀ v w : Vec, shape v = shape w → sig v = sig w := by
  intro v
  induction v with
  | nil => intro w hw; cases w with
    | nil => rfl
    | cons y w => simp [shape] at hw
  | cons x v ih =>
    intro w hw
    cases w with
    | nil => simp [shape] at hw
    | cons y w =>
      cases x with
      | txt s => cases y with
        | txt t =>
          simp only [shape_txt, List.cons.injEq, Seg.txt.injEq] at hw
          rw [sig, sig, hw.1, ih w hw.2]
        | idx t => simp [shape] at hw
      | idx s => cases y with
        | txt t => simp [shape] at hw
        | idx t =>
          simp only [shape_idx, List.cons.injEq, true_and] at hw
          rw [sig, sig, ih w hw]

theorem vec_found {ps : List (Sg × Info)} {st : State} (h : Inv ps st) (hok : ∀ p ∈ ps, p.1.Ok)
    (hn : ((ps.map Prod.fst).flatMap Sg.bits).Nodup) {p : Sg × Info} (hp : p ∈ ps) {v : Vec} (hv : WF v)
    (hs : '*' ∉ vecText v) (hb : ∀ b ∈ expand v, b ∈ p.1.bits) :
    ∃ m, vec2indices st (vecText v) = .ok m ∧
      List.Forall₂ (NodeOf p.1.full p.2.map) (expand v) (nodesOf m) := by
  have hns := nostar_of_text v hs
  have hne : expand v ≠ [] := by
    have := size_pos v (wf_idx v hv)
    rw [← expand_length] at this
    exact List.ne_nil_of_length_pos this
  obtain ⟨b0, hb0⟩ := List.exists_mem_of_ne_nil _ hne
  have hk : p.2.hier ++ sig p.2.decl = sig (norm v) := by
    rw [sig_entry (h.entry p hp), sig_norm]
    refine sig_of_shape _ _ ?_
    rw [selects_shape ((mem_expand _ _).mp (hb b0 hb0)), selects_shape ((mem_expand _ _).mp hb0)]
  have hlen : ∀ q ∈ ps, (nodesOf q.2.map).length = (expand (norm q.1.rest)).length := by
    intro q hq
    rw [(h.entry q hq).len, expand_length]
    rfl
  have hnd : ∀ q ∈ ps, (expand (norm q.1.rest)).Nodup := by
    intro q hq
    have := nodup_of_flatMap hn (List.mem_map.mpr ⟨q, hq, rfl⟩)
    rw [bits_norm] at this
    exact List.Nodup.of_map _ this
  have hent := h.entry p hp
  obtain ⟨v', h1, h2, h3⟩ := entry_fits hent (hok p hp) hv hns (by rw [hk, sig_norm])
  have hall : ∀ b ∈ expand v', b ∈ expand (norm p.1.rest) := by
    intro b hbv
    have := hb (.txt (p.1.hier ++ p.1.base) :: b) (by rw [← expand_norm, h1]; exact mem_cons_expand.mpr hbv)
    rw [bits_norm] at this
    obtain ⟨b', h4, h5⟩ := List.mem_map.mp this
    simp only [List.cons.injEq, true_and] at h5
    exact h5 ▸ h4
  obtain ⟨m, hm1, hm2⟩ := mapOne_ok h2 (hok p hp).down hent.runs (hlen p hp) (hnd p hp) hall
  refine ⟨m, ?_, ?_⟩
  · unfold vec2indices
    rw [split_text hv, h1]
    simp only
    rw [← h1]
    refine indLoop_spec _ ?_ ?_
    · intro e he
      simp only [chain, List.mem_filter, decide_eq_true_eq, h.infos, List.mem_map] at he
      obtain ⟨⟨q, hq, rfl⟩, hkq⟩ := he
      obtain ⟨w', g1, g2, g3⟩ := entry_fits (h.entry q hq) (hok q hq) hv hns (by rw [hkq, sig_norm])
      rw [h1] at g1
      simp only [List.cons.injEq, Seg.txt.injEq] at g1
      obtain ⟨g1, rfl⟩ := g1
      by_cases ha : ∀ b ∈ expand v', b ∈ expand (norm q.1.rest)
      · right
        obtain ⟨b1, hb1⟩ := List.exists_mem_of_ne_nil _ (fits_ne g2)
        have e1 : .txt (p.1.hier ++ p.1.base) :: b1 ∈ p.1.bits := by
          rw [bits_norm]; exact List.mem_map.mpr ⟨b1, hall b1 hb1, rfl⟩
        have e2 : .txt (p.1.hier ++ p.1.base) :: b1 ∈ q.1.bits := by
          rw [bits_norm, g1]; exact List.mem_map.mpr ⟨b1, ha b1 hb1, rfl⟩
        have := ps_unique hn hp hq e1 e2
        subst this
        rw [g3]
        exact hm1
      · left
        rw [g3]
        exact mapOne_miss g2 (hok q hq).down (h.entry q hq).runs (hlen q hq) ha
    · refine ⟨p.2, ?_, ?_⟩
      · simp only [chain, List.mem_filter, decide_eq_true_eq, h.infos, List.mem_map]
        exact ⟨⟨p, hp, rfl⟩, hk⟩
      · rw [h3]
        exact hm1
  · rw [hm2, ← expand_norm v, h1, expand]
    rw [List.forall₂_map_left_iff]
    refine forall2_map fun b hbv => ?_
    obtain ⟨k, hk1, hk2⟩ := look_nodeOf (hlen p hp) (hall b hbv)
    refine ⟨k, ?_, hk2⟩
    rw [show expand p.1.full = p.1.bits from rfl, bits_norm, List.getElem?_map, hk1]
    rfl

/-! ### Actuals -/

theorem table_fits {e : Info} {v : Vec} (hw : WF e.decl) (hs : '*' ∉ vecText e.decl) (hv : WF v) (hns : NoStar v)
    (hk : sig e.decl = sig v) (hne : ∀ rs, Seg.idx rs ∈ v → rs ≠ []) : Fits e.decl v :=
  fits_of_shape _ _ (shape_of_sig _ _ hw hv (nostar_of_text _ hs) hns hk) hne

theorem fits_norm {d v : Vec} (h : Fits d v) (hv : ∀ rs, Seg.idx rs ∈ v → rs ≠ []) : Fits d (norm v) :=
  fits_of_shape _ _ (by rw [shape_norm, fits_shape h]) (norm_idx hv)

/-- One vector, all of whose bits are in the same declaration or not. -/
theorem declLoop_found {es : List Info} (ht : Table es) {v : Vec}
    (hf : ∀ e ∈ es, Fits e.decl v) {e : Info} (he : e ∈ es) (hb : ∀ b ∈ expand v, b ∈ expand e.decl) :
    ∃ m, declLoop v es = .ok m ∧ List.Forall₂ (NodeOf e.decl e.map) (expand v) (nodesOf m) := by
  have hnd : ∀ e ∈ es, (expand e.decl).Nodup := fun e he => nodup_of_flatMap ht.once he
  obtain ⟨m, h1, h2⟩ := mapOne_ok (hf e he) (ht.down e he) (ht.runs e he) (ht.len e he) (hnd e he) hb
  refine ⟨m, declLoop_spec es ?_ ⟨e, he, h1⟩, ?_⟩
  · intro e' he'
    by_cases ha : ∀ b ∈ expand v, b ∈ expand e'.decl
    · right
      obtain ⟨b1, hb1⟩ := List.exists_mem_of_ne_nil _ (fits_ne (hf e he))
      have := mem_flatMap_unique ht.once he he' (hb b1 hb1) (ha b1 hb1)
      subst this
      exact h1
    · left
      exact mapOne_miss (hf e' he') (ht.down e' he') (ht.runs e' he') (ht.len e' he') ha
  · rw [h2]
    exact forall2_map fun b hbv => look_nodeOf (ht.len e he) (hb b hbv)

theorem bit_fits {d v b : Vec} (hf : Fits d v) (hb : b ∈ expand v) : Fits d b := by
  have hs := (mem_expand _ _).mp hb
  refine fits_of_shape _ _ (by rw [fits_shape hf, selects_shape hs]) ?_
  clear hf hb
  induction hs with
  | nil => intro rs h; simp at h
  | txt s v b _ ih =>
    intro rs h
    rcases List.mem_cons.mp h with h | h
    · simp at h
    · exact ih rs h
  | idx rs v b r i _ _ _ ih =>
    intro rs h
    rcases List.mem_cons.mp h with h | h
    · simp only [Seg.idx.injEq] at h
      subst h
      simp
    · exact ih rs h

theorem expand_self : ∀ {v b : Vec}, Selects v b → expand b = [b]
  | _, _, .nil => rfl
  | _, _, .txt s v b h => by rw [expand, expand_self h]; rfl
  | _, _, .idx rs v b r i _ _ h => by
    rw [expand_rows, expand_self h]
    simp [rows, bits_one]

theorem single_run {m : List Run} {n : Int} (h : nodesOf m = [n]) : ∃ r, m = [r] ∧ Rng.bits ⟨r.frm, r.to⟩ = [n] := by
  cases m with
  | nil => simp [nodesOf] at h
  | cons r m =>
    have e : nodesOf (r :: m) = Rng.bits ⟨r.frm, r.to⟩ ++ nodesOf m := rfl
    have hl := bits_length ⟨r.frm, r.to⟩
    cases m with
    | nil => exact ⟨r, rfl, by simpa [nodesOf] using h⟩
    | cons r' m =>
      have hl' := bits_length ⟨r'.frm, r'.to⟩
      have := congrArg List.length h
      have e' : nodesOf (r' :: m) = Rng.bits ⟨r'.frm, r'.to⟩ ++ nodesOf m := rfl
      rw [e, e', List.length_append, List.length_append, hl, hl'] at this
      simp only [List.length_cons, List.length_nil] at this
      omega

theorem bitLoop_found {es : List Info} (ht : Table es) {v : Vec} (hf : ∀ e ∈ es, Fits e.decl v) :
    ∀ bs : List Vec, (∀ b ∈ bs, b ∈ expand v) → (∀ b ∈ bs, ∃ e ∈ es, b ∈ expand e.decl) →
      ∃ m, bitLoop es bs = .ok m ∧
        List.Forall₂ (fun b n => ∃ e ∈ es, NodeOf e.decl e.map b n) bs (nodesOf m) ∧ m.length = bs.length
  | [], _, _ => ⟨[], rfl, .nil, rfl⟩
  | b :: bs, hv, he => by
    obtain ⟨e, hes, hbe⟩ := he b List.mem_cons_self
    have hself := expand_self ((mem_expand _ _).mp (hv b List.mem_cons_self))
    obtain ⟨m, h1, h2⟩ := declLoop_found ht (v := b) (fun e he => bit_fits (hf e he) (hv b List.mem_cons_self)) hes
      (by rw [hself]; simpa using hbe)
    rw [hself] at h2
    obtain ⟨m', h3, h4, h5⟩ := bitLoop_found ht hf bs (fun b hb => hv b (List.mem_cons_of_mem _ hb))
      (fun b hb => he b (List.mem_cons_of_mem _ hb))
    cases hnm : nodesOf m with
    | nil => rw [hnm] at h2; cases h2
    | cons n ns =>
      rw [hnm] at h2
      cases h2 with
      | cons hno hrest =>
        cases hrest
        obtain ⟨r, rfl, hr⟩ := single_run hnm
        rw [bitLoop, h1]
        simp only
        rw [h3]
        cases m' with
        | nil =>
          refine ⟨[r], rfl, ?_, ?_⟩
          · rw [hnm]
            cases h4
            exact .cons ⟨e, hes, hno⟩ .nil
          · simp only [List.length_cons, List.length_nil] at h5 ⊢
            omega
        | cons r' m' =>
          refine ⟨r :: r' :: m', rfl, ?_, by simpa using h5⟩
          have e' : nodesOf (r :: r' :: m') = Rng.bits ⟨r.frm, r.to⟩ ++ nodesOf (r' :: m') := rfl
          rw [e', hr]
          exact .cons ⟨e, hes, hno⟩ h4

theorem table_filter {es : List Info} (ht : Table es) (f : Info → Bool) : Table (es.filter f) := by
  have hs : ∀ e ∈ es.filter f, e ∈ es := fun e he => (List.mem_filter.mp he).1
  refine ⟨fun e he => ht.wf e (hs e he), fun e he => ht.star e (hs e he), fun e he => ht.down e (hs e he),
    fun e he => ht.runs e (hs e he), fun e he => ht.len e (hs e he), ?_⟩
  refine List.Nodup.sublist ?_ ht.once
  clear hs ht
  induction es with
  | nil => exact .slnil
  | cons a es ih =>
    rw [List.filter_cons]
    split
    · rw [List.flatMap_cons, List.flatMap_cons]
      exact List.Sublist.append_left ih _
    · rw [List.flatMap_cons]
      exact ih.trans (List.sublist_append_right _ _)

/-! ### Slices -/

theorem appendRange_nodes (m : List Run) (a b : Int) : nodesOf (appendRange m a b) = nodesOf m ++ Rng.bits ⟨a, b⟩ := by
  induction m with
  | nil => simp [appendRange, nodesOf]
  | cons r m ih =>
    cases m with
    | nil =>
      rw [appendRange]
      split
      · have := bits_join_up (u := r.frm) (l := r.to) (u' := a) (l' := b) (by omega) (by omega) (by omega)
        simp only [nodesOf, List.flatMap_cons, List.flatMap_nil, List.append_nil]
        exact this
      · split
        · have := bits_join_down (u := r.frm) (l := r.to) (u' := a) (l' := b) (by omega) (by omega) (by omega)
          simp only [nodesOf, List.flatMap_cons, List.flatMap_nil, List.append_nil]
          exact this
        · simp [nodesOf]
    | cons r' m =>
      rw [appendRange]
      have e : ∀ l, nodesOf (r :: l) = Rng.bits ⟨r.frm, r.to⟩ ++ nodesOf l := fun _ => rfl
      rw [e, ih, e, List.append_assoc]

theorem appendRange_runs (m : List Run) (a b : Int) (h : Runs m) (ha : 0 ≤ a) (hb : 0 ≤ b) : Runs (appendRange m a b) := by
  induction m with
  | nil =>
    intro r hr
    simp only [appendRange, List.mem_singleton] at hr
    subst hr
    exact ⟨rfl, ha, hb⟩
  | cons r m ih =>
    have h1 := h r List.mem_cons_self
    cases m with
    | nil =>
      rw [appendRange]
      split
      · intro q hq
        simp only [List.mem_singleton] at hq
        subst hq
        exact ⟨rfl, h1.2.1, hb⟩
      · split
        · intro q hq
          simp only [List.mem_singleton] at hq
          subst hq
          exact ⟨rfl, h1.2.1, hb⟩
        · intro q hq
          simp only [List.mem_cons, List.not_mem_nil, or_false] at hq
          rcases hq with rfl | rfl
          · exact h1
          · exact ⟨rfl, ha, hb⟩
    | cons r' m =>
      rw [appendRange]
      intro q hq
      rcases List.mem_cons.mp hq with rfl | hq
      · exact h1
      · exact ih (fun q hq => h q (List.mem_cons_of_mem _ hq)) q hq

/-- A part of a run. -/
theorem bits_part (f t : Int) (i s : Nat) (hs : 0 < s) (h : i + s ≤ (t - f).natAbs + 1) :
    ((Rng.bits ⟨f, t⟩).drop i).take s =
      Rng.bits ⟨f + (i : Int) * (if f > t then -1 else 1),
        f + (i : Int) * (if f > t then -1 else 1) + ((s : Int) - 1) * (if f > t then -1 else 1)⟩ := by
  have hl := bits_length ⟨f, t⟩
  simp only at hl
  have hl2 : (f - t).natAbs = (t - f).natAbs := by omega
  refine List.ext_getElem? fun k => ?_
  by_cases hk : k < s
  · rw [List.getElem?_take_of_lt hk, List.getElem?_drop, bits_get _ _ (by omega)]
    rw [bits_get]
    · simp only [Option.some.injEq]
      by_cases hft : f > t
      · simp only [if_pos hft]
        split <;> omega
      · simp only [if_neg hft]
        split
        · omega
        · omega
    · rw [bits_length]
      simp only
      by_cases hft : f > t
      · simp only [if_pos hft]; omega
      · simp only [if_neg hft]; omega
  · rw [List.getElem?_eq_none (by rw [List.length_take]; omega), List.getElem?_eq_none]
    rw [bits_length]
    simp only
    by_cases hft : f > t
    · simp only [if_pos hft]; omega
    · simp only [if_neg hft]; omega

theorem take_spec : ∀ (m : List Run) (cur i s : Nat) (res : List Run), Runs m → Runs res → 0 < s →
    (∀ r l, m = r :: l → i < r.size) → i + s ≤ (nodesOf m).length →
    ∃ m', take m cur (cur + i : Nat) s res = some m' ∧ Runs m' ∧ nodesOf m' = nodesOf res ++ ((nodesOf m).drop i).take s
  | [], cur, i, s, res, _, _, hs, _, hl => by simp [nodesOf] at hl; omega
  | r :: m, cur, i, s, res, hm, hr, hs, hi, hl => by
    have h1 := hm r List.mem_cons_self
    have hi' := hi r m rfl
    have e : nodesOf (r :: m) = Rng.bits ⟨r.frm, r.to⟩ ++ nodesOf m := rfl
    have hbl := bits_length ⟨r.frm, r.to⟩
    simp only at hbl
    have hl2 : (r.frm - r.to).natAbs = (r.to - r.frm).natAbs := by omega
    have hstart : ((cur + i : Nat) : Int) - (cur : Int) = (i : Int) := by omega
    have habs : (r.frm + (i : Int) * (if r.frm > r.to then -1 else 1) - r.frm).natAbs = i := by
      split <;> omega
    rw [take]
    simp only [hstart, habs]
    by_cases hfit : (r.size : Int) - (i : Int) ≥ (s : Int)
    · rw [if_pos hfit]
      refine ⟨_, rfl, ?_, ?_⟩
      · refine appendRange_runs _ _ _ hr ?_ ?_
        · split <;> omega
        · split <;> omega
      · rw [appendRange_nodes, e, List.drop_append_of_le_length (by omega), List.take_append_of_le_length
          (by rw [List.length_drop]; omega), bits_part _ _ _ _ hs (by omega)]
    · rw [if_neg hfit]
      have hu : (r.to - (r.frm + (i : Int) * (if r.frm > r.to then -1 else 1))).natAbs + 1 = r.size - i := by
        split <;> omega
      have hu' : ((r.to - (r.frm + (i : Int) * (if r.frm > r.to then -1 else 1))).natAbs : Int) + 1 = ((r.size - i : Nat) : Int) := by
        rw [← hu]; omega
      rw [hu']
      have e1 : ((cur : Int) + (r.size : Int)) = ((cur + r.size : Nat) : Int) := by omega
      have e2 : (((cur + i : Nat) : Int) + ((r.size - i : Nat) : Int)) = ((cur + r.size + 0 : Nat) : Int) := by omega
      have e3 : ((s : Int) - ((r.size - i : Nat) : Int)) = ((s - (r.size - i) : Nat) : Int) := by omega
      rw [e1, e2, e3]
      have hend : r.to = r.frm + (i : Int) * (if r.frm > r.to then -1 else 1) +
          (((r.size - i : Nat) : Int) - 1) * (if r.frm > r.to then -1 else 1) := by
        split <;> omega
      obtain ⟨m', g1, g2, g3⟩ := take_spec m (cur + r.size) 0 (s - (r.size - i))
        (appendRange res (r.frm + (i : Int) * (if r.frm > r.to then -1 else 1)) r.to)
        (fun q hq => hm q (List.mem_cons_of_mem _ hq))
        (appendRange_runs _ _ _ hr (by split <;> omega) h1.2.2) (by omega)
        (fun q l hq => by
          have := (hm q (by rw [hq]; exact List.mem_cons_of_mem _ List.mem_cons_self)).1
          omega)
        (by rw [e, List.length_append] at hl; omega)
      refine ⟨m', g1, g2, ?_⟩
      rw [g3, appendRange_nodes, e, List.drop_append_of_le_length (by omega), List.take_append, List.append_assoc,
        List.length_drop]
      congr 1
      have hb := bits_part r.frm r.to i (r.size - i) (by omega) (by omega)
      rw [← hend] at hb
      have h4 : ((Rng.bits ⟨r.frm, r.to⟩).drop i).take s = ((Rng.bits ⟨r.frm, r.to⟩).drop i).take (r.size - i) := by
        rw [List.take_of_length_le (by rw [List.length_drop]; omega), List.take_of_length_le (by rw [List.length_drop]; omega)]
      rw [h4, hb]
      congr 1
      rw [List.drop_zero]
      congr 1
      omega

theorem seek_spec (a : Nat) : ∀ (m : List Run) (cur : Nat), Runs m → cur ≤ a → a < cur + (nodesOf m).length →
    ∃ (c : Nat) (m1 m2 : List Run), seek a m cur = some ((c : Int), m2) ∧ m = m1 ++ m2 ∧ c = cur + (nodesOf m1).length ∧ c ≤ a ∧
      ∀ r l, m2 = r :: l → a - c < r.size
  | [], cur, _, h1, h2 => by simp [nodesOf] at h2; omega
  | r :: m, cur, hm, h1, h2 => by
    have hr := hm r List.mem_cons_self
    have e : ∀ l, nodesOf (r :: l) = Rng.bits ⟨r.frm, r.to⟩ ++ nodesOf l := fun _ => rfl
    have hbl := bits_length ⟨r.frm, r.to⟩
    simp only at hbl
    have hl2 : (r.frm - r.to).natAbs = (r.to - r.frm).natAbs := by omega
    rw [seek]
    split
    · refine ⟨cur, [], r :: m, rfl, rfl, by simp [nodesOf], h1, ?_⟩
      intro q l hq
      simp only [List.cons.injEq] at hq
      rw [← hq.1]
      omega
    · have e1 : ((cur : Int) + (r.size : Int)) = ((cur + r.size : Nat) : Int) := by omega
      rw [e1]
      rw [e, List.length_append] at h2
      obtain ⟨c, m1, m2, g1, g2, g3, g4, g5⟩ := seek_spec a m (cur + r.size) (fun q hq => hm q (List.mem_cons_of_mem _ hq))
        (by omega) (by omega)
      refine ⟨c, r :: m1, m2, g1, by rw [g2]; rfl, ?_, g4, g5⟩
      rw [g3, e, List.length_append]
      omega

end Voss.Node
