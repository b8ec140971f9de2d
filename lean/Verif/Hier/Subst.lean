import Verif.Hier.Lemmas
import Verif.Vec.Props

namespace Voss.Hier
open Vec

/-! ### Connections -/

theorem conn_cons {p : Pin} {ps : List Pin} {c : List (Name × Name)} (h : conn (p :: ps) = some c) :
    ∃ a b, connPin p = some a ∧ conn ps = some b ∧ c = a ++ b := by
  simp only [conn] at h
  cases h1 : connPin p with
  | none => simp [h1] at h
  | some a =>
    cases h2 : conn ps with
    | none => simp [h1, h2] at h
    | some b =>
      simp only [h1, h2, Option.bind_eq_bind, Option.bind_some, Option.some.injEq] at h
      exact ⟨a, b, rfl, rfl, h.symm⟩

theorem connPin_some {p : Pin} {c : List (Name × Name)} (h : connPin p = some c) :
    ∃ fs as, mdExpand p.formal = some fs ∧ mdExpandAll p.acts = some as ∧ fs.length = as.length ∧ c = fs.zip as := by
  unfold connPin at h
  cases h1 : mdExpand p.formal with
  | none => simp [h1] at h
  | some fs =>
    cases h2 : mdExpandAll p.acts with
    | none => simp [h1, h2] at h
    | some as =>
      simp only [h1, h2, Option.bind_eq_bind, Option.bind_some] at h
      split at h
      · rename_i he
        simp only [Option.some.injEq] at h
        exact ⟨fs, as, rfl, rfl, he, h.symm⟩
      · simp at h

theorem conn_append {ps qs : List Pin} {c : List (Name × Name)} (h : conn (ps ++ qs) = some c) :
    ∃ a b, conn ps = some a ∧ conn qs = some b ∧ c = a ++ b := by
  induction ps generalizing c with
  | nil => exact ⟨[], c, rfl, h, rfl⟩
  | cons p ps ih =>
    obtain ⟨a, b, h1, h2, rfl⟩ := conn_cons h
    obtain ⟨a', b', h3, h4, rfl⟩ := ih h2
    refine ⟨a ++ a', b', ?_, h4, by simp⟩
    simp only [conn, h1, h3]
    rfl

theorem mdExpandAll_cons {s : Name} {ss l : List Name} (h : mdExpandAll (s :: ss) = some l) :
    ∃ a b, mdExpand s = some a ∧ mdExpandAll ss = some b ∧ l = a ++ b := by
  simp only [mdExpandAll] at h
  cases h1 : mdExpand s with
  | none => simp [h1] at h
  | some a =>
    cases h2 : mdExpandAll ss with
    | none => simp [h1, h2] at h
    | some b =>
      simp only [h1, h2, Option.bind_eq_bind, Option.bind_some, Option.some.injEq] at h
      exact ⟨a, b, rfl, rfl, h.symm⟩

theorem mdExpandAll_append {ss ts a b : List Name} (h1 : mdExpandAll ss = some a) (h2 : mdExpandAll ts = some b) :
    mdExpandAll (ss ++ ts) = some (a ++ b) := by
  induction ss generalizing a with
  | nil => simp only [mdExpandAll, Option.some.injEq] at h1; subst h1; simpa using h2
  | cons s ss ih =>
    obtain ⟨x, y, h3, h4, rfl⟩ := mdExpandAll_cons h1
    simp only [List.cons_append, mdExpandAll, h3, ih h4]
    simp

/-! ### The table -/

/-- Every entry maps a name to a name with the right bits. -/
def Sound (f : Name → Name) (t : Tbl) : Prop :=
  ∀ x ∈ t, Fine x.2 ∧ ∃ fs, mdExpand x.1 = some fs ∧ mdExpand x.2 = some (fs.map f)

theorem lookup_mem {t : Tbl} {s r : Name} (h : t.lookup s = some r) : (s, r) ∈ t := by
  induction t with
  | nil => simp at h
  | cons x t ih =>
    obtain ⟨a, b⟩ := x
    rw [List.lookup_cons] at h
    cases hs : s == a with
    | true =>
      simp only [hs, Option.some.injEq] at h
      simp only [beq_iff_eq] at hs
      subst hs
      subst h
      exact List.mem_cons_self
    | false =>
      simp only [hs] at h
      exact List.mem_cons_of_mem _ (ih h)

theorem lookup_isSome {t : Tbl} {s : Name} : (t.lookup s).isSome = true ↔ s ∈ t.map Prod.fst := by
  induction t with
  | nil => simp
  | cons x t ih =>
    obtain ⟨a, b⟩ := x
    rw [List.lookup_cons]
    cases hs : s == a with
    | true =>
      simp only [beq_iff_eq] at hs
      simp [hs]
    | false =>
      simp only [beq_eq_false_iff_ne] at hs
      simp [hs, ih]

theorem lookup_nodup {t : Tbl} (h : (t.map Prod.fst).Nodup) {s r : Name} (hm : (s, r) ∈ t) : t.lookup s = some r := by
  induction t with
  | nil => simp at hm
  | cons x t ih =>
    obtain ⟨a, b⟩ := x
    simp only [List.map_cons, List.nodup_cons] at h
    rw [List.lookup_cons]
    simp only [List.mem_cons, Prod.mk.injEq] at hm
    rcases hm with ⟨rfl, rfl⟩ | hm
    · simp
    · have : s ≠ a := fun e => h.1 (e ▸ List.mem_map.2 ⟨(s, r), hm, rfl⟩)
      have hs : (s == a) = false := by simpa using this
      simp only [hs]
      exact ih h.2 hm

theorem addBits_spec (f : Name → Name) : ∀ (av fv : List Name) (t : Tbl) (t' : Tbl) (rest : List Name),
    addBits t fv av = .ok (t', rest) →
    (∀ b ∈ fv, mdExpand b = some [b]) → (∀ b ∈ av, Fine b ∧ mdExpand b = some [b]) →
    (∀ x ∈ fv.zip av, f x.1 = x.2) → Sound f t →
    Sound f t' ∧ rest = fv.drop av.length ∧ (∀ s, s ∈ t'.map Prod.fst ↔ s ∈ t.map Prod.fst ∨ s ∈ fv.take av.length) ∧
      av.length ≤ fv.length
  | [], fv, t, t', rest, h, _, _, _, hs => by
    simp only [addBits, Res.ok.injEq, Prod.mk.injEq] at h
    obtain ⟨rfl, rfl⟩ := h
    exact ⟨hs, by simp, by simp, by simp⟩
  | a :: av, [], t, t', rest, h, _, _, _, _ => by simp [addBits] at h
  | a :: av, b :: fv, t, t', rest, h, hf, ha, hz, hs => by
    simp only [addBits] at h
    simp only [List.mem_cons, forall_eq_or_imp] at hf ha
    simp only [List.zip_cons_cons, List.mem_cons, forall_eq_or_imp] at hz
    have hs' : Sound f ((b, a) :: t) := by
      intro x hx
      simp only [List.mem_cons] at hx
      rcases hx with rfl | hx
      · exact ⟨ha.1.1, [b], hf.1, by simpa [hz.1] using ha.1.2⟩
      · exact hs x hx
    obtain ⟨h1, h2, h3, h4⟩ := addBits_spec f av fv _ t' rest h hf.2 ha.2 hz.2 hs'
    refine ⟨h1, by simpa using h2, ?_, by simpa using h4⟩
    intro s
    rw [h3 s]
    simp only [List.map_cons, List.mem_cons, List.length_cons, List.take_succ_cons]
    constructor
    · rintro ((h | h) | h) <;> simp [h]
    · rintro (h | h | h) <;> simp [h]

theorem zip_append_right {α β : Type} : ∀ (l : List α) (x y : List β),
    l.zip (x ++ y) = l.zip x ++ (l.drop x.length).zip y
  | [], x, y => by simp
  | a :: l, [], y => by simp
  | a :: l, b :: x, y => by simp [zip_append_right l x y]

theorem addActs_spec (f : Name → Name) : ∀ (as fv : List Name) (t t' : Tbl) (rest al : List Name),
    addActs t fv as = .ok (t', rest) → mdExpandAll as = some al →
    (∀ b ∈ fv, mdExpand b = some [b]) → (∀ a ∈ as, Fine a) →
    (∀ x ∈ fv.zip al, f x.1 = x.2) → Sound f t →
    Sound f t' ∧ rest = fv.drop al.length ∧ (∀ s, s ∈ t'.map Prod.fst ↔ s ∈ t.map Prod.fst ∨ s ∈ fv.take al.length)
  | [], fv, t, t', rest, al, h, hal, _, _, _, hs => by
    simp only [addActs, Res.ok.injEq, Prod.mk.injEq] at h
    simp only [mdExpandAll, Option.some.injEq] at hal
    obtain ⟨rfl, rfl⟩ := h
    subst hal
    exact ⟨hs, by simp, by simp⟩
  | a :: as, fv, t, t', rest, al, h, hal, hf, ha, hz, hs => by
    obtain ⟨x, y, hx, hy, rfl⟩ := mdExpandAll_cons hal
    simp only [addActs, hx, Res.of, Res.bind] at h
    simp only [List.mem_cons, forall_eq_or_imp] at ha
    cases hb : addBits t fv x with
    | fail => simp [hb] at h
    | ub => simp [hb] at h
    | ok r =>
      obtain ⟨t1, r1⟩ := r
      simp only [hb] at h
      obtain ⟨l, hl, hlf⟩ := fine_bits ha.1
      rw [hx] at hl
      simp only [Option.some.injEq] at hl
      subst hl
      have hzx : ∀ p ∈ fv.zip x, f p.1 = p.2 := by
        intro p hp
        refine hz p ?_
        rw [zip_append_right]
        exact List.mem_append_left _ hp
      obtain ⟨h1, h2, h3, h4⟩ := addBits_spec f x fv t t1 r1 hb hf
        (fun b hb => ⟨hlf b hb, c70_fixpoint hx b hb⟩) hzx hs
      have hzy : ∀ p ∈ r1.zip y, f p.1 = p.2 := by
        intro p hp
        refine hz p ?_
        rw [zip_append_right, ← h2]
        exact List.mem_append_right _ hp
      obtain ⟨h5, h6, h7⟩ := addActs_spec f as r1 t1 t' rest y h hy
        (fun b hb => hf b (by rw [h2] at hb; exact List.mem_of_mem_drop hb)) ha.2 hzy h1
      refine ⟨h5, by rw [h6, h2, List.drop_drop, List.length_append], ?_⟩
      intro s
      rw [h7 s, h3 s, h2, List.length_append, List.take_add, List.mem_append, or_assoc]

/-- **The substitution is right**, and has an entry for every bit. -/
theorem mkSubst_spec (f : Name → Name) : ∀ (ps : List Pin) (t t' : Tbl) (c : List (Name × Name)),
    mkSubst t ps = .ok t' → conn ps = some c → (∀ p ∈ ps, ∀ a ∈ p.acts, Fine a) →
    (∀ x ∈ c, f x.1 = x.2) → Sound f t →
    Sound f t' ∧ (∀ s ∈ t.map Prod.fst, s ∈ t'.map Prod.fst) ∧ ∀ s ∈ c.map Prod.fst, s ∈ t'.map Prod.fst
  | [], t, t', c, h, hc, _, _, hs => by
    simp only [mkSubst, Res.ok.injEq] at h
    simp only [conn, Option.some.injEq] at hc
    subst h
    subst hc
    exact ⟨hs, fun _ h => h, by simp⟩
  | ⟨f', []⟩ :: ps, t, t', c, h, _, _, _, _ => by simp [mkSubst] at h
  | ⟨g, a :: as⟩ :: ps, t, t', c, h, hc, ha, hf, hs => by
    obtain ⟨c1, c2, h1, h2, rfl⟩ := conn_cons hc
    obtain ⟨fs, al, h3, h4, h5, rfl⟩ := connPin_some h1
    simp only at h3 h4
    simp only [mkSubst, h3, Res.of, Res.bind] at h
    simp only [List.mem_cons, forall_eq_or_imp] at ha
    have hzip : fs.map f = al := by
      apply List.ext_getElem
      · simpa using h5
      · intro i h6 h7
        simp only [List.getElem_map]
        have : (fs[i]'(by simpa using h6), al[i]) ∈ fs.zip al := by
          rw [← List.getElem_zip (h := by simp at h6; simp; omega)]
          exact List.getElem_mem _
        exact hf _ (List.mem_append_left _ this)
    have hs1 : Sound f (if as = [] then (g, a) :: t else t) := by
      split
      · rename_i he
        subst he
        intro x hx
        simp only [List.mem_cons] at hx
        rcases hx with rfl | hx
        · refine ⟨ha.1.1, fs, h3, ?_⟩
          obtain ⟨x, y, hx, hy, rfl⟩ := mdExpandAll_cons h4
          simp only [mdExpandAll, Option.some.injEq] at hy
          subst hy
          simp only [List.append_nil] at hzip
          rw [hzip]
          exact hx
        · exact hs x hx
      · exact hs
    cases hb : addActs (if as = [] then (g, a) :: t else t) fs (a :: as) with
    | fail => simp [hb] at h
    | ub => simp [hb] at h
    | ok r =>
      obtain ⟨t1, r1⟩ := r
      simp only [hb] at h
      obtain ⟨e1, e2, e3⟩ := addActs_spec f (a :: as) fs _ t1 r1 al hb h4 (c70_fixpoint h3)
        (by simpa using ha.1) (fun x hx => hf x (List.mem_append_left _ hx)) hs1
      split at h
      · obtain ⟨g1, g2, g3⟩ := mkSubst_spec f ps t1 t' c2 h h2 ha.2 (fun x hx => hf x (List.mem_append_right _ hx)) e1
        refine ⟨g1, ?_, ?_⟩
        · intro s hs'
          refine g2 s ((e3 s).2 (.inl ?_))
          split <;> simp [hs']
        · intro s hs'
          simp only [List.map_append, List.mem_append] at hs'
          rcases hs' with hs' | hs'
          · rw [List.map_fst_zip (by omega)] at hs'
            refine g2 s ((e3 s).2 (.inr ?_))
            rw [← h5, List.take_length]
            exact hs'
          · exact g3 s hs'
      · simp at h

/-! ### Substituting -/

theorem showContig_bits : ∀ (v b : Vec), b ∈ expand v → showContig b = (showVec b).map fun s => [s]
  | [], b, h => by simp [expand] at h; subst h; rfl
  | .txt s :: v, b, h => by
    simp only [expand, List.mem_map] at h
    obtain ⟨w, hw, rfl⟩ := h
    simp only [showContig, showVec, showContig_bits v w hw]
    cases showVec w <;> simp
  | .idx rs :: v, b, h => by
    simp only [expand, List.mem_flatMap, List.mem_map] at h
    obtain ⟨r, _, i, _, w, hw, rfl⟩ := h
    simp only [showContig, showVec, showRngs, showContig_bits v w hw]
    cases showVec w <;> cases hr : showRng ⟨i, i⟩ <;> simp [hr]

theorem showContigAll_bits {v : Vec} : ∀ l : List Vec, (∀ b ∈ l, b ∈ expand v) → showContigAll l = showAll l
  | [], _ => rfl
  | b :: l, h => by
    simp only [List.mem_cons, forall_eq_or_imp] at h
    simp only [showContigAll, showAll, showContig_bits v b h.1, showContigAll_bits l h.2]
    cases showVec b <;> simp

theorem constant_of {x : Name} {cl : List Vec} (h : expandConstant x = some cl) : IsConstant x := by
  unfold expandConstant at h
  split at h
  · split at h
    · rename_i cs hall
      exact ⟨cs, rfl, hall.1, fun c hc => isConstChar_iff.1 (List.all_eq_true.1 hall.2 c hc)⟩
    · simp at h
  · simp at h

theorem constBit_fine {b : Name} (h : ConstBit b) : Fine b ∧ mdExpand b = some [b] := by
  obtain ⟨c, hc, rfl⟩ := h
  have hk : IsConstant ['0', 'b', c] := ⟨[c], rfl, by simp, by simpa using hc⟩
  exact ⟨fine_const hk, by rw [constant_expand hk]; rfl⟩

theorem substFormal_spec {f : Name → Name} {t : Tbl} (hs : Sound f t) (hk : ∀ b, ConstBit b → f b = b) {x : Name}
    {xs l : List Name} (hx : mdExpand x = some xs) (hd : ∀ b ∈ xs, b ∈ t.map Prod.fst ∨ ConstBit b)
    (h : substFormal t x = some l) : (∀ s ∈ l, Fine s) ∧ mdExpandAll l = some (xs.map f) := by
  unfold substFormal at h
  cases hl : t.lookup x with
  | some r =>
    simp only [hl, Option.some.injEq] at h
    subst h
    obtain ⟨h1, fs, h2, h3⟩ := hs _ (lookup_mem hl)
    simp only at h1 h2 h3
    rw [hx] at h2
    simp only [Option.some.injEq] at h2
    subst h2
    refine ⟨by simpa using h1, ?_⟩
    simp [mdExpandAll, h3]
  | none =>
    simp only [hl] at h
    cases hc : expandConstant x with
    | some cl =>
      have hcon := constant_of hc
      have hg := good_const hcon
      have hsp : split x = some [.txt x] := by
        have := split_text hg.wf
        simpa [vecText, Seg.text, norm] using this
      have hsw : showContigAll (expand [.txt x]) = some [x] := by
        simp [expand, showContigAll, showContig]
      simp only [hsp, Option.bind_eq_bind, Option.bind_some, edge, hsw, Bool.false_eq_true, if_false,
        Option.some.injEq, List.map_cons, List.map_nil, hl, Option.getD_none] at h
      subst h
      refine ⟨by simpa using fine_const hcon, ?_⟩
      have : xs.map f = xs := by
        obtain ⟨cs, rfl, h1, h2⟩ := hcon
        rw [constant_expand ⟨cs, rfl, h1, h2⟩] at hx
        simp only [Option.some.injEq, vbits] at hx
        subst hx
        rw [List.map_map]
        refine List.map_congr_left fun c hc => ?_
        exact hk _ ⟨c, h2 c hc, rfl⟩
      rw [this]
      simp [mdExpandAll, hx]
    | none =>
      have hx0 := hx
      unfold mdExpand at hx
      rw [hc] at hx
      simp only at hx
      cases hv : split x with
      | none => simp [hv] at hx
      | some v =>
        simp only [hv, Option.bind_eq_bind, Option.bind_some] at hx h
        split at hx
        · simp at hx
        · rename_i he
          rw [if_neg he, showContigAll_bits (v := v) _ (fun _ h => h), hx] at h
          simp only [Option.bind_some, Option.some.injEq] at h
          subst h
          have hfix := c70_fixpoint hx0
          clear hx hx0 he hv
          induction xs with
          | nil => exact ⟨by simp, rfl⟩
          | cons b xs ih =>
            simp only [List.mem_cons, forall_eq_or_imp] at hd hfix
            obtain ⟨i1, i2⟩ := ih hd.2 hfix.2
            have hb : Fine ((t.lookup b).getD b) ∧ mdExpand ((t.lookup b).getD b) = some [f b] := by
              cases hlb : t.lookup b with
              | some r =>
                obtain ⟨h1, fs, h2, h3⟩ := hs _ (lookup_mem hlb)
                simp only at h1 h2 h3
                rw [hfix.1] at h2
                simp only [Option.some.injEq] at h2
                subst h2
                exact ⟨h1, h3⟩
              | none =>
                rcases hd.1 with hm | hm
                · rw [← lookup_isSome, hlb] at hm
                  simp at hm
                · simp only [Option.getD_none]
                  rw [hk b hm]
                  exact constBit_fine hm
            refine ⟨by simpa using ⟨hb.1, by simpa using i1⟩, ?_⟩
            simp only [List.map_cons, mdExpandAll, hb.2, i2]
            rfl

theorem substAll_spec {f : Name → Name} {t : Tbl} (hs : Sound f t) (hk : ∀ b, ConstBit b → f b = b) :
    ∀ {as al l : List Name}, mdExpandAll as = some al → (∀ b ∈ al, b ∈ t.map Prod.fst ∨ ConstBit b) →
    substAll t as = some l → (∀ s ∈ l, Fine s) ∧ mdExpandAll l = some (al.map f)
  | [], al, l, h, hd, hl => by
    simp only [mdExpandAll, Option.some.injEq] at h
    simp only [substAll, Option.some.injEq] at hl
    subst h
    subst hl
    exact ⟨by simp, rfl⟩
  | a :: as, al, l, h, hd, hl => by
    obtain ⟨x, y, hx, hy, rfl⟩ := mdExpandAll_cons h
    simp only [substAll] at hl
    cases h1 : substFormal t a with
    | none => simp [h1] at hl
    | some p =>
      cases h2 : substAll t as with
      | none => simp [h1, h2] at hl
      | some q =>
        simp only [h1, h2, Option.bind_eq_bind, Option.bind_some, Option.some.injEq] at hl
        subst hl
        obtain ⟨e1, e2⟩ := substFormal_spec hs hk hx (fun b hb => hd b (List.mem_append_left _ hb)) h1
        obtain ⟨e3, e4⟩ := substAll_spec hs hk hy (fun b hb => hd b (List.mem_append_right _ hb)) h2
        refine ⟨?_, by rw [mdExpandAll_append e2 e4, List.map_append]⟩
        intro s hs
        rcases List.mem_append.1 hs with h | h
        · exact e1 s h
        · exact e3 s h

/-- **Connections are led through the substitution.** -/
theorem substPins_spec {f : Name → Name} {t : Tbl} (hs : Sound f t) (hk : ∀ b, ConstBit b → f b = b) :
    ∀ {ps ps' : List Pin},
    (∀ p ∈ ps, ∃ al, mdExpandAll p.acts = some al ∧ ∀ b ∈ al, b ∈ t.map Prod.fst ∨ ConstBit b) →
    substPins t ps = some ps' → ps'.map Pin.formal = ps.map Pin.formal ∧
      conn ps' = (conn ps).map fun c => c.map fun x => (x.1, f x.2)
  | [], ps', _, h => by
    simp only [substPins, Option.some.injEq] at h
    subst h
    exact ⟨rfl, rfl⟩
  | ⟨g, as⟩ :: ps, ps', hd, h => by
    simp only [List.mem_cons, forall_eq_or_imp] at hd
    obtain ⟨⟨al, ha, hb⟩, hd⟩ := hd
    simp only [substPins] at h
    cases h1 : substAll t as with
    | none => simp [h1] at h
    | some l =>
      cases h2 : mergeContig l with
      | none => simp [h1, h2] at h
      | some m =>
        cases h3 : substPins t ps with
        | none => simp [h1, h2, h3] at h
        | some r =>
          simp only [h1, h2, h3, Option.bind_eq_bind, Option.bind_some, Option.some.injEq] at h
          subst h
          obtain ⟨e1, e2⟩ := substAll_spec hs hk ha hb h1
          obtain ⟨e3, e4⟩ := substPins_spec hs hk hd h3
          have e5 := mergeContig_spec e1 h2
          refine ⟨by simp [e3], ?_⟩
          have e6 : connPin ⟨g, m⟩ = (connPin ⟨g, as⟩).map fun c => c.map fun x => (x.1, f x.2) := by
            unfold connPin
            simp only at ha ⊢
            rw [e5, e2, ha]
            cases mdExpand g with
            | none => rfl
            | some fs =>
              simp only [Option.bind_eq_bind, Option.bind_some, List.length_map]
              split
              · simp only [Option.map_some, Option.some.injEq]
                rw [List.zip_map_right]
                rfl
              · rfl
          simp only [conn, e6, e4]
          cases connPin ⟨g, as⟩ with
          | none => rfl
          | some c1 =>
            cases conn ps with
            | none => rfl
            | some c2 => simp

end Voss.Hier
