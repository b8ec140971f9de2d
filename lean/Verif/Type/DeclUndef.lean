import Verif.Type.DeclLemmas
/-
Lemmas about names of types that are used and not declared.
-/
namespace Voss.TC

/-- `x`, a name without parameters, has not been declared, although it may have been used. -/
structure Und (ar : String → Nat) (x : String) (d : Decls) : Prop where
  inv : DInv ar d
  inj : ∀ y z i ps qs, d.conc y = some (.dec y ps i) → d.conc z = some (.dec z qs i) → y = z
  und : ∀ ps i, d.conc x = some (.dec x ps i) → d.holder i = true

/-- `x` has been used. -/
def Used (x : String) (d : Decls) (t : DTy) : Prop :=
  ∃ i, t = .dec x .nil i ∧ d.conc x = some (.dec x .nil i)

theorem getType_und {ar d x y tvars} (m : Mode) (hA : Arity ar) (hU : Und ar x d) (hl : tvars.length = ar y)
    (hp : printableAll tvars = true) (hm : y = x → m = .holder) :
    Und ar x (getType d y tvars m).2 ∧
      (y = x → ar x = 0 → builtin x = none → x ≠ "tbl" →
        ∀ t, (getType d y tvars m).1 = some t → Used x (getType d y tvars m).2 t) := by
  obtain ⟨t', d', e', g'⟩ := getType_ok m hA hU.inv hl hp
  have hI' := g'.inv
  rw [e']
  unfold getType at e'
  cases hc : d.conc y with
  | some t =>
    obtain ⟨ps, id, rfl, hps, hb, htb, hid⟩ := hU.inv.conc y t hc
    simp only [hc] at e'
    by_cases hn : ps = .nil
    · subst hn
      cases m with
      | full =>
        simp only [ne_eq, not_true_eq_false, if_false, Prod.mk.injEq, Option.some.injEq] at e'
        obtain ⟨rfl, rfl⟩ := e'
        refine ⟨⟨hI', hU.inj, fun qs i h => ?_⟩, fun h => by cases hm h⟩
        show (if i = id then false else d.holder i) = true
        rw [if_neg]
        · exact hU.und qs i h
        · rintro rfl
          have := hU.inj _ _ _ _ _ hc h
          cases hm this
      | holder =>
        simp only [ne_eq, not_true_eq_false, if_false, Prod.mk.injEq, Option.some.injEq] at e'
        obtain ⟨rfl, rfl⟩ := e'
        refine ⟨hU, fun h _ _ _ t ht => ?_⟩
        subst h
        cases ht
        exact ⟨id, rfl, hc⟩
    · simp only [ne_eq, hn, not_false_eq_true, if_true, hl, hps, not_true_eq_false, if_false, Prod.mk.injEq,
        Option.some.injEq] at e'
      obtain ⟨rfl, rfl⟩ := e'
      refine ⟨⟨hI', hU.inj, fun qs i h => ?_⟩, fun h hz => ?_⟩
      · show (if i = d.next then false else d.holder i) = true
        obtain ⟨_, _, e, _, _, _, l⟩ := hU.inv.conc x _ h
        cases e
        rw [if_neg (Nat.ne_of_lt l)]
        exact hU.und qs i h
      · subst h
        rw [hz] at hps
        exact absurd (len_zero hps) hn
  | none =>
    simp only [hc, hU.inv.abbr] at e'
    cases hb : builtin y with
    | some o =>
      simp only [hb, Prod.mk.injEq, Option.some.injEq] at e'
      obtain ⟨rfl, rfl⟩ := e'
      refine ⟨hU, fun h _ hb' => ?_⟩
      subst h
      rw [hb] at hb'
      cases hb'
    | none =>
      simp only [hb] at e'
      by_cases htb : y = "tbl"
      · simp only [htb, if_true, Prod.mk.injEq, Option.some.injEq] at e'
        obtain ⟨rfl, rfl⟩ := e'
        refine ⟨hU, fun h _ _ ht => ?_⟩
        subst h
        exact absurd htb ht
      · simp only [htb, if_false, Prod.mk.injEq, Option.some.injEq] at e'
        obtain ⟨rfl, rfl⟩ := e'
        have key : ∀ z ps i, (if z = y then some (DTy.dec y tvars d.next) else d.conc z) = some (.dec z ps i) →
            (z = y ∧ i = d.next) ∨ (z ≠ y ∧ d.conc z = some (.dec z ps i) ∧ i < d.next) := by
          intro z ps i h
          split at h
          · next e => cases h; exact Or.inl ⟨e, rfl⟩
          · next e =>
            obtain ⟨_, _, q, _, _, _, l⟩ := hU.inv.conc z _ h
            cases q
            exact Or.inr ⟨e, h, l⟩
        refine ⟨⟨hI', fun a b i ps qs ha hb => ?_, fun qs i h => ?_⟩, fun h hz _ _ t ht => ?_⟩
        · rcases key a ps i ha with ⟨rfl, rfl⟩ | ⟨_, ha, la⟩
          · rcases key b qs _ hb with ⟨rfl, _⟩ | ⟨_, _, lb⟩
            · rfl
            · exact absurd lb (Nat.lt_irrefl _)
          · rcases key b qs _ hb with ⟨_, rfl⟩ | ⟨_, hb, _⟩
            · exact absurd la (Nat.lt_irrefl _)
            · exact hU.inj a b i ps qs ha hb
        · show (if i = d.next then _ else d.holder i) = true
          rcases key x qs i h with ⟨rfl, rfl⟩ | ⟨_, h, l⟩
          · rw [if_pos rfl, hm rfl]
          · rw [if_neg (Nat.ne_of_lt l)]
            exact hU.und qs i h
        · subst h
          cases ht
          have htv : tvars = .nil := len_zero (by rw [hl, hz])
          subst htv
          refine ⟨d.next, rfl, ?_⟩
          show (if y = y then _ else _) = _
          rw [if_pos rfl]

mutual
/-- `x` occurs in the type, other than as an argument of a declared type. -/
def Has (x : String) (d : Decls) : DTy → Prop
  | .var _ => False
  | .con _ ts => HasIn x d ts
  | .dec y ps i => Used x d (.dec y ps i)
def HasIn (x : String) (d : Decls) : DTys → Prop
  | .nil => False
  | .cons t ts => Has x d t ∨ HasIn x d ts
end

theorem Used.has {x d t} (h : Used x d t) : Has x d t := by
  obtain ⟨i, rfl, h⟩ := h
  exact ⟨i, rfl, h⟩

mutual
theorem Has.mono {x d d'} (h : Le d d') : ∀ t, Has x d t → Has x d' t
  | .var _, g => g
  | .con _ ts, g => HasIn.mono h ts g
  | .dec _ _ _, ⟨i, e, g⟩ => ⟨i, e, h.conc _ _ g⟩
theorem HasIn.mono {x d d'} (h : Le d d') : ∀ ts, HasIn x d ts → HasIn x d' ts
  | .nil, g => g
  | .cons t ts, g => g.imp (Has.mono h t) (HasIn.mono h ts)
end

mutual
theorem Has.undef {ar x d} (h : Und ar x d) : ∀ t, Has x d t → noUndef d.holder t = false
  | .var _, g => g.elim
  | .con _ ts, g => by rw [noUndef.eq_def]; exact HasIn.undef h ts g
  | .dec _ _ _, ⟨i, e, g⟩ => by
    cases e
    rw [noUndef.eq_def]
    simp [h.und _ _ g]
theorem HasIn.undef {ar x d} (h : Und ar x d) : ∀ ts, HasIn x d ts → noUndefAll d.holder ts = false
  | .nil, g => g.elim
  | .cons t ts, g => by
    rw [noUndefAll.eq_def]
    rcases g with g | g
    · simp [Has.undef h t g]
    · simp [HasIn.undef h ts g]
end

mutual
theorem Syn.elab_und {ar x} (hA : Arity ar) (hx : ar x = 0) (hb : builtin x = none) (ht : x ≠ "tbl") :
    ∀ (t : Syn) (d : Decls), t.Conf ar → Und ar x d →
      Und ar x (t.elab d).2 ∧ (x ∈ t.outer → ∀ u, (t.elab d).1 = some u → Has x (t.elab d).2 u)
  | .name y, d, hc, hU => by
    have := getType_und (y := y) (tvars := .nil) .holder hA hU (by simpa [Syn.Conf, DTys.length] using hc.symm) rfl (fun _ => rfl)
    rw [Syn.elab.eq_def]
    refine ⟨this.1, fun h u e => (this.2 ?_ hx hb ht u e).has⟩
    simpa [Syn.outer] using Eq.symm (by simpa [Syn.outer] using h)
  | .var v, d, _, hU => by
    rw [Syn.elab.eq_def]
    exact ⟨hU, fun h => by simp [Syn.outer] at h⟩
  | .app args y, d, hc, hU => by
    rw [Syn.Conf.eq_def] at hc
    obtain ⟨us, d1, e1, g1⟩ := Syns.elab_ok hA args d hc.2 hU.inv
    have h1 := (Syns.elab_und hA hx hb ht args d hc.2 hU).1
    rw [e1] at h1
    have := getType_und (y := y) (tvars := us) .holder hA h1 (by rw [Syn.elab_length d args us d1 e1]; exact hc.1) g1.prt (fun _ => rfl)
    rw [Syn.elab.eq_def]
    simp only [e1]
    refine ⟨this.1, fun h u e => (this.2 ?_ hx hb ht u e).has⟩
    have h : x = y := by simpa [Syn.outer] using h
    exact h.symm
  | .op o args, d, hc, hU => by
    rw [Syn.Conf.eq_def] at hc
    obtain ⟨us, d1, e1, g1⟩ := Syns.elab_ok hA args d hc.2 hU.inv
    have h1 := Syns.elab_und hA hx hb ht args d hc.2 hU
    rw [e1] at h1
    rw [Syn.elab.eq_def]
    simp only [e1]
    refine ⟨h1.1, fun h u e => ?_⟩
    cases e
    exact h1.2 (by simpa [Syn.outer] using h) us rfl
theorem Syns.elab_und {ar x} (hA : Arity ar) (hx : ar x = 0) (hb : builtin x = none) (ht : x ≠ "tbl") :
    ∀ (ts : Syns) (d : Decls), ts.Conf ar → Und ar x d →
      Und ar x (ts.elab d).2 ∧ (x ∈ ts.outer → ∀ us, (ts.elab d).1 = some us → HasIn x (ts.elab d).2 us)
  | .nil, d, _, hU => by
    rw [Syns.elab.eq_def]
    exact ⟨hU, fun h => by simp [Syns.outer] at h⟩
  | .cons t ts, d, hc, hU => by
    rw [Syns.Conf.eq_def] at hc
    obtain ⟨u, d1, e1, g1⟩ := Syn.elab_ok hA t d hc.1 hU.inv
    obtain ⟨us, d2, e2, g2⟩ := Syns.elab_ok hA ts d1 hc.2 g1.inv
    have h1 := Syn.elab_und hA hx hb ht t d hc.1 hU
    rw [e1] at h1
    have h2 := Syns.elab_und hA hx hb ht ts d1 hc.2 h1.1
    rw [e2] at h2
    rw [Syns.elab.eq_def]
    simp only [e1, e2]
    refine ⟨h2.1, fun h us' e => ?_⟩
    cases e
    rcases List.mem_append.1 (by simpa only [Syns.outer] using h) with h | h
    · exact Or.inl (Has.mono g2.le u (h1.2 h u rfl))
    · exact Or.inr (h2.2 h us rfl)
end

theorem elabCtors_und {ar x} (hA : Arity ar) (hx : ar x = 0) (hb : builtin x = none) (ht : x ≠ "tbl") :
    ∀ (cs : List (String × Syns)) (d : Decls), (∀ c ∈ cs, c.2.Conf ar) → Und ar x d →
      Und ar x (elabCtors d cs).2 ∧ ((∃ c ∈ cs, x ∈ c.2.outer) → ∀ r, (elabCtors d cs).1 = some r →
        ∃ c ∈ r, HasIn x (elabCtors d cs).2 c.2)
  | [], d, _, hU => ⟨hU, fun ⟨_, h, _⟩ => by cases h⟩
  | (c, as) :: cs, d, hc, hU => by
    obtain ⟨us, d1, e1, g1⟩ := Syns.elab_ok hA as d (hc (c, as) (by simp)) hU.inv
    obtain ⟨r, d2, e2, g2⟩ := elabCtors_ok hA cs d1 (fun c' h => hc c' (List.mem_cons_of_mem _ h)) g1.inv
    have h1 := Syns.elab_und hA hx hb ht as d (hc (c, as) (by simp)) hU
    rw [e1] at h1
    have h2 := elabCtors_und hA hx hb ht cs d1 (fun c' h => hc c' (List.mem_cons_of_mem _ h)) h1.1
    rw [e2] at h2
    rw [elabCtors]
    simp only [e1, e2]
    refine ⟨h2.1, fun ⟨c', hm, ho⟩ r' e => ?_⟩
    cases e
    rcases List.mem_cons.1 hm with rfl | hm
    · exact ⟨(c, us), by simp, HasIn.mono g2.le us (h1.2 ho us rfl)⟩
    · obtain ⟨c'', hm', hh⟩ := h2.2 ⟨c', hm, ho⟩ r rfl
      exact ⟨c'', List.mem_cons_of_mem _ hm', hh⟩

theorem elabDefs_und {ar x} (hA : Arity ar) (hx : ar x = 0) (hb : builtin x = none) (ht : x ≠ "tbl") :
    ∀ (ts : List TypeDef) (d : Decls), (∀ t ∈ ts, t.Conf ar) → (∀ t ∈ ts, t.name ≠ x) → Und ar x d →
      ∃ cs d', elabDefs d ts = .ok (some cs, d') ∧ Und ar x d' ∧ Le d d' ∧
        ((∃ t ∈ ts, ∃ c ∈ t.ctors, x ∈ c.2.outer) → ∃ c ∈ cs, HasIn x d' c.args)
  | [], d, _, _, hU => ⟨[], d, rfl, hU, Le.refl d, fun ⟨_, h, _⟩ => by cases h⟩
  | t :: ts, d, hc, hn, hU => by
    have hct := hc t (by simp)
    obtain ⟨r, d1, e1, g1⟩ := getType_ok (x := t.name) .full hA hU.inv (by rw [varsOf_length]; exact hct.params) (printable_varsOf t.params)
    have u1 := (getType_und (y := t.name) .full hA hU (by rw [varsOf_length]; exact hct.params) (printable_varsOf t.params)
      (fun e => absurd e (hn t (by simp)))).1
    rw [e1] at u1
    obtain ⟨cs, d2, e2, g2⟩ := elabCtors_ok hA t.ctors d1 hct.ctors g1.inv
    have h2 := elabCtors_und hA hx hb ht t.ctors d1 hct.ctors u1
    rw [e2] at h2
    obtain ⟨cs', d3, e3, u3, l3, h3⟩ := elabDefs_und hA hx hb ht ts d2 (fun t' h => hc t' (List.mem_cons_of_mem _ h))
      (fun t' h => hn t' (List.mem_cons_of_mem _ h)) h2.1
    refine ⟨_, d3, by rw [elabDefs, elabDef]; simp only [e1, e2, e3, g2.prt, if_true]; rfl, u3,
      (g1.le.trans g2.le).trans l3, fun ⟨t', hm, c, hcm, ho⟩ => ?_⟩
    rcases List.mem_cons.1 hm with rfl | hm
    · obtain ⟨c', hm', hh⟩ := h2.2 ⟨c, hcm, ho⟩ cs rfl
      exact ⟨⟨c'.1, c'.2, r⟩, List.mem_append_left _ (List.mem_map.2 ⟨c', hm', rfl⟩), HasIn.mono l3 _ hh⟩
    · obtain ⟨c', hm', hh⟩ := h3 ⟨t', hm, c, hcm, ho⟩
      exact ⟨c', List.mem_append_right _ hm', hh⟩

theorem undef_arrowsTo {h r} : ∀ as, noUndefAll h as = false → noUndef h (arrowsTo as r) = false
  | .nil, e => by simp [noUndefAll] at e
  | .cons a as, e => by
    rw [noUndefAll.eq_def] at e
    simp only [arrowsTo]
    rw [noUndef.eq_def]
    simp only [noUndefAll, Bool.and_true]
    rcases Bool.and_eq_false_iff.1 e with e | e
    · simp [e]
    · simp [undef_arrowsTo as e]

/-- A session up to a group that uses an undeclared name. -/
theorem run_und {ar x} (hA : Arity ar) (hx : ar x = 0) (hb : builtin x = none) (ht : x ≠ "tbl") :
    ∀ (gs : List (List TypeDef)) (d : Decls), (∀ g ∈ gs, ∀ t ∈ g, t.Conf ar ∧ t.name ≠ x) → Und ar x d →
      ∃ os d', run d (gs.map .lettype) = .ok (os, d') ∧ os.length = gs.length ∧
        ∀ (i : Nat) g, gs[i]? = some g → (∃ t ∈ g, ∃ c ∈ t.ctors, x ∈ c.2.outer) → os[i]? = some none
  | [], d, _, _ => ⟨[], d, rfl, rfl, fun i _ h => by simp at h⟩
  | g :: gs, d, hc, hU => by
    obtain ⟨cs, d1, e1, u1, l1, h1⟩ := elabDefs_und hA hx hb ht g d (fun t h => (hc g (by simp) t h).1)
      (fun t h => (hc g (by simp) t h).2) hU
    obtain ⟨os, d2, e2, l2, h2⟩ := run_und hA hx hb ht gs d1 (fun g' h => hc g' (List.mem_cons_of_mem _ h)) u1
    refine ⟨_, d2, by simp only [List.map_cons, run, exec, e1, e2]; rfl, by simp [l2], fun i g' hg hu => ?_⟩
    cases i with
    | zero =>
      simp only [List.getElem?_cons_zero, Option.some.injEq] at hg ⊢
      subst hg
      obtain ⟨c, hcm, hh⟩ := h1 hu
      rw [if_neg]
      intro hall
      have := List.all_eq_true.1 hall c hcm
      rw [undef_arrowsTo _ (HasIn.undef u1 _ hh)] at this
      cases this
    | succ i =>
      simp only [List.getElem?_cons_succ] at hg ⊢
      exact h2 i g' hg hu

end Voss.TC
