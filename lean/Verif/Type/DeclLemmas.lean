import Verif.Type.DeclSpec
/-
Lemmas about type declarations.
-/
namespace Voss.TC

theorem DTys.erase_length : ∀ ts : DTys, ts.erase.length = ts.length
  | .nil => rfl
  | .cons _ ts => by simp only [DTys.erase, Tys.length, DTys.length, ts.erase_length]

theorem varsOf_length : ∀ vs, (varsOf vs).length = vs.length
  | [] => rfl
  | _ :: vs => by simp only [varsOf, DTys.length, varsOf_length vs, List.length_cons]

theorem printable_varsOf : ∀ vs, printableAll (varsOf vs) = true
  | [] => rfl
  | _ :: vs => by simp only [varsOf, printableAll, printable, printable_varsOf vs, Bool.and_self]

theorem len_zero {ts : DTys} (h : ts.length = 0) : ts = .nil := by
  cases ts with
  | nil => rfl
  | cons _ _ => simp [DTys.length] at h

structure DInv (ar : String → Nat) (d : Decls) : Prop where
  abbr : ∀ x, d.abbr x = none
  conc : ∀ x t, d.conc x = some t → ∃ ps id, t = .dec x ps id ∧ ps.length = ar x ∧ builtin x = none ∧
    x ≠ "tbl" ∧ id < d.next

structure Le (d d' : Decls) : Prop where
  next : d.next ≤ d'.next
  conc : ∀ x t, d.conc x = some t → d'.conc x = some t
  holder : ∀ i, i < d.next → d.holder i = false → d'.holder i = false

theorem Le.refl (d : Decls) : Le d d := ⟨Nat.le_refl _, fun _ _ h => h, fun _ _ h => h⟩

theorem Le.trans {a b c : Decls} (h : Le a b) (h' : Le b c) : Le a c :=
  ⟨Nat.le_trans h.next h'.next, fun x t e => h'.conc x t (h.conc x t e),
   fun i hi e => h'.holder i (Nat.lt_of_lt_of_le hi h.next) (h.holder i hi e)⟩

mutual
def DGood (d : Decls) (U : String → Prop) : DTy → Prop
  | .var _ => True
  | .con _ ts => DGoodAll d U ts
  | .dec x ps id => id < d.next ∧ (d.holder id = false ∨ (ps = .nil ∧ U x ∧ d.conc x = some (.dec x .nil id)))
def DGoodAll (d : Decls) (U : String → Prop) : DTys → Prop
  | .nil => True
  | .cons t ts => DGood d U t ∧ DGoodAll d U ts
end

mutual
theorem DGood.mono {d d' U} (h : Le d d') : ∀ t, DGood d U t → DGood d' U t
  | .var _, _ => trivial
  | .con _ ts, g => DGoodAll.mono h ts g
  | .dec x ps id, g => by
    refine ⟨Nat.lt_of_lt_of_le g.1 h.next, ?_⟩
    rcases g.2 with e | ⟨e, u, c⟩
    · exact Or.inl (h.holder _ g.1 e)
    · exact Or.inr ⟨e, u, h.conc _ _ c⟩
theorem DGoodAll.mono {d d' U} (h : Le d d') : ∀ ts, DGoodAll d U ts → DGoodAll d' U ts
  | .nil, _ => trivial
  | .cons t ts, g => ⟨DGood.mono h t g.1, DGoodAll.mono h ts g.2⟩
end

mutual
theorem DGood.noUndef {d U} (hU : ∀ x id, U x → d.conc x = some (.dec x .nil id) → d.holder id = false) :
    ∀ t, DGood d U t → noUndef d.holder t = true
  | .var _, _ => rfl
  | .con _ ts, g => by rw [noUndef.eq_def]; exact DGoodAll.noUndef hU ts g
  | .dec x ps id, g => by
    rw [noUndef.eq_def]
    rcases g.2 with e | ⟨_, u, c⟩
    · simp [e]
    · simp [hU x id u c]
theorem DGoodAll.noUndef {d U} (hU : ∀ x id, U x → d.conc x = some (.dec x .nil id) → d.holder id = false) :
    ∀ ts, DGoodAll d U ts → noUndefAll d.holder ts = true
  | .nil, _ => rfl
  | .cons t ts, g => by rw [noUndefAll.eq_def]; simp [DGood.noUndef hU t g.1, DGoodAll.noUndef hU ts g.2]
end

/-- The name may be used. -/
def Usable (ar : String → Nat) (d : Decls) (U : String → Prop) (x : String) : Prop :=
  (builtin x).isSome ∨ x = "tbl" ∨ (d.conc x).isSome ∧ ar x ≠ 0 ∨ ar x = 0 ∧ U x

theorem Usable.mono {ar d d' U x} (h : Le d d') (u : Usable ar d U x) : Usable ar d' U x := by
  rcases u with u | u | ⟨u, a⟩ | u
  · exact Or.inl u
  · exact Or.inr (Or.inl u)
  · obtain ⟨t, e⟩ := Option.isSome_iff_exists.1 u
    exact Or.inr (Or.inr (Or.inl ⟨by simp [h.conc x t e], a⟩))
  · exact Or.inr (Or.inr (Or.inr u))

/-- The name has been declared. -/
def Declared (d : Decls) (x : String) : Prop :=
  ∃ ps id, d.conc x = some (.dec x ps id) ∧ id < d.next ∧ (ps = .nil → d.holder id = false)

theorem Declared.mono {d d' x} (h : Le d d') : Declared d x → Declared d' x
  | ⟨ps, id, e, l, g⟩ => ⟨ps, id, h.conc _ _ e, Nat.lt_of_lt_of_le l h.next, fun q => h.holder _ l (g q)⟩

/-- The outcome of `getType`. -/
structure Got' (ar : String → Nat) (d : Decls) (x : String) (tvars : DTys) (m : Mode) (t : DTy) (d' : Decls) :
    Prop where
  inv : DInv ar d'
  le : Le d d'
  erase : t.erase = named x tvars.erase
  prt : printable t = true
  good : ∀ U, DGoodAll d U tvars → Usable ar d U x → DGood d' U t
  full : (match m with | .full => True | .holder => False) → builtin x = none → x ≠ "tbl" →
    (∀ U, DGood d' U t) ∧ Declared d' x

theorem getType_ok {ar d x tvars} (m : Mode) (hA : Arity ar) (hI : DInv ar d) (hl : tvars.length = ar x)
    (hp : printableAll tvars = true) :
    ∃ t d', getType d x tvars m = (some t, d') ∧ Got' ar d x tvars m t d' := by
  unfold getType
  cases hc : d.conc x with
  | some t =>
    obtain ⟨ps, id, rfl, hps, hb, htb, hid⟩ := hI.conc x t hc
    by_cases hn : ps = .nil
    · subst hn
      have hz : ar x = 0 := by rw [← hps]; rfl
      have htv : tvars = .nil := len_zero (by rw [hl, hz])
      subst htv
      have hne : named x DTys.nil.erase = .con (.concrete x) .nil := by simp [named, hb, htb, DTys.erase]
      cases m with
      | full =>
        refine ⟨_, _, by simp only [ne_eq, not_true_eq_false, if_false]; rfl, ?_⟩
        have hle : Le d { d with holder := fun i => if i = id then false else d.holder i } := by
          refine ⟨Nat.le_refl _, fun _ _ h => h, fun i _ h => ?_⟩
          show (if i = id then false else d.holder i) = false
          split
          · rfl
          · exact h
        refine ⟨⟨hI.abbr, hI.conc⟩, hle, by rw [hne]; rfl, rfl, fun U _ _ => ⟨hid, Or.inl (by simp)⟩,
          fun _ _ _ => ⟨fun U => ⟨hid, Or.inl (by simp)⟩, ⟨_, _, hc, hid, fun _ => by simp⟩⟩⟩
      | holder =>
        refine ⟨_, _, by simp only [ne_eq, not_true_eq_false, if_false]; rfl, ?_⟩
        refine ⟨hI, Le.refl d, by rw [hne]; rfl, rfl, fun U _ hu => ⟨hid, ?_⟩, fun h => h.elim⟩
        rcases hu with u | u | ⟨_, a⟩ | ⟨_, u⟩
        · rw [hb] at u; cases u
        · exact absurd u htb
        · exact absurd hz a
        · exact Or.inr ⟨rfl, u, hc⟩
    · refine ⟨_, _, by simp only [ne_eq, hn, not_false_eq_true, if_true, hl, hps, not_true_eq_false, if_false]; rfl, ?_⟩
      have hle : Le d { d with holder := fun i => if i = d.next then false else d.holder i, next := d.next + 1 } := by
        refine ⟨Nat.le_succ _, fun _ _ h => h, fun i hi h => ?_⟩
        show (if i = d.next then false else d.holder i) = false
        split
        · rfl
        · exact h
      have hne : named x tvars.erase = .con (.concrete x) tvars.erase := by simp [named, hb, htb]
      refine ⟨⟨hI.abbr, fun y t h => ?_⟩, hle, by rw [hne]; rfl, by rw [printable.eq_def]; exact hp,
        fun U _ _ => ⟨Nat.lt_succ_self _, Or.inl (by simp)⟩,
        fun _ _ _ => ⟨fun U => ⟨Nat.lt_succ_self _, Or.inl (by simp)⟩,
          ⟨ps, id, hc, Nat.lt_succ_of_lt hid, fun q => absurd q hn⟩⟩⟩
      obtain ⟨ps', id', e, a, b, c, l⟩ := hI.conc y t h
      exact ⟨ps', id', e, a, b, c, Nat.lt_succ_of_lt l⟩
  | none =>
    simp only [hI.abbr]
    cases hb : builtin x with
    | some o =>
      have hz : ar x = 0 := hA.builtin x (by simp [hb])
      have htv : tvars = .nil := len_zero (by rw [hl, hz])
      subst htv
      have ho : o ≠ .tbl := by
        intro e; subst e
        simp only [builtin] at hb
        repeat' split at hb
        all_goals simp_all
      refine ⟨_, _, rfl, ⟨hI, Le.refl d, by simp [named, hb, DTy.erase, DTys.erase], ?_, fun U _ _ => trivial,
        fun _ h => by rw [hb] at h; cases h⟩⟩
      rw [printable.eq_def]
      cases o <;> first | rfl | exact absurd rfl ho
    | none =>
      by_cases htb : x = "tbl"
      · subst htb
        refine ⟨_, _, by simp only [if_true]; rfl, ⟨hI, Le.refl d, by simp [named, hb, DTy.erase], ?_,
          fun U g _ => by rw [DGood.eq_def]; exact g, fun _ _ h => absurd rfl h⟩⟩
        rw [printable.eq_def]
        simp [hl, hA.tbl, hp]
      · refine ⟨_, _, by simp only [htb, if_false]; rfl, ?_⟩
        have hle : ∀ b, Le d (newConcrete d x tvars b).2 := by
          intro b
          refine ⟨Nat.le_succ _, fun y t h => ?_, fun i hi h => ?_⟩
          · show (if y = x then _ else d.conc y) = _
            split
            · next e => rw [e, hc] at h; cases h
            · exact h
          · show (if i = d.next then b else d.holder i) = false
            rw [if_neg (Nat.ne_of_lt hi)]
            exact h
        have hne : named x tvars.erase = .con (.concrete x) tvars.erase := by simp [named, hb, htb]
        refine ⟨⟨fun y => ?_, fun y t h => ?_⟩, hle _, by rw [hne]; rfl, by show printable (.dec _ _ _) = true; rw [printable.eq_def]; exact hp,
          fun U g hu => ?_, fun hm _ _ => ?_⟩
        · show (if y = x then none else d.abbr y) = none
          split
          · rfl
          · exact hI.abbr y
        · replace h : (if y = x then some (DTy.dec x tvars d.next) else d.conc y) = some t := h
          split at h
          · next e =>
            subst e
            cases h
            exact ⟨tvars, d.next, rfl, hl, hb, htb, Nat.lt_succ_self _⟩
          · obtain ⟨ps', id', e, a, b, c, l⟩ := hI.conc y t h
            exact ⟨ps', id', e, a, b, c, Nat.lt_succ_of_lt l⟩
        · refine ⟨Nat.lt_succ_self _, ?_⟩
          rcases hu with u | u | ⟨u, _⟩ | ⟨z, u⟩
          · rw [hb] at u; cases u
          · exact absurd u htb
          · rw [hc] at u; cases u
          · have htv : tvars = .nil := len_zero (by rw [hl, z])
            subst htv
            exact Or.inr ⟨rfl, u, by show (if x = x then _ else _) = _; rw [if_pos rfl]⟩
        · cases m with
          | holder => exact hm.elim
          | full =>
            refine ⟨fun U => ⟨Nat.lt_succ_self _, Or.inl ?_⟩, ⟨tvars, d.next, ?_, Nat.lt_succ_self _, fun _ => ?_⟩⟩
            · show (if d.next = d.next then false else _) = false
              rw [if_pos rfl]
            · show (if x = x then _ else _) = _
              rw [if_pos rfl]
            · show (if d.next = d.next then false else _) = false
              rw [if_pos rfl]

mutual
theorem Syn.elab_length (d : Decls) : ∀ (ts : Syns) (us : DTys) (d' : Decls),
    ts.elab d = (some us, d') → us.length = ts.length
  | .nil, us, d', h => by rw [Syns.elab.eq_def] at h; cases h; rfl
  | .cons t ts, us, d', h => by
    rw [Syns.elab.eq_def] at h
    simp only at h
    split at h
    · cases h
    · next t' d1 _ =>
      split at h
      · cases h
      · next ts' _ e =>
        cases h
        simp only [DTys.length, Syns.length, Syn.elab_length d1 ts ts' _ e]
end

/-- The outcome of the elaboration of a type. -/
structure Elab (ar : String → Nat) (d : Decls) (names : List String) (d' : Decls) (e : Prop) (p : Bool)
    (g : (String → Prop) → Prop) : Prop where
  inv : DInv ar d'
  le : Le d d'
  erase : e
  prt : p = true
  good : ∀ U, (∀ x ∈ names, Usable ar d U x) → g U

mutual
theorem Syn.elab_ok {ar} (hA : Arity ar) : ∀ (t : Syn) (d : Decls), t.Conf ar → DInv ar d →
    ∃ u d', t.elab d = (some u, d') ∧ Elab ar d t.names d' (u.erase = t.den) (printable u) (fun U => DGood d' U u)
  | .name x, d, hc, hI => by
    obtain ⟨u, d', e, g⟩ := getType_ok (tvars := .nil) .holder hA hI (by simpa [Syn.Conf, DTys.length] using hc.symm) rfl
    refine ⟨u, d', by rw [Syn.elab.eq_def]; exact e, ⟨g.inv, g.le, ?_, g.prt, fun U hu => ?_⟩⟩
    · rw [Syn.den.eq_def]; exact g.erase
    · exact g.good U trivial (hu x (by simp [Syn.names]))
  | .var v, d, _, hI => ⟨.var v, d, by rw [Syn.elab.eq_def], ⟨hI, Le.refl d, by rw [Syn.den.eq_def]; rfl, rfl, fun _ _ => trivial⟩⟩
  | .app args x, d, hc, hI => by
    rw [Syn.Conf.eq_def] at hc
    obtain ⟨us, d1, e1, g1⟩ := Syns.elab_ok hA args d hc.2 hI
    obtain ⟨u, d2, e2, g2⟩ := getType_ok (x := x) .holder hA g1.inv (by rw [Syn.elab_length d args us d1 e1]; exact hc.1) g1.prt
    refine ⟨u, d2, by rw [Syn.elab.eq_def]; simp only [e1, e2], ⟨g2.inv, g1.le.trans g2.le, ?_, g2.prt, fun U hu => ?_⟩⟩
    · rw [Syn.den.eq_def, g2.erase, g1.erase]
    · exact g2.good U (g1.good U fun y hy => hu y (by simp [Syn.names, hy]))
        ((hu x (by simp [Syn.names])).mono g1.le)
  | .op o args, d, hc, hI => by
    rw [Syn.Conf.eq_def] at hc
    obtain ⟨us, d1, e1, g1⟩ := Syns.elab_ok hA args d hc.2 hI
    refine ⟨.con o us, d1, by rw [Syn.elab.eq_def]; simp only [e1], ⟨g1.inv, g1.le, ?_, ?_, fun U hu => ?_⟩⟩
    · simp only [Syn.den, DTy.erase, g1.erase]
    · rw [printable.eq_def]
      simp only [g1.prt, Bool.and_true]
      split
      · exact absurd rfl hc.1
      · rfl
    · exact g1.good U fun y hy => hu y (by simpa [Syn.names] using hy)
theorem Syns.elab_ok {ar} (hA : Arity ar) : ∀ (ts : Syns) (d : Decls), ts.Conf ar → DInv ar d →
    ∃ us d', ts.elab d = (some us, d') ∧
      Elab ar d ts.names d' (us.erase = ts.den) (printableAll us) (fun U => DGoodAll d' U us)
  | .nil, d, _, hI => ⟨.nil, d, by rw [Syns.elab.eq_def], ⟨hI, Le.refl d, by rw [Syns.den.eq_def]; rfl, rfl, fun _ _ => trivial⟩⟩
  | .cons t ts, d, hc, hI => by
    rw [Syns.Conf.eq_def] at hc
    obtain ⟨u, d1, e1, g1⟩ := Syn.elab_ok hA t d hc.1 hI
    obtain ⟨us, d2, e2, g2⟩ := Syns.elab_ok hA ts d1 hc.2 g1.inv
    refine ⟨.cons u us, d2, by rw [Syns.elab.eq_def]; simp only [e1, e2], ⟨g2.inv, g1.le.trans g2.le, ?_, ?_, fun U hu => ⟨?_, ?_⟩⟩⟩
    · simp only [Syns.den, DTys.erase, g1.erase, g2.erase]
    · rw [printableAll.eq_def]; simp only [g1.prt, g2.prt, Bool.and_self]
    · exact DGood.mono g2.le u (g1.good U fun y hy => hu y (by simp [Syns.names, hy]))
    · exact g2.good U fun y hy => (hu y (by simp [Syns.names, hy])).mono g1.le
end

theorem elabCtors_ok {ar} (hA : Arity ar) : ∀ (cs : List (String × Syns)) (d : Decls), (∀ c ∈ cs, c.2.Conf ar) →
    DInv ar d → ∃ r d', elabCtors d cs = (some r, d') ∧
      Elab ar d (cs.flatMap fun c => c.2.names) d' (r.map (fun c => (c.1, c.2.erase)) = cs.map fun c => (c.1, c.2.den))
        (r.all fun c => printableAll c.2) (fun U => ∀ c ∈ r, DGoodAll d' U c.2)
  | [], d, _, hI => ⟨[], d, rfl, ⟨hI, Le.refl d, rfl, rfl, fun _ _ _ h => by cases h⟩⟩
  | (c, as) :: cs, d, hc, hI => by
    obtain ⟨us, d1, e1, g1⟩ := Syns.elab_ok hA as d (hc (c, as) (by simp)) hI
    obtain ⟨r, d2, e2, g2⟩ := elabCtors_ok hA cs d1 (fun c' h => hc c' (List.mem_cons_of_mem _ h)) g1.inv
    refine ⟨(c, us) :: r, d2, by rw [elabCtors]; simp only [e1, e2], ⟨g2.inv, g1.le.trans g2.le, ?_, ?_, fun U hu c' h => ?_⟩⟩
    · simp only [List.map_cons, g1.erase, g2.erase]
    · simp only [List.all_cons, g1.prt, g2.prt, Bool.and_self]
    · rcases List.mem_cons.1 h with rfl | h
      · exact DGoodAll.mono g2.le us (g1.good U fun y hy => hu y (by simp [hy]))
      · exact g2.good U (fun y hy => (hu y (by rw [List.flatMap_cons]; exact List.mem_append_right _ hy)).mono g1.le) c' h

theorem erase_varsOf_length (vs : List Nat) : (varsOf vs).erase.length = vs.length := by
  rw [DTys.erase_length, varsOf_length]

/-- The outcome of a definition, or of several. -/
structure Defd (ar : String → Nat) (d : Decls) (defs : List TypeDef) (cs : List Ctor) (d' : Decls) : Prop where
  inv : DInv ar d'
  le : Le d d'
  types : cs.map Ctor.types = declared defs
  decl : ∀ t ∈ defs, Declared d' t.name
  good : ∀ group xs, Ordered ar group xs defs → (∀ x ∈ xs, Declared d x) →
    ∀ c ∈ cs, (∀ U, DGood d' U c.res) ∧ DGoodAll d' (fun x => x ∈ group ∨ Declared d' x) c.args

theorem elabDef_ok {ar d} (hA : Arity ar) (t : TypeDef) (hc : t.Conf ar) (hI : DInv ar d) :
    ∃ cs d', elabDef d t = .ok (some cs, d') ∧ Defd ar d [t] cs d' := by
  obtain ⟨r, d1, e1, g1⟩ := getType_ok (x := t.name) .full hA hI (by rw [varsOf_length]; exact hc.params) (printable_varsOf t.params)
  obtain ⟨cs, d2, e2, g2⟩ := elabCtors_ok hA t.ctors d1 hc.ctors g1.inv
  have hf := g1.full trivial hc.new.1 hc.new.2
  have hr : r.erase = t.ty := by rw [g1.erase]; simp [named, hc.new.1, hc.new.2, TypeDef.ty]
  refine ⟨_, d2, by rw [elabDef]; simp only [e1, e2, g2.prt, if_true]; rfl, ⟨g2.inv, g1.le.trans g2.le, ?_, ?_, ?_⟩⟩
  · simp only [declared, List.flatMap_cons, List.flatMap_nil, List.append_nil, List.map_map]
    have he := g2.erase
    have : ∀ (l : List (String × DTys)) (l' : List (String × Syns)),
        l.map (fun c => (c.1, c.2.erase)) = l'.map (fun c => (c.1, c.2.den)) →
        l.map (Ctor.types ∘ fun c => (⟨c.1, c.2, r⟩ : Ctor)) = l'.map (fun c => (c.1, c.2.den, t.ty)) := by
      intro l
      induction l with
      | nil => intro l' h; cases l' with
        | nil => rfl
        | cons _ _ => simp at h
      | cons a l ih => intro l' h; cases l' with
        | nil => simp at h
        | cons b l' =>
          simp only [List.map_cons, List.cons.injEq, Prod.mk.injEq] at h
          simp only [List.map_cons, Function.comp, Ctor.types, hr, h.1.1, h.1.2, List.cons.injEq, true_and]
          exact ih l' h.2
    exact this cs t.ctors he
  · intro t' ht'
    rw [List.mem_singleton.1 ht']
    exact hf.2.mono g2.le
  · intro group xs ho hx c hcm
    obtain ⟨p, hp, rfl⟩ := List.mem_map.1 hcm
    refine ⟨fun U => DGood.mono g2.le r (hf.1 U), ?_⟩
    refine g2.good _ (fun y hy => ?_) p hp
    rcases ho.1 y hy with u | u | u | u
    · exact Or.inl u
    · exact Or.inr (Or.inl u)
    · have hd : Declared d1 y := by
        rcases List.mem_cons.1 u with rfl | u
        · exact hf.2
        · exact (hx y u).mono g1.le
      by_cases hz : ar y = 0
      · exact Or.inr (Or.inr (Or.inr ⟨hz, Or.inr (hd.mono g2.le)⟩))
      · obtain ⟨ps, id, e, _⟩ := hd
        exact Or.inr (Or.inr (Or.inl ⟨by simp [e], hz⟩))
    · exact Or.inr (Or.inr (Or.inr ⟨u.1, Or.inl u.2⟩))

mutual
theorem DGood.weaken {d} {U V : String → Prop} (h : ∀ x, U x → V x) : ∀ t, DGood d U t → DGood d V t
  | .var _, _ => trivial
  | .con _ ts, g => DGoodAll.weaken h ts g
  | .dec x ps id, g => ⟨g.1, g.2.imp (fun e => e) fun ⟨a, b, c⟩ => ⟨a, h x b, c⟩⟩
theorem DGoodAll.weaken {d} {U V : String → Prop} (h : ∀ x, U x → V x) : ∀ ts, DGoodAll d U ts → DGoodAll d V ts
  | .nil, _ => trivial
  | .cons t ts, g => ⟨DGood.weaken h t g.1, DGoodAll.weaken h ts g.2⟩
end

theorem elabDefs_ok {ar} (hA : Arity ar) : ∀ (ts : List TypeDef) (d : Decls), (∀ t ∈ ts, t.Conf ar) → DInv ar d →
    ∃ cs d', elabDefs d ts = .ok (some cs, d') ∧ Defd ar d ts cs d'
  | [], d, _, hI => ⟨[], d, rfl, ⟨hI, Le.refl d, rfl, (fun _ h => by cases h), (fun _ _ _ _ _ h => by cases h)⟩⟩
  | t :: ts, d, hc, hI => by
    obtain ⟨cs, d1, e1, g1⟩ := elabDef_ok hA t (hc t (by simp)) hI
    obtain ⟨cs', d2, e2, g2⟩ := elabDefs_ok hA ts d1 (fun t' h => hc t' (List.mem_cons_of_mem _ h)) g1.inv
    refine ⟨cs ++ cs', d2, by rw [elabDefs]; simp only [e1, e2], ⟨g2.inv, g1.le.trans g2.le, ?_, ?_, ?_⟩⟩
    · have := g1.types
      simp only [declared, List.flatMap_cons, List.flatMap_nil, List.append_nil] at this ⊢
      rw [List.map_append, this, g2.types, declared]
    · intro t' ht'
      rcases List.mem_cons.1 ht' with rfl | h
      · exact (g1.decl _ (by simp)).mono g2.le
      · exact g2.decl t' h
    · intro group xs ho hx c hcm
      rcases List.mem_append.1 hcm with h | h
      · obtain ⟨a, b⟩ := g1.good group xs ⟨ho.1, trivial⟩ hx c h
        refine ⟨fun U => DGood.mono g2.le _ (a U), DGoodAll.mono g2.le _ (DGoodAll.weaken ?_ _ b)⟩
        intro x hx
        exact hx.imp id fun q => q.mono g2.le
      · refine g2.good group (t.name :: xs) ho.2 (fun x hx' => ?_) c h
        rcases List.mem_cons.1 hx' with rfl | hx'
        · exact g1.decl _ (by simp)
        · exact (hx x hx').mono g1.le

theorem good_arrowsTo {d U r} (hr : DGood d U r) : ∀ as, DGoodAll d U as → DGood d U (arrowsTo as r)
  | .nil, _ => hr
  | .cons _ as, g => ⟨g.1, good_arrowsTo hr as g.2, trivial⟩

/-- A session of groups. -/
theorem run_ok {ar} (hA : Arity ar) : ∀ (gs : List (List TypeDef)) (d : Decls), (∀ g ∈ gs, ∀ t ∈ g, t.Conf ar) →
    DInv ar d → ∃ os d', run d (gs.map .lettype) = .ok (os, d') ∧ DInv ar d' ∧
      os.length = gs.length ∧
      (∀ (i : Nat) g cs, gs[i]? = some g → os[i]? = some (some cs) → cs.map Ctor.types = declared g) ∧
      ∀ xs, OrderedS ar xs gs → (∀ x ∈ xs, Declared d x) → ∀ o ∈ os, o.isSome
  | [], d, _, hI => ⟨[], d, rfl, hI, rfl, (fun i _ _ h => by simp at h), (fun _ _ _ _ h => by cases h)⟩
  | g :: gs, d, hc, hI => by
    obtain ⟨cs, d1, e1, g1⟩ := elabDefs_ok hA g d (hc g (by simp)) hI
    obtain ⟨os, d2, e2, i2, l2, f2, a2⟩ := run_ok hA gs d1 (fun g' h => hc g' (List.mem_cons_of_mem _ h)) g1.inv
    refine ⟨_, d2, by simp only [List.map_cons, run, exec, e1, e2]; rfl, i2, by simp [l2], fun i g' cs' hg h => ?_, fun xs ho hx o hm => ?_⟩
    · cases i with
      | zero =>
        simp only [List.getElem?_cons_zero, Option.some.injEq] at hg h
        subst hg
        split at h
        · cases h; exact g1.types
        · cases h
      | succ i =>
        simp only [List.getElem?_cons_succ] at hg h
        exact f2 i g' cs' hg h
    · rcases List.mem_cons.1 hm with rfl | hm
      · have hU : ∀ x id, (x ∈ g.map TypeDef.name ∨ Declared d1 x) → d1.conc x = some (.dec x .nil id) →
            d1.holder id = false := by
          intro x id h e
          have : Declared d1 x := by
            rcases h with h | h
            · obtain ⟨t, ht, rfl⟩ := List.mem_map.1 h
              exact g1.decl t ht
            · exact h
          obtain ⟨ps, id', e', _, q⟩ := this
          rw [e] at e'
          cases e'
          exact q rfl
        rw [if_pos]
        · rfl
        · rw [List.all_eq_true]
          intro c hcm
          obtain ⟨a, b⟩ := g1.good (g.map TypeDef.name) xs ho.1 hx c hcm
          exact DGood.noUndef hU _ (good_arrowsTo (a _) _ b)
      · refine a2 _ ho.2 (fun x hx' => ?_) o hm
        rcases List.mem_append.1 hx' with h | h
        · obtain ⟨t, ht, rfl⟩ := List.mem_map.1 h
          exact g1.decl t ht
        · exact (hx x h).mono g1.le

end Voss.TC
