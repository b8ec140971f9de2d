import Verif.Bexpr.ConvLemmas
/- When the calls are defined: as long as the constant is in no chain of signatures. -/
namespace Voss.Bexpr

theorem Safe.asked {c : Cfg} {s s' : St} (h : Safe c s) (ha : Asked s s') : Safe c s' := by
  obtain ⟨n, rfl⟩ := ha; exact h

theorem findInsertAnd_safe {c : Cfg} {s s' : St} {l r e : Edge} {ht : Nat} (hi : Inv s) (hs : Safe c s)
    (he : findInsertAnd c s l r ht = some (s', e))
    (hask : ∀ s0 m, tryMerge c s l r (findChain s (andSig s l r)) = some (s0, m) → Asked s s0) : Safe c s' := by
  rcases hs with h0 | h0
  · exact .inl h0
  right
  unfold findInsertAnd at he
  cases hf : findUniq s (.and l r) with
  | some i => rw [hf] at he; cases he; exact h0
  | none =>
    rw [hf] at he
    simp only [Option.bind_eq_bind] at he
    cases hm : tryMerge c s l r (findChain s (andSig s l r)) with
    | none => rw [hm] at he; cases he
    | some x =>
      obtain ⟨s0, m⟩ := x
      have ha := hask s0 m hm
      rw [hm] at he
      simp only [Option.bind_some] at he
      have hsg : s0.sigs = s.sigs := by obtain ⟨n, rfl⟩ := ha; rfl
      cases m with
      | some k => simp only at he; cases he; rw [hsg]; exact h0
      | none =>
        simp only [Option.some.injEq, Prod.mk.injEq] at he
        obtain ⟨rfl, -⟩ := he
        intro ch hch
        have hi0 := ha.inv hi
        have hadd := (alloc_fields (satAddAnd s0 (s0.lit l) (s0.lit r)).1
          ⟨.and l r, ht % 2 ^ 28, (satAddAnd s0 (s0.lit l) (s0.lit r)).2, andSig s l r, none⟩).2.1
        have hk0 : (allocNode (satAddAnd s0 (s0.lit l) (s0.lit r)).1
            ⟨.and l r, ht % 2 ^ 28, (satAddAnd s0 (s0.lit l) (s0.lit r)).2, andSig s l r, none⟩).2 ≠ 0 := by
          have h1 := alloc_dead hi0 (r := ⟨.and l r, ht % 2 ^ 28, (satAddAnd s0 (s0.lit l) (s0.lit r)).2,
            andSig s l r, none⟩)
          have h2 : (allocNode (satAddAnd s0 (s0.lit l) (s0.lit r)).1
            ⟨.and l r, ht % 2 ^ 28, (satAddAnd s0 (s0.lit l) (s0.lit r)).2, andSig s l r, none⟩).2 =
            (allocNode s0 ⟨.and l r, ht % 2 ^ 28, (satAddAnd s0 (s0.lit l) (s0.lit r)).2, andSig s l r, none⟩).2 := by
            unfold allocNode satAddAnd
            cases s0.freeL <;> rfl
          rw [h2]
          intro h3
          rw [h3] at h1
          apply h1
          unfold St.live
          rw [hi0.root.1]; simp
        generalize (allocNode (satAddAnd s0 (s0.lit l) (s0.lit r)).1
            ⟨.and l r, ht % 2 ^ 28, (satAddAnd s0 (s0.lit l) (s0.lit r)).2, andSig s l r, none⟩) = al at *
        simp only at hch
        rw [hadd] at hch
        have hsg2 : (satAddAnd s0 (s0.lit l) (s0.lit r)).1.sigs = s.sigs := by rw [← hsg]; rfl
        rw [hsg2] at hch
        rcases addChain_mem hch with h1 | h1 | ⟨ch0, h1, k0, h2, h3, h4⟩
        · exact h0 ch h1
        · subst h1; simp [Ne.symm hk0]
        · subst h4; simp [Ne.symm hk0, h0 ch0 h1]

/-- A call that is defined, keeps everything and means `f`. -/
def Good (c : Cfg) (s : St) (x : Option (St × Edge)) (f : Fn) : Prop :=
  ∃ s' e, x = some (s', e) ∧ Inv s' ∧ Grow s s' ∧ Safe c s' ∧ Means s' e f

theorem beAnd_good {c : Cfg} (hc : RightAnswers c) {s : St} {a b : Edge} {f g : Fn} (hi : Inv s) (hs : Safe c s)
    (ha : Means s a f) (hb : Means s b g) : Good c s (beAnd c s a b) (fun ρ => f ρ && g ρ) := by
  have key : ∃ s' e, beAnd c s a b = some (s', e) ∧ Safe c s' := by
    unfold beAnd
    split
    · exact ⟨_, _, rfl, hs⟩
    rename_i h1
    split
    · exact ⟨_, _, rfl, hs⟩
    rename_i h2
    split
    · exact ⟨_, _, rfl, hs⟩
    rename_i h3
    split
    · exact ⟨_, _, rfl, hs⟩
    split
    · exact ⟨_, _, rfl, hs⟩
    have ha0 : a.idx ≠ 0 := fun h => (edge_const h).elim h2 fun h => h1 (.inl h)
    have hb0 : b.idx ≠ 0 := fun h => (edge_const h).elim h3 fun h => h1 (.inr h)
    have hla := means_live ha
    have hlb := means_live hb
    simp only
    split
    · obtain ⟨s', e, h⟩ := findInsertAnd_total (c := c) (ht := max (heightOf s a) (heightOf s b) + 1) hi hlb hla hb0 ha0 (.inl hs)
      exact ⟨s', e, h, findInsertAnd_safe hi hs h fun s0 m hm => (tryMerge_spec hc _ hm).1⟩
    · obtain ⟨s', e, h⟩ := findInsertAnd_total (c := c) (ht := max (heightOf s a) (heightOf s b) + 1) hi hla hlb ha0 hb0 (.inl hs)
      exact ⟨s', e, h, findInsertAnd_safe hi hs h fun s0 m hm => (tryMerge_spec hc _ hm).1⟩
  obtain ⟨s', e, h1, h2⟩ := key
  obtain ⟨p, q, r⟩ := beAnd_spec hc hi ha hb h1
  exact ⟨s', e, h1, p, q, h2, r⟩

theorem beOr_good {c : Cfg} (hc : RightAnswers c) {s : St} {a b : Edge} {f g : Fn} (hi : Inv s) (hs : Safe c s)
    (ha : Means s a f) (hb : Means s b g) : Good c s (beOr c s a b) (fun ρ => f ρ || g ρ) := by
  obtain ⟨s', e, h, p1, p2, p3, p4⟩ := beAnd_good hc hi hs (means_not ha) (means_not hb)
  have hx : beOr c s a b = some (s', e.not) := by unfold beOr; rw [h]; rfl
  obtain ⟨q1, q2, q3⟩ := beOr_spec hc hi ha hb hx
  exact ⟨_, _, hx, q1, q2, p3, q3⟩

theorem beNand_good {c : Cfg} (hc : RightAnswers c) {s : St} {a b : Edge} {f g : Fn} (hi : Inv s) (hs : Safe c s)
    (ha : Means s a f) (hb : Means s b g) : Good c s (beNand c s a b) (fun ρ => !(f ρ && g ρ)) := by
  obtain ⟨s', e, h, p1, p2, p3, p4⟩ := beAnd_good hc hi hs ha hb
  have hx : beNand c s a b = some (s', e.not) := by unfold beNand; rw [h]; rfl
  obtain ⟨q1, q2, q3⟩ := beNand_spec hc hi ha hb hx
  exact ⟨_, _, hx, q1, q2, p3, q3⟩

theorem beNor_good {c : Cfg} (hc : RightAnswers c) {s : St} {a b : Edge} {f g : Fn} (hi : Inv s) (hs : Safe c s)
    (ha : Means s a f) (hb : Means s b g) : Good c s (beNor c s a b) (fun ρ => !(f ρ || g ρ)) := by
  obtain ⟨s', e, h, p1, p2, p3, p4⟩ := beAnd_good hc hi hs (means_not ha) (means_not hb)
  obtain ⟨q1, q2, q3⟩ := beNor_spec hc hi ha hb h
  exact ⟨_, _, h, q1, q2, p3, q3⟩

theorem beXor_good {c : Cfg} (hc : RightAnswers c) {s : St} {a b : Edge} {f g : Fn} (hi : Inv s) (hs : Safe c s)
    (ha : Means s a f) (hb : Means s b g) : Good c s (beXor c s a b) (fun ρ => f ρ != g ρ) := by
  obtain ⟨s1, e1, h1, p1, p2, p3, p4⟩ := beAnd_good hc hi hs (means_not ha) hb
  obtain ⟨s2, e2, h2, r1, r2, r3, r4⟩ := beAnd_good hc p1 p3 (p2.means ha) (means_not (p2.means hb))
  obtain ⟨s3, e3, h3, t1, t2, t3, t4⟩ := beOr_good hc r1 r3 (r2.means p4) r4
  have hx : beXor c s a b = some (s3, e3) := by
    unfold beXor
    simp only [Option.bind_eq_bind, h1, h2, Option.bind_some]
    exact h3
  obtain ⟨q1, q2, q3⟩ := beXor_spec hc hi ha hb hx
  exact ⟨_, _, hx, q1, q2, t3, q3⟩

theorem beXnor_good {c : Cfg} (hc : RightAnswers c) {s : St} {a b : Edge} {f g : Fn} (hi : Inv s) (hs : Safe c s)
    (ha : Means s a f) (hb : Means s b g) : Good c s (beXnor c s a b) (fun ρ => f ρ == g ρ) := by
  obtain ⟨s1, e1, h1, p1, p2, p3, p4⟩ := beAnd_good hc hi hs (means_not ha) (means_not hb)
  obtain ⟨s2, e2, h2, r1, r2, r3, r4⟩ := beAnd_good hc p1 p3 (p2.means ha) (p2.means hb)
  obtain ⟨s3, e3, h3, t1, t2, t3, t4⟩ := beOr_good hc r1 r3 (r2.means p4) r4
  have hx : beXnor c s a b = some (s3, e3) := by
    unfold beXnor
    simp only [Option.bind_eq_bind, h1, h2, Option.bind_some]
    exact h3
  obtain ⟨q1, q2, q3⟩ := beXnor_spec hc hi ha hb hx
  exact ⟨_, _, hx, q1, q2, t3, q3⟩

theorem beIte_good {c : Cfg} (hc : RightAnswers c) {s : St} {i a b : Edge} {d f g : Fn} (hi : Inv s) (hs : Safe c s)
    (hd : Means s i d) (ha : Means s a f) (hb : Means s b g) :
    Good c s (beIte c s i a b) (fun ρ => if d ρ then f ρ else g ρ) := by
  obtain ⟨s1, e1, h1, p1, p2, p3, p4⟩ := beAnd_good hc hi hs hd ha
  obtain ⟨s2, e2, h2, r1, r2, r3, r4⟩ := beAnd_good hc p1 p3 (means_not (p2.means hd)) (p2.means hb)
  obtain ⟨s3, e3, h3, t1, t2, t3, t4⟩ := beOr_good hc r1 r3 (r2.means p4) r4
  have g3 := (p2.trans r2).trans t2
  obtain ⟨s4, e4, h4, u1, u2, u3, u4⟩ := beAnd_good hc t1 t3 (g3.means ha) (g3.means hb)
  obtain ⟨s5, e5, h5, v1, v2, v3, v4⟩ := beOr_good hc u1 u3 (u2.means t4) u4
  by_cases hr : c.redundant = true
  · have hx : beIte c s i a b = some (s5, e5) := by
      unfold beIte
      simp only [Option.bind_eq_bind, h1, h2, h3, h4, Option.bind_some, hr, if_true]
      exact h5
    obtain ⟨q1, q2, q3⟩ := beIte_spec hc hi hd ha hb hx
    exact ⟨_, _, hx, q1, q2, v3, q3⟩
  · have hx : beIte c s i a b = some (s3, e3) := by
      unfold beIte
      simp only [Option.bind_eq_bind, h1, h2, h3, Option.bind_some, hr, Bool.false_eq_true, if_false]
    obtain ⟨q1, q2, q3⟩ := beIte_spec hc hi hd ha hb hx
    exact ⟨_, _, hx, q1, q2, t3, q3⟩

theorem beVar_safe {c : Cfg} {s : St} (hs : Safe c s) (n : Name) : Safe c (beVar s n).1 := by
  have : (beVar s n).1.sigs = s.sigs := by
    unfold beVar
    cases findUniq s (.var n) with
    | some i => rfl
    | none =>
      simp only [satAddVar]
      rw [(alloc_fields _ _).2.1]
  unfold Safe
  rw [this]; exact hs

theorem beSubst_total {c : Cfg} (hc : RightAnswers c) {sub : Name → Option Edge} {E : Env → Env} :
    ∀ fuel {s : St} {m : Memo} {e : Edge} {f : Fn}, Inv s → Safe c s → SubOK s sub E → MemoOK s E m → Means s e f →
    (s.nd e.idx).sat < fuel → ∃ s' m' r, beSubst c sub fuel s m e = some (s', m', r) ∧ Safe c s' := by
  intro fuel
  induction fuel with
  | zero => intro s m e f _ _ _ _ _ h; omega
  | succ fuel ih =>
    intro s m e f hi hsf hs hm he hf
    simp only [beSubst]
    split
    · exact ⟨_, _, _, rfl, hsf⟩
    rename_i hcst
    obtain ⟨g, hg, rfl⟩ := he
    cases hfd : m.find s e.idx with
    | some q => exact ⟨_, _, _, rfl, hsf⟩
    | none =>
      simp only
      cases hg with
      | one h1 => exact absurd (edge_const (hi.oneOnly _ h1)) hcst
      | @var _ n h1 =>
        rw [h1]
        simp only
        cases sub n with
        | some q => exact ⟨_, _, _, rfl, hsf⟩
        | none => exact ⟨_, _, _, rfl, hsf⟩
      | @and _ l r0 fl fr h1 hl hr =>
        rw [h1]
        simp only [Option.bind_eq_bind]
        obtain ⟨⟨_, _, k1⟩, _, _, k2⟩ := hi.kids _ _ _ h1
        have hml : Means s l (fun ρ => fl ρ ^^ l.neg) := ⟨fl, hl, rfl⟩
        have hmr : Means s r0 (fun ρ => fr ρ ^^ r0.neg) := ⟨fr, hr, rfl⟩
        obtain ⟨s1, m1, nl, e1, f1⟩ := ih hi hsf hs hm hml (by omega)
        obtain ⟨i1, g1, o1, q1⟩ := beSubst_spec hc _ hi hs hm hml e1
        obtain ⟨s2, m2, nr, e2, f2⟩ := ih i1 f1 (hs.grow g1) o1 (g1.means hmr) (by
          rw [g1.1 _ (den_live hr)]; omega)
        obtain ⟨i2, g2, o2, q2⟩ := beSubst_spec hc _ i1 (hs.grow g1) o1 (g1.means hmr) e2
        simp only [e1, e2, Option.bind_some]
        split
        · exact ⟨_, _, _, rfl, f2⟩
        · obtain ⟨s3, r, e3, _, _, f3, _⟩ := beAnd_good hc i2 f2 (g2.means q1) q2
          rw [e3]
          exact ⟨_, _, _, rfl, f3⟩

theorem beSubstList_total {c : Cfg} (hc : RightAnswers c) {sub : Name → Option Edge} {E : Env → Env} (es : List Edge) :
    ∀ {s : St} {m : Memo} {fs : List Fn}, Inv s → Safe c s → SubOK s sub E → MemoOK s E m → Each (Means s) es fs →
    ∃ s' rs, beSubstList c sub s m es = some (s', rs) ∧ Safe c s' := by
  induction es with
  | nil => intro s m fs _ h _ _ _; exact ⟨s, [], rfl, h⟩
  | cons e es ih =>
    intro s m fs hi hsf hs hm he
    cases fs with
    | nil => exact he.elim
    | cons f fs =>
      obtain ⟨s1, m1, r, e1, f1⟩ := beSubst_total hc _ hi hsf hs hm he.1 (Nat.lt_succ_self _)
      obtain ⟨i1, g1, o1, q1⟩ := beSubst_spec hc _ hi hs hm he.1 e1
      obtain ⟨s2, rs, e2, f2⟩ := ih i1 f1 (hs.grow g1) o1 (each_mono (fun _ _ hx => g1.means hx) he.2)
      refine ⟨s2, r :: rs, ?_, f2⟩
      simp only [beSubstList, Option.bind_eq_bind, e1, e2, Option.bind_some]

theorem bdd2bexpr_total {c : Cfg} (hc : RightAnswers c) {o : BddOps} {den : Nat → Fn} (ho : BddRight o den)
    {isNeg : Nat → Bool} {top : TopCof} {depth : Nat → Nat} (ht : CofRight o den top depth) :
    ∀ fuel {s : St} {m : Memo} {f : Nat}, Inv s → Safe c s → MemoB den s m → depth f < fuel →
    ∃ s' m' e, bdd2bexpr c o isNeg top fuel s m f = some (s', m', e) ∧ Safe c s' := by
  intro fuel
  induction fuel with
  | zero => intro s m f _ _ _ h; omega
  | succ fuel ih =>
    intro s m f hi hsf hm hf
    simp only [bdd2bexpr]
    split
    · exact ⟨_, _, _, rfl, hsf⟩
    rename_i h1
    split
    · exact ⟨_, _, _, rfl, hsf⟩
    rename_i h2
    have hpos : (if isNeg f = true then o.not f else f) ≠ o.one ∧ (if isNeg f = true then o.not f else f) ≠ o.zero ∧
        depth (if isNeg f = true then o.not f else f) = depth f := by
      split
      · exact ⟨((ht.not f).2 h1 h2).1, ((ht.not f).2 h1 h2).2, (ht.not f).1⟩
      · exact ⟨h1, h2, rfl⟩
    generalize (if isNeg f = true then o.not f else f) = f' at hpos
    cases (m.find? fun p => p.1 == f').map (·.2) with
    | some r => exact ⟨_, _, _, rfl, hsf⟩
    | none =>
      simp only
      obtain ⟨v, hi', lo, htp⟩ := ht.total f' hpos.1 hpos.2.1
      obtain ⟨d1, d2⟩ := ht.less f' v hi' lo htp
      rw [htp]
      simp only [Option.bind_eq_bind]
      obtain ⟨i1, g1, q1⟩ := beVar_spec hi v
      have f1 := beVar_safe hsf v
      obtain ⟨s1, x1, hx1⟩ : ∃ s1 x1, beVar s v = (s1, x1) := ⟨_, _, rfl⟩
      rw [hx1] at i1 g1 q1 f1 ⊢
      simp only at i1 g1 q1 f1 ⊢
      have om : MemoB den s1 m := fun p hp => g1.means (hm p hp)
      obtain ⟨s2, m2, eh, e2, f2⟩ := ih i1 f1 om (f := hi') (by omega)
      obtain ⟨i2, g2, o2, q2⟩ := bdd2bexpr_spec hc ho ht _ i1 om e2
      obtain ⟨s3, m3, el, e3, f3⟩ := ih i2 f2 o2 (f := lo) (by omega)
      obtain ⟨i3, g3, o3, q3⟩ := bdd2bexpr_spec hc ho ht _ i2 o2 e3
      obtain ⟨s4, r, e4, i4, g4, f4, q4⟩ := beIte_good hc i3 f3 (g3.means (g2.means q1)) (g3.means q2) q3
      simp only [e2, e3, e4, Option.bind_some]
      exact ⟨_, _, _, rfl, f4⟩

/-- Whether a call is a garbage collection. -/
def Op.isCollect : Op → Bool
  | .collect _ => true
  | _ => false

theorem step_total {c : Cfg} (hc : RightAnswers c) {s : St} {hs : List Edge} {fs : List Fn} (hi : Inv s)
    (hsf : Safe c s) (hm : Each (Means s) hs fs) {op : Op} (hop : op.isCollect = false ∨ c.satLimit = 0) :
    ∃ s' hs', step c s hs op = some (s', hs') ∧ Safe c s' := by
  have g := fun i => hget_means hi hm i
  have fin : ∀ {x : Option (St × Edge)} {f : Fn}, Good c s x f →
      ∃ s' hs', x.map (push hs) = some (s', hs') ∧ Safe c s' := by
    rintro x f ⟨s', e, rfl, _, _, h, _⟩
    exact ⟨_, _, rfl, h⟩
  cases op with
  | const b => exact ⟨_, _, rfl, hsf⟩
  | var n => exact ⟨_, _, rfl, beVar_safe hsf n⟩
  | not i => exact ⟨_, _, rfl, hsf⟩
  | and i j => exact fin (beAnd_good hc hi hsf (g i) (g j))
  | or i j => exact fin (beOr_good hc hi hsf (g i) (g j))
  | nand i j => exact fin (beNand_good hc hi hsf (g i) (g j))
  | nor i j => exact fin (beNor_good hc hi hsf (g i) (g j))
  | xor i j => exact fin (beXor_good hc hi hsf (g i) (g j))
  | xnor i j => exact fin (beXnor_good hc hi hsf (g i) (g j))
  | ite i j k => exact fin (beIte_good hc hi hsf (g i) (g j) (g k))
  | subst sub is =>
    simp only [step, bsubstitute]
    cases ht : substTbl (sub.map fun p => (p.1, hget hs p.2)) [] with
    | none => exact ⟨_, _, rfl, hsf⟩
    | some t =>
      have h1 : Each (fun (p : Name × Edge) (q : Name × Fn) => p.1 = q.1 ∧ Means s p.2 q.2)
          (sub.map fun p => (p.1, hget hs p.2)) (sub.map fun p => (p.1, fget fs p.2)) := by
        clear ht hop
        induction sub with
        | nil => trivial
        | cons p ps ih => exact ⟨⟨rfl, g p.2⟩, ih⟩
      have h2 : Each (Means s) (is.map (hget hs)) (is.map (fget fs)) := by
        clear hop
        induction is with
        | nil => trivial
        | cons i is ih => exact ⟨g i, ih⟩
      have hok : SubOK s (tblFind t) (substEnv (sub.map fun p => (p.1, fget fs p.2))) := substTbl_subOK h1 ht
      obtain ⟨s', rs, e1, f1⟩ := beSubstList_total hc (is.map (hget hs)) hi hsf hok
        (show MemoOK s _ [] from fun p hp => by cases hp) h2
      simp only [Option.bind_eq_bind, e1, Option.bind_some]
      exact ⟨_, _, rfl, f1⟩
  | isUnsat i =>
    simp only [step, bexprIsUnsat]
    split
    · exact ⟨_, _, rfl, hsf⟩
    rename_i h1
    split
    · exact ⟨_, _, rfl, hsf⟩
    rename_i h2
    have h0 : (hget hs i).idx ≠ 0 := fun h => (edge_const h).elim h2 h1
    have hv := (hi.satRange _ (means_live (g i)) h0).1
    have : findModel c s [s.lit (hget hs i)] = some (ask c s [s.lit (hget hs i)]) := by
      unfold findModel
      rw [if_neg]
      simp only [List.any_cons, List.any_nil, Bool.or_false, beq_iff_eq, St.lit]
      omega
    simp only [Option.bind_eq_bind, this, Option.bind_some, ask]
    cases c.solve s.queries s.clauses [s.lit (hget hs i)] with
    | unsat => exact ⟨_, _, rfl, hsf⟩
    | sat σ => exact ⟨_, _, rfl, hsf⟩
    | undef => exact ⟨_, _, rfl, hsf⟩
  | collect keep =>
    rcases hop with h | h
    · cases h
    · exact ⟨_, _, rfl, .inl h⟩

theorem run_total {c : Cfg} (hc : RightAnswers c) (ops : List Op) : ∀ {s : St} {hs : List Edge} {fs : List Fn},
    Inv s → Safe c s → Each (Means s) hs fs → ((∀ op ∈ ops, op.isCollect = false) ∨ c.satLimit = 0) →
    ∃ s' hs', run c ops s hs = some (s', hs') := by
  induction ops with
  | nil => intro s hs fs _ _ _ _; exact ⟨s, hs, rfl⟩
  | cons op ops ih =>
    intro s hs fs hi hsf hm hop
    obtain ⟨s1, hs1, e1, f1⟩ := step_total hc hi hsf hm (op := op) (hop.imp (fun h => h op (by simp)) id)
    obtain ⟨i1, _, q1⟩ := step_spec hc (P := fun _ => True) (fun _ _ _ _ => trivial) (fun _ _ _ _ _ => trivial) hi
      trivial hm e1
    obtain ⟨s2, hs2, e2⟩ := ih i1 f1 q1 (hop.imp (fun h op ho => h op (by simp [ho])) id)
    exact ⟨s2, hs2, by simp only [run, Option.bind_eq_bind, e1, Option.bind_some]; exact e2⟩

end Voss.Bexpr
