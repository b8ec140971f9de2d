import Verif.Bdd.InsertLemmas
/-
`bdd_step` computes the connective and keeps the invariant.
-/
namespace Voss.Bdd

theorem Chain.mono {t t' : Nat → Option Node} (hm : ∀ i n, t i = some n → t' i = some n) {i : Nat}
    {vs : List Nat} (h : Chain t i vs) : Chain t' i vs := by
  induction h with
  | nil => exact Chain.nil
  | cons h0 e _ ih => exact Chain.cons h0 (hm _ _ e) ih

theorem EntryOK.mono {s s' : S} (hm : ∀ i n, s.tbl i = some n → s'.tbl i = some n) {e : CEntry}
    (h : EntryOK s e) : EntryOK s' e := by
  unfold EntryOK at *
  split
  · rename_i hc
    rw [if_pos hc] at h
    obtain ⟨ga, gb, h1, h2, h3⟩ := h
    exact ⟨ga, gb, h1.mono hm, h2.mono hm, h3.mono hm⟩
  · rename_i hc
    rw [if_neg hc] at h
    split
    · rename_i hd
      rw [if_pos hd] at h
      obtain ⟨ga, gb, h1, h2, h3⟩ := h
      exact ⟨ga, gb, h1.mono hm, h2, h3.mono hm⟩
    · rename_i hd
      rw [if_neg hd] at h
      obtain ⟨ga, gb, h1, h2, h3⟩ := h
      exact ⟨ga, gb, h1.mono hm, h2.mono hm, h3.mono hm⟩

/-- Every cache entry tells the truth. -/
def CInv (s : S) : Prop := ∀ e ∈ s.cache, EntryOK s e

theorem CInv.ext {s s' : S} (h : CInv s) (hE : Ext s s') (hc : s'.cache = s.cache) : CInv s' := by
  intro e he
  rw [hc] at he
  exact (h e he).mono hE.tbl

theorem cacheFind_some {s : S} {fn : Nat} {a b r : F} (h : cacheFind s fn a b = some r) :
    ⟨fn, a, b, r⟩ ∈ s.cache := by
  unfold cacheFind at h
  rw [Option.map_eq_some_iff] at h
  obtain ⟨e, he, rfl⟩ := h
  have h1 := List.find?_some he
  have h2 := List.mem_of_find?_eq_some he
  simp only [Bool.and_eq_true, beq_iff_eq] at h1
  obtain ⟨⟨rfl, rfl⟩, rfl⟩ := h1
  exact h2

/-- The invariant without the variable table. -/
structure Good (s s' : S) : Prop where
  str : SInv s'
  cache : CInv s'
  ext : Ext s s'

theorem Good.trans {a b c : S} (h : Good a b) (h' : Good b c) : Good a c :=
  ⟨h'.str, h'.cache, h.ext.trans h'.ext⟩

theorem cacheAdd_good {s s' : S} (h : Good s s') {fn : Nat} {a b r : F}
    (he : EntryOK s' ⟨fn, a, b, r⟩) : Good s (cacheAdd s' fn a b r) := by
  obtain ⟨hs, hc, hE⟩ := h
  refine ⟨?_, ?_, ?_⟩
  · exact ⟨hs.tbl0, hs.live_iff, hs.live_nodup, hs.live_lt, hs.free_ok, hs.free_nodup, hs.size_pos,
      hs.uniq, hs.var_lt, hs.below_l, hs.below_r, hs.reduced, hs.ord_inj, hs.ord_lt⟩
  · intro e hm
    simp only [cacheAdd, List.mem_cons] at hm
    rcases hm with rfl | hm
    · exact he.mono fun _ _ h => h
    · exact (hc e hm).mono fun _ _ h => h
  · exact ⟨hE.tbl, hE.ord, hE.nvars, hE.vname, hE.vars⟩

theorem denotes_cacheAdd {s : S} {fn : Nat} {a b r f : F} {g : BFun} (h : Denotes s f g) :
    Denotes (cacheAdd s fn a b r) f g := h

theorem lev_ext {s s' : S} (hE : Ext s s') {f : F} {g : BFun} (h : Denotes s f g)
    (hs : SInv s) (hs' : SInv s') : lev s' f.idx = lev s f.idx := by
  rcases h.live with h0 | ⟨n, e⟩
  · rw [h0, lev_zero hs, lev_zero hs', hE.nvars]
  · rw [lev_some e, lev_some (hE.tbl _ _ e), hE.ord]

theorem onlyFrom_op {s : S} {m : Nat} {fn : Nat} {a b : BFun} (ha : OnlyFrom s m a)
    (hb : OnlyFrom s m b) : OnlyFrom s m (opFun fn a b) := by
  intro ρ ρ' h
  simp only [opFun, ha ρ ρ' h, hb ρ ρ' h]

theorem onlyFrom_ext {s s' : S} (hE : Ext s s') {m : Nat} {g : BFun} :
    OnlyFrom s' m g ↔ OnlyFrom s m g := by
  unfold OnlyFrom; rw [hE.ord, hE.nvars]

theorem eq_of_idx_ne {f g : F} (h : f.idx = g.idx) (hne : f ≠ g) : f = g.not := by
  refine F.ext' ?_ (by simpa using h)
  have : f.neg ≠ g.neg := fun h' => hne (F.ext' h' h)
  cases hf : f.neg <;> cases hg : g.neg <;> simp_all

theorem stepTerminal_spec {s : S} {fn : Nat} (hfn : fn = opAND ∨ fn = opOR ∨ fn = opXOR)
    {f1 f2 r : F} {a b : BFun} (h1 : Denotes s f1 a) (h2 : Denotes s f2 b)
    (h : stepTerminal fn f1 f2 = some r) : Denotes s r (opFun fn a b) := by
  have dz := denotes_zero s
  have do_ := denotes_one s
  have sub : ∀ {f : F} {g g' : BFun}, Denotes s f g → (∀ ρ, g ρ = g' ρ) → Denotes s f g' := by
    intro f g g' h hg
    have : g = g' := funext hg
    rwa [← this]
  unfold stepTerminal at h
  split at h
  · rename_i hidx
    split at h
    · rename_i heq
      subst heq
      have := h1.det h2; subst this
      split at h
      · rename_i hx
        cases h
        refine sub dz fun ρ => ?_
        simp [opFun, hx, opAND, opOR, opXOR]
      · rename_i hx
        cases h
        refine sub h1 fun ρ => ?_
        rcases hfn with rfl | rfl | rfl
        · simp [opFun]
        · simp [opFun, opAND, opOR]
        · exact absurd rfl hx
    · rename_i hne
      have hf := eq_of_idx_ne hidx hne
      have hnot := h2.not
      rw [← hf] at hnot
      have := h1.det hnot; subst this
      split at h
      · rename_i hx
        cases h
        refine sub dz fun ρ => ?_
        simp [opFun, hx]
      · rename_i hx
        cases h
        refine sub do_ fun ρ => ?_
        rcases hfn with rfl | rfl | rfl
        · exact absurd rfl hx
        · simp [opFun, opAND, opOR]
        · simp [opFun, opAND, opOR, opXOR]
  · rename_i hidx
    split at h
    · rename_i hz
      have c1 : f1 = ONE → ∀ ρ, a ρ = true := by
        rintro rfl ρ; rw [h1.det do_]
      have c2 : f2 = ONE → ∀ ρ, b ρ = true := by
        rintro rfl ρ; rw [h2.det do_]
      have z1 : f1 = ZERO → ∀ ρ, a ρ = false := by
        rintro rfl ρ; rw [h1.det dz]
      have z2 : f2 = ZERO → ∀ ρ, b ρ = false := by
        rintro rfl ρ; rw [h2.det dz]
      have hcase : f1 = ZERO ∨ f1 = ONE ∨ f2 = ZERO ∨ f2 = ONE := by
        rcases hz with hz | hz
        · rcases idx_zero hz with h | h <;> simp [h]
        · rcases idx_zero hz with h | h <;> simp [h]
      rcases hfn with rfl | rfl | rfl
      · rw [if_pos rfl] at h
        split at h
        · rename_i hx; cases h
          refine sub h2 fun ρ => ?_
          simp [opFun, c1 hx]
        · split at h
          · rename_i hx; cases h
            refine sub h1 fun ρ => ?_
            simp [opFun, c2 hx]
          · cases h
            refine sub dz fun ρ => ?_
            rcases hcase with hx | hx | hx | hx
            · simp [opFun, z1 hx]
            · exact absurd hx (by assumption)
            · simp [opFun, z2 hx]
            · exact absurd hx (by assumption)
      · rw [if_neg (by decide), if_pos rfl] at h
        split at h
        · rename_i hx; cases h
          refine sub h2 fun ρ => ?_
          simp [opFun, opAND, opOR, z1 hx]
        · split at h
          · rename_i hx; cases h
            refine sub h1 fun ρ => ?_
            simp [opFun, opAND, opOR, z2 hx]
          · cases h
            refine sub do_ fun ρ => ?_
            rcases hcase with hx | hx | hx | hx
            · exact absurd hx (by assumption)
            · simp [opFun, opAND, opOR, c1 hx]
            · exact absurd hx (by assumption)
            · simp [opFun, opAND, opOR, c2 hx]
      · rw [if_neg (by decide), if_neg (by decide)] at h
        split at h
        · rename_i hx; cases h
          refine sub h2 fun ρ => ?_
          simp [opFun, opAND, opOR, opXOR, z1 hx]
        · split at h
          · rename_i hx; cases h
            refine sub h1 fun ρ => ?_
            simp [opFun, opAND, opOR, opXOR, z2 hx]
          · split at h
            · rename_i hx; cases h
              refine sub h2.not fun ρ => ?_
              simp [opFun, opAND, opOR, opXOR, c1 hx]
            · cases h
              refine sub h1.not fun ρ => ?_
              rcases hcase with hx | hx | hx | hx
              · exact absurd hx (by assumption)
              · exact absurd hx (by assumption)
              · exact absurd hx (by assumption)
              · simp [opFun, opAND, opOR, opXOR, c2 hx]
    · exact absurd h (by simp)

theorem stepTerminal_none {fn : Nat} {f1 f2 : F} (h : stepTerminal fn f1 f2 = none) :
    f1.idx ≠ 0 ∧ f2.idx ≠ 0 := by
  unfold stepTerminal at h
  split at h
  · split at h <;> split at h <;> exact absurd h (by simp)
  · split at h
    · split at h
      · split at h
        · exact absurd h (by simp)
        · split at h <;> exact absurd h (by simp)
      · split at h
        · split at h
          · exact absurd h (by simp)
          · split at h <;> exact absurd h (by simp)
        · split at h
          · exact absurd h (by simp)
          · split at h
            · exact absurd h (by simp)
            · split at h <;> exact absurd h (by simp)
    · rename_i hc
      simpa [not_or] using hc

/-- Cofactors of `f` with respect to variable `v` at position at most its own. -/
theorem cofs {s : S} (hs : SInv s) {f : F} {n : Node} {g : BFun} (e : s.tbl f.idx = some n)
    (h : Denotes s f g) (v : Nat) (hv : v < s.nvars) (hle : s.ord v ≤ s.ord n.var)
    (p : F × F) (hp : p = if s.ord v < s.ord n.var then (f, f) else sons f n) :
    ∃ gl gr, Denotes s p.1 gl ∧ Denotes s p.2 gr ∧ (g = fun ρ => if ρ v then gl ρ else gr ρ) ∧
      s.ord v < lev s p.1.idx ∧ s.ord v < lev s p.2.idx := by
  by_cases hlt : s.ord v < s.ord n.var
  · rw [if_pos hlt] at hp; subst hp
    refine ⟨g, g, h, h, by funext ρ; simp, ?_, ?_⟩ <;> · simp only; rw [lev_some e]; exact hlt
  · rw [if_neg hlt] at hp; subst hp
    have hve : v = n.var := hs.ord_inj _ _ hv (hs.var_lt _ _ e) (by omega)
    obtain ⟨gl, gr, dl, dr, hg⟩ := h.split e (idx_ne_zero hs e)
    have hl := lev_sons hs e
    rw [lev_some e] at hl
    subst hve
    exact ⟨gl, gr, dl, dr, hg, hl.1, hl.2⟩

theorem bddStep_spec {fn : Nat} (hfn : fn = opAND ∨ fn = opOR ∨ fn = opXOR) :
    ∀ (fuel : Nat) (s : S) (f1 f2 : F) (a b : BFun), SInv s → CInv s →
      Denotes s f1 a → Denotes s f2 b → s.nvars < fuel + min (lev s f1.idx) (lev s f2.idx) →
      ∃ r s', bddStep fuel s fn f1 f2 = some (r, s') ∧ Good s s' ∧ Denotes s' r (opFun fn a b) := by
  intro fuel
  induction fuel with
  | zero =>
    intro s f1 f2 a b hs _ _ _ hf
    have := lev_le hs f1.idx
    omega
  | succ fuel ih =>
    intro s f1 f2 a b hs hc h1 h2 hf
    unfold bddStep
    cases ht : stepTerminal fn f1 f2 with
    | some r =>
      exact ⟨r, s, rfl, ⟨hs, hc, Ext.refl s⟩, stepTerminal_spec hfn h1 h2 ht⟩
    | none =>
      simp only
      cases hcf : cacheFind s fn f1 f2 with
      | some r =>
        refine ⟨r, s, rfl, ⟨hs, hc, Ext.refl s⟩, ?_⟩
        have he := hc _ (cacheFind_some hcf)
        unfold EntryOK at he
        rw [if_pos hfn] at he
        obtain ⟨ga, gb, d1, d2, d3⟩ := he
        simp only at d1 d2 d3
        rw [h1.det d1, h2.det d2]
        exact d3
      | none =>
        obtain ⟨n10, n20⟩ := stepTerminal_none ht
        obtain ⟨n1, e1⟩ := h1.node_of_ne n10
        obtain ⟨n2, e2⟩ := h2.node_of_ne n20
        simp only [e1, e2, Option.bind_eq_bind, Option.bind_some]
        rw [lev_some e1, lev_some e2] at hf
        have hv1 := hs.var_lt _ _ e1
        have hv2 := hs.var_lt _ _ e2
        generalize hv : (if s.ord n1.var > s.ord n2.var then n2.var else n1.var) = v
        have hvlt : v < s.nvars := by rw [← hv]; split <;> assumption
        have hvmin : s.ord v = min (s.ord n1.var) (s.ord n2.var) := by
          rw [← hv]; split <;> omega
        generalize hp1 : (if s.ord n1.var > s.ord n2.var then (f1, f1) else sons f1 n1) = p1
        generalize hp2 : (if s.ord n2.var > s.ord n1.var then (f2, f2) else sons f2 n2) = p2
        have hp1' : p1 = if s.ord v < s.ord n1.var then (f1, f1) else sons f1 n1 := by
          rw [← hp1, hvmin]
          by_cases hc : s.ord n1.var > s.ord n2.var
          · rw [if_pos hc, if_pos (by omega)]
          · rw [if_neg hc, if_neg (by omega)]
        have hp2' : p2 = if s.ord v < s.ord n2.var then (f2, f2) else sons f2 n2 := by
          rw [← hp2, hvmin]
          by_cases hc : s.ord n2.var > s.ord n1.var
          · rw [if_pos hc, if_pos (by omega)]
          · rw [if_neg hc, if_neg (by omega)]
        obtain ⟨al, ar, dal, dar, ha, ll1, lr1⟩ := cofs hs e1 h1 v hvlt (by omega) p1 hp1'
        obtain ⟨bl, br, dbl, dbr, hb, ll2, lr2⟩ := cofs hs e2 h2 v hvlt (by omega) p2 hp2'
        obtain ⟨l, s1, es1, G1, dl⟩ := ih s p1.1 p2.1 al bl hs hc dal dbl (by omega)
        simp only [es1, Option.bind_some]
        have q1 := lev_ext G1.ext dar hs G1.str
        have q2 := lev_ext G1.ext dbr hs G1.str
        obtain ⟨r, s2, es2, G2, dr⟩ := ih s1 p1.2 p2.2 ar br G1.str G1.cache
          (dar.ext G1.ext) (dbr.ext G1.ext) (by rw [q1, q2, G1.ext.nvars]; omega)
        simp only [es2, Option.bind_some]
        have E2 := G1.ext.trans G2.ext
        have dl' := dl.ext G2.ext
        have ordv : s2.ord v = s.ord v := by rw [E2.ord]
        have nv : s2.nvars = s.nvars := E2.nvars
        have olv : s.ord v < s.nvars := hs.ord_lt _ hvlt
        have ol : OnlyFrom s2 (s.ord v + 1) (opFun fn al bl) := by
          rw [onlyFrom_ext E2]
          exact onlyFrom_op ((dal.onlyFrom hs).mono ll1) ((dbl.onlyFrom hs).mono ll2)
        have or' : OnlyFrom s2 (s.ord v + 1) (opFun fn ar br) := by
          rw [onlyFrom_ext E2]
          exact onlyFrom_op ((dar.onlyFrom hs).mono lr1) ((dbr.onlyFrom hs).mono lr2)
        have lb1 := lev_of_onlyFrom G2.str dl' ol (by omega)
        have lb2 := lev_of_onlyFrom G2.str dr or' (by omega)
        obtain ⟨res, s3, es3, hs3, hE3, hc3, dres⟩ := findInsert_spec G2.str (v := v) (by omega)
          dl' dr (by omega) (by omega)
        simp only [es3, Option.bind_some]
        have Eall := E2.trans hE3
        have hres : Denotes s3 res (opFun fn a b) := by
          have : (fun ρ => if ρ v then opFun fn al bl ρ else opFun fn ar br ρ) = opFun fn a b := by
            funext ρ
            subst ha hb
            simp only [opFun]
            by_cases hρ : ρ v <;> simp [hρ]
          rwa [this] at dres
        refine ⟨res, _, rfl, ?_, denotes_cacheAdd hres⟩
        refine cacheAdd_good ⟨hs3, G2.cache.ext hE3 hc3, Eall⟩ ?_
        unfold EntryOK
        rw [if_pos hfn]
        exact ⟨a, b, h1.ext Eall, h2.ext Eall, hres⟩

theorem step_top {fn : Nat} (hfn : fn = opAND ∨ fn = opOR ∨ fn = opXOR) {s : S} {f1 f2 : F}
    {a b : BFun} (hs : SInv s) (hc : CInv s) (h1 : Denotes s f1 a) (h2 : Denotes s f2 b) :
    ∃ r s', bddStep s.fuel s fn f1 f2 = some (r, s') ∧ Good s s' ∧ Denotes s' r (opFun fn a b) :=
  bddStep_spec hfn _ _ _ _ _ _ hs hc h1 h2 (by unfold S.fuel; omega)

theorem opFun_and (a b : BFun) : opFun opAND a b = fun ρ => a ρ && b ρ := by
  funext ρ; simp [opFun]
theorem opFun_or (a b : BFun) : opFun opOR a b = fun ρ => a ρ || b ρ := by
  funext ρ; simp [opFun, opAND, opOR]
theorem opFun_xor (a b : BFun) : opFun opXOR a b = fun ρ => xor (a ρ) (b ρ) := by
  funext ρ; simp [opFun, opAND, opOR, opXOR]

theorem bAnd_spec {s : S} {f1 f2 : F} {a b : BFun} (hs : SInv s) (hc : CInv s)
    (h1 : Denotes s f1 a) (h2 : Denotes s f2 b) :
    ∃ r s', bAnd s f1 f2 = some (r, s') ∧ Good s s' ∧ Denotes s' r (fun ρ => a ρ && b ρ) := by
  have := step_top (fn := opAND) (by simp) hs hc h1 h2
  rwa [opFun_and] at this

theorem bOr_spec {s : S} {f1 f2 : F} {a b : BFun} (hs : SInv s) (hc : CInv s)
    (h1 : Denotes s f1 a) (h2 : Denotes s f2 b) :
    ∃ r s', bOr s f1 f2 = some (r, s') ∧ Good s s' ∧ Denotes s' r (fun ρ => a ρ || b ρ) := by
  have := step_top (fn := opOR) (by simp) hs hc h1 h2
  rwa [opFun_or] at this

theorem bXor_spec {s : S} {f1 f2 : F} {a b : BFun} (hs : SInv s) (hc : CInv s)
    (h1 : Denotes s f1 a) (h2 : Denotes s f2 b) :
    ∃ r s', bXor s f1 f2 = some (r, s') ∧ Good s s' ∧ Denotes s' r (fun ρ => xor (a ρ) (b ρ)) := by
  have := step_top (fn := opXOR) (by simp) hs hc h1 h2
  rwa [opFun_xor] at this

theorem bIte_spec {s : S} {i t e : F} {gi gt ge : BFun} (hs : SInv s) (hc : CInv s)
    (hi : Denotes s i gi) (ht : Denotes s t gt) (he : Denotes s e ge) :
    ∃ r s', bIte s i t e = some (r, s') ∧ Good s s' ∧
      Denotes s' r (fun ρ => if gi ρ then gt ρ else ge ρ) := by
  unfold bIte
  obtain ⟨f1, s1, e1, G1, d1⟩ := bAnd_spec hs hc hi ht
  simp only [e1, Option.bind_eq_bind, Option.bind_some]
  obtain ⟨f2, s2, e2, G2, d2⟩ := bAnd_spec G1.str G1.cache ((hi.not).ext G1.ext) (he.ext G1.ext)
  simp only [bNot, e2, Option.bind_some]
  obtain ⟨f3, s3, e3, G3, d3⟩ := bOr_spec G2.str G2.cache (d1.ext G2.ext) d2
  refine ⟨f3, s3, e3, (G1.trans G2).trans G3, ?_⟩
  convert d3 using 1
  funext ρ
  cases gi ρ <;> simp

end Voss.Bdd
