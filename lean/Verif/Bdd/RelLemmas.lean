import Verif.Bdd.SubstLemmas
/-
Relational product.
-/
namespace Voss.Bdd

theorem Chain.det {t : Nat → Option Node} {i : Nat} {vs ws : List Nat} (h : Chain t i vs)
    (h' : Chain t i ws) : vs = ws := by
  induction h generalizing ws with
  | nil =>
    cases h' with
    | nil => rfl
    | cons h0 => exact absurd rfl h0
  | cons h0 e _ ih =>
    cases h' with
    | nil => exact absurd rfl h0
    | cons _ e' h' => rw [e] at e'; cases e'; rw [ih h']

/-- The relational product cache tells the truth. -/
def RCOK (u : Bool) (s : S) (rc : Nat → RSlot) : Prop :=
  ∀ i, ∃ vs ga gb, Chain s.tbl (rc i).v.idx vs ∧ Denotes s (rc i).a ga ∧ Denotes s (rc i).b gb ∧
    Denotes s (rc i).res (qFun u vs (fun ρ => ga ρ && gb ρ))

theorem rcEmpty_ok (u : Bool) (s : S) : RCOK u s rcEmpty := fun _ =>
  ⟨[], _, _, Chain.nil, denotes_zero s, denotes_zero s, denotes_zero s⟩

theorem RCOK.ext {u : Bool} {s s' : S} {rc : Nat → RSlot} (h : RCOK u s rc) (hE : Ext s s') :
    RCOK u s' rc := by
  intro i
  obtain ⟨vs, ga, gb, h1, h2, h3, h4⟩ := h i
  exact ⟨vs, ga, gb, h1.mono hE.tbl, h2.ext hE, h3.ext hE, h4.ext hE⟩

theorem RCOK.upd {u : Bool} {s : S} {rc : Nat → RSlot} (h : RCOK u s rc) {vs : List Nat}
    {ga gb : BFun} {qv a b r : F} (h1 : Chain s.tbl qv.idx vs) (h2 : Denotes s a ga)
    (h3 : Denotes s b gb) (h4 : Denotes s r (qFun u vs (fun ρ => ga ρ && gb ρ))) (i : Nat) :
    RCOK u s (upd rc i ⟨qv, a, b, r⟩) := by
  intro j
  by_cases hj : j = i
  · subst hj; rw [upd_same]; exact ⟨vs, ga, gb, h1, h2, h3, h4⟩
  · rw [upd_ne _ _ hj]; exact h j

theorem lev_chain {s s' : S} (hs : SInv s) (hs' : SInv s') (hE : Ext s s') {i : Nat} {vs : List Nat}
    (h : Chain s.tbl i vs) : lev s' i = lev s i := by
  cases h with
  | nil => rw [lev_zero hs, lev_zero hs', hE.nvars]
  | cons h0 e _ => rw [lev_some e, lev_some (hE.tbl _ _ e), hE.ord]

/-- `B_Depends` as a chain of variables. -/
theorem depends_chain {s : S} {v : F} {gv : BFun} (hs : SInv s) (hc : CInv s) (hv : Denotes s v gv) :
    ∃ d s' vs, bDepends s.fuel s v = some (d, s') ∧ Good s s' ∧ Chain s'.tbl d.idx vs ∧
      (∀ v, v ∈ vs ↔ DependsOn gv v) := by
  obtain ⟨d, s1, vs, e1, G1, i1, d1⟩ := bDepends_spec s.fuel s v gv hs hc hv (by
    unfold S.fuel; omega)
  have hn : d.neg = true := by
    rw [d1.neg_eq]; simp
  obtain ⟨g0, hg0, hg0'⟩ := d1
  have hden : Den s1.tbl d.idx (fun ρ => !(List.all vs ρ)) := by
    have : g0 = fun ρ => !(List.all vs ρ) := by
      funext ρ
      have := congrFun hg0' ρ
      simp only [hn, Bool.true_xor] at this
      rw [this]; simp
    rwa [this] at hg0
  obtain ⟨ws, hch, hiff⟩ := chain_conj G1.str _ d.idx vs le_rfl hden
  exact ⟨d, s1, ws, e1, G1, hch, fun v => by rw [hiff, i1]⟩

set_option maxHeartbeats 1000000 in
theorem relProd_spec {code : Nat} {ex : Bool} (hcode : code = if ex then opEXISTENTIAL else opUNIVERSAL)
    (sz : Nat) : ∀ (fuel : Nat) (s : S) (rc : Nat → RSlot) (qv a b : F) (vs : List Nat) (ga gb : BFun),
      SInv s → CInv s → Chain s.tbl qv.idx vs → Denotes s a ga → Denotes s b gb → RCOK (!ex) s rc →
      2 * s.nvars < fuel + lev s qv.idx + min (lev s a.idx) (lev s b.idx) →
      ∃ r rc' s', relProd code ex sz fuel s rc qv a b = some (r, rc', s') ∧ Good s s' ∧
        RCOK (!ex) s' rc' ∧ Denotes s' r (qFun (!ex) vs (fun ρ => ga ρ && gb ρ)) := by
  have hu : (code == opUNIVERSAL) = !ex := by subst hcode; cases ex <;> decide
  have hq1 : ¬ (code = opAND ∨ code = opOR ∨ code = opXOR) := by subst hcode; cases ex <;> decide
  have hq2 : code ≠ opDEPENDS := by subst hcode; cases ex <;> decide
  intro fuel
  induction fuel with
  | zero =>
    intro s rc qv a b vs ga gb hs _ _ _ _ _ hf
    have := lev_le hs qv.idx
    have := lev_le hs a.idx
    omega
  | succ fuel ih =>
    intro s rc qv a b vs ga gb hs hc hch ha hb hrc hf
    unfold relProd
    by_cases h1 : a = ZERO ∨ b = ZERO ∨ a = b.not
    · rw [if_pos h1]
      refine ⟨ZERO, rc, s, rfl, ⟨hs, hc, Ext.refl s⟩, hrc, ?_⟩
      have : (fun ρ => ga ρ && gb ρ) = fun _ => false := by
        funext ρ
        rcases h1 with rfl | rfl | rfl
        · rw [ha.det (denotes_zero s)]; simp
        · rw [hb.det (denotes_zero s)]; simp
        · have hn := congrFun (ha.det hb.not) ρ; simp only [hn]; cases gb ρ <;> rfl
      rw [this, qFun_const]; exact denotes_zero s
    rw [if_neg h1]
    by_cases h2 : a = ONE ∨ a = b
    · rw [if_pos h2]
      obtain ⟨r, s1, e1, G1, d1⟩ := quantify_spec hq1 hq2 (2 * s.fuel) s b qv gb vs hs hc hb hch (by
        unfold S.fuel; omega)
      simp only [e1, Option.bind_eq_bind, Option.bind_some]
      refine ⟨r, rc, s1, rfl, G1, hrc.ext G1.ext, ?_⟩
      rw [hu] at d1
      convert d1 using 2
      funext ρ
      rcases h2 with rfl | rfl
      · rw [ha.det (denotes_one s)]; simp
      · rw [ha.det hb]; simp
    rw [if_neg h2]
    by_cases h3 : b = ONE
    · rw [if_pos h3]
      obtain ⟨r, s1, e1, G1, d1⟩ := quantify_spec hq1 hq2 (2 * s.fuel) s a qv ga vs hs hc ha hch (by
        unfold S.fuel; omega)
      simp only [e1, Option.bind_eq_bind, Option.bind_some]
      refine ⟨r, rc, s1, rfl, G1, hrc.ext G1.ext, ?_⟩
      rw [hu] at d1
      convert d1 using 2
      funext ρ
      subst h3
      rw [hb.det (denotes_one s)]; simp
    rw [if_neg h3]
    by_cases h4 : qv = ONE ∨ qv = ZERO
    · rw [if_pos h4]
      obtain ⟨r, s1, e1, G1, d1⟩ := bAnd_spec hs hc ha hb
      simp only [e1, Option.bind_eq_bind, Option.bind_some]
      refine ⟨r, rc, s1, rfl, G1, hrc.ext G1.ext, ?_⟩
      have hq0 : qv.idx = 0 := by rcases h4 with rfl | rfl <;> rfl
      rw [hq0] at hch
      rw [hch.det Chain.nil]
      exact d1
    rw [if_neg h4]
    simp only
    generalize hslot : rc (rcIdx sz qv a b) = slot
    by_cases h5 : slot.v = qv ∧ slot.a = a ∧ slot.b = b
    · rw [if_pos h5]
      refine ⟨slot.res, rc, s, rfl, ⟨hs, hc, Ext.refl s⟩, hrc, ?_⟩
      obtain ⟨vs', ga', gb', q1, q2, q3, q4⟩ := hrc (rcIdx sz qv a b)
      rw [hslot] at q1 q2 q3 q4
      obtain ⟨rfl, rfl, rfl⟩ := h5
      rw [hch.det q1, ha.det q2, hb.det q3]
      exact q4
    rw [if_neg h5]
    have ha0 : a.idx ≠ 0 := idx_ne_of (by tauto)
    have hb0 : b.idx ≠ 0 := idx_ne_of (by tauto)
    have hv0 : qv.idx ≠ 0 := idx_ne_of (by tauto)
    obtain ⟨na, ea⟩ := ha.node_of_ne ha0
    obtain ⟨nb, eb⟩ := hb.node_of_ne hb0
    have hch0 := hch
    generalize hqi : qv.idx = qi at hch hv0 hf
    cases hch with
    | nil => exact absurd rfl hv0
    | @cons _ nv vs' _ ev hch' =>
    simp only [ev, ea, eb, Option.bind_eq_bind, Option.bind_some]
    have hva := hs.var_lt _ _ ea
    have hvb := hs.var_lt _ _ eb
    have hvv := hs.var_lt _ _ ev
    rw [lev_some ea, lev_some eb, lev_some ev] at hf
    have lvb := lev_below hs hvv (hs.below_l _ _ ev)
    -- the top variable of the two formulas
    generalize hm : (if s.ord na.var < s.ord nb.var then na.var else nb.var) = m
    have hmlt : m < s.nvars := by rw [← hm]; split <;> assumption
    have hmo : s.ord m = min (s.ord na.var) (s.ord nb.var) := by rw [← hm]; split <;> omega
    generalize hpa : (if s.ord na.var > s.ord nb.var then (a, a) else sons a na) = pa
    generalize hpb : (if s.ord nb.var > s.ord na.var then (b, b) else sons b nb) = pb
    have hpa' : pa = if s.ord m < s.ord na.var then (a, a) else sons a na := by
      rw [← hpa, hmo]
      by_cases hc' : s.ord na.var > s.ord nb.var
      · rw [if_pos hc', if_pos (by omega)]
      · rw [if_neg hc', if_neg (by omega)]
    have hpb' : pb = if s.ord m < s.ord nb.var then (b, b) else sons b nb := by
      rw [← hpb, hmo]
      by_cases hc' : s.ord nb.var > s.ord na.var
      · rw [if_pos hc', if_pos (by omega)]
      · rw [if_neg hc', if_neg (by omega)]
    obtain ⟨al, ar, dal, dar, hga, la1, la2⟩ := cofs hs ea ha m hmlt (by omega) pa hpa'
    obtain ⟨bl, br, dbl, dbr, hgb, lb1, lb2⟩ := cofs hs eb hb m hmlt (by omega) pb hpb'
    have hab : (fun ρ => ga ρ && gb ρ) = fun ρ => if ρ m then (al ρ && bl ρ) else (ar ρ && br ρ) := by
      funext ρ; rw [hga, hgb]; by_cases hρ : ρ m <;> simp [hρ]
    have hol : OnlyFrom s (s.ord m + 1) (fun ρ => al ρ && bl ρ) := by
      intro ρ ρ' hr
      simp only [(dal.onlyFrom hs).mono (show s.ord m + 1 ≤ _ from la1) ρ ρ' hr,
        (dbl.onlyFrom hs).mono (show s.ord m + 1 ≤ _ from lb1) ρ ρ' hr]
    have hor : OnlyFrom s (s.ord m + 1) (fun ρ => ar ρ && br ρ) := by
      intro ρ ρ' hr
      simp only [(dar.onlyFrom hs).mono (show s.ord m + 1 ≤ _ from la2) ρ ρ' hr,
        (dbr.onlyFrom hs).mono (show s.ord m + 1 ≤ _ from lb2) ρ ρ' hr]
    have hom := hs.ord_lt m hmlt
    by_cases hlt : s.ord nv.var < s.ord m
    · rw [if_pos hlt]
      obtain ⟨r, rc1, s1, e1, G1, R1, d1⟩ := ih s rc ⟨false, nv.lson⟩ a b vs' ga gb hs hc hch' ha hb hrc
        (by simp only; rw [lev_some ea, lev_some eb]; omega)
      simp only [e1, Option.bind_some]
      have hskip : qFun (!ex) (nv.var :: vs') (fun ρ => ga ρ && gb ρ) = qFun (!ex) vs' (fun ρ => ga ρ && gb ρ) := by
        apply qFun_skip
        intro ρ x
        rw [(ha.onlyFrom hs).set1 (by rw [lev_some ea]; omega), (hb.onlyFrom hs).set1 (by rw [lev_some eb]; omega)]
      rw [← hskip] at d1
      exact ⟨r, _, s1, rfl, G1, R1.upd (hch0.mono G1.ext.tbl) (ha.ext G1.ext) (hb.ext G1.ext) d1 _, d1⟩
    rw [if_neg hlt]
    by_cases hgt : s.ord nv.var > s.ord m
    · rw [if_pos hgt]
      obtain ⟨l, rc1, s1, e1, G1, R1, d1⟩ := ih s rc qv pa.1 pb.1 _ al bl hs hc hch0 dal dbl hrc
        (by rw [hqi, lev_some ev]; omega)
      simp only [e1, Option.bind_some]
      obtain ⟨r, rc2, s2, e2, G2, R2, d2⟩ := ih s1 rc1 qv pa.2 pb.2 _ ar br G1.str G1.cache (hch0.mono G1.ext.tbl)
        (dar.ext G1.ext) (dbr.ext G1.ext) R1
        (by rw [lev_chain hs G1.str G1.ext hch0, lev_ext G1.ext dar hs G1.str, lev_ext G1.ext dbr hs G1.str,
              G1.ext.nvars, hqi, lev_some ev]; omega)
      simp only [e2, Option.bind_some]
      have E2 := G1.ext.trans G2.ext
      have hv : (if s2.ord na.var > s2.ord nb.var then nb.var else na.var) = m := by
        rw [E2.ord]
        apply hs.ord_inj _ _ (by split <;> assumption) hmlt
        rw [hmo]; split <;> omega
      rw [hv]
      have ol : OnlyFrom s2 (s.ord m + 1) (qFun (!ex) (nv.var :: vs') (fun ρ => al ρ && bl ρ)) := by
        rw [onlyFrom_ext E2]; exact qFun_onlyFrom _ _ _ hol
      have or' : OnlyFrom s2 (s.ord m + 1) (qFun (!ex) (nv.var :: vs') (fun ρ => ar ρ && br ρ)) := by
        rw [onlyFrom_ext E2]; exact qFun_onlyFrom _ _ _ hor
      have nv' : s2.nvars = s.nvars := E2.nvars
      have od : s2.ord = s.ord := E2.ord
      have k1 := lev_of_onlyFrom G2.str (d1.ext G2.ext) ol (by omega)
      have k2 := lev_of_onlyFrom G2.str d2 or' (by omega)
      obtain ⟨res, s3, e3, hs3, hE3, hc3, d3⟩ := findInsert_spec G2.str (v := m)
        (by omega) (d1.ext G2.ext) d2 (by rw [od]; omega) (by rw [od]; omega)
      simp only [e3, Option.bind_some]
      have E3 := E2.trans hE3
      have hres : Denotes s3 res (qFun (!ex) (nv.var :: vs') (fun ρ => ga ρ && gb ρ)) := by
        rw [hab, qFun_ite]
        · exact d3
        · intro hmem
          have := (chain_ord hs hch0 _ hmem).2
          rw [hqi, lev_some ev] at this
          omega
      exact ⟨res, _, s3, rfl, ⟨hs3, G2.cache.ext hE3 hc3, E3⟩,
        (R2.ext hE3).upd (hch0.mono E3.tbl) (ha.ext E3) (hb.ext E3) hres _, hres⟩
    rw [if_neg hgt]
    have hveq : nv.var = m := hs.ord_inj _ _ hvv hmlt (by omega)
    obtain ⟨l, rc1, s1, e1, G1, R1, d1⟩ := ih s rc ⟨false, nv.lson⟩ pa.1 pb.1 vs' al bl hs hc hch' dal dbl hrc
      (by simp only; omega)
    simp only [e1, Option.bind_some]
    obtain ⟨r, rc2, s2, e2, G2, R2, d2⟩ := ih s1 rc1 ⟨false, nv.lson⟩ pa.2 pb.2 vs' ar br G1.str G1.cache
      (hch'.mono G1.ext.tbl) (dar.ext G1.ext) (dbr.ext G1.ext) R1
      (by simp only
          rw [lev_chain hs G1.str G1.ext hch', lev_ext G1.ext dar hs G1.str, lev_ext G1.ext dbr hs G1.str,
            G1.ext.nvars]; omega)
    simp only [e2, Option.bind_some]
    have E2 := G1.ext.trans G2.ext
    have sl : ∀ x, (fun ρ : Env => (fun ρ : Env => if ρ m then (al ρ && bl ρ) else (ar ρ && br ρ)) (set1 ρ m x)) =
        if x then (fun ρ => al ρ && bl ρ) else (fun ρ => ar ρ && br ρ) := by
      intro x
      funext ρ
      cases x
      · simp only [set1_same, Bool.false_eq_true, if_false]
        exact hor.set1 (by omega) ρ false
      · simp only [set1_same, if_true]
        exact hol.set1 (by omega) ρ true
    have hgq : qFun (!ex) (nv.var :: vs') (fun ρ => ga ρ && gb ρ) = fun ρ =>
        if (!ex) then (qFun (!ex) vs' (fun ρ => al ρ && bl ρ) ρ && qFun (!ex) vs' (fun ρ => ar ρ && br ρ) ρ)
        else (qFun (!ex) vs' (fun ρ => al ρ && bl ρ) ρ || qFun (!ex) vs' (fun ρ => ar ρ && br ρ) ρ) := by
      funext ρ
      rw [hab, hveq]
      have := sl true
      have := sl false
      simp only [qFun]
      rw [sl true, sl false]
      simp
    have key : ∃ res s3, orAnd ex s2 l r = some (res, s3) ∧ Good s2 s3 ∧
        Denotes s3 res (qFun (!ex) (nv.var :: vs') (fun ρ => ga ρ && gb ρ)) := by
      rw [hgq]
      unfold orAnd
      cases ex
      · obtain ⟨res, s3, e3, G3, d3⟩ := bAnd_spec G2.str G2.cache (d1.ext G2.ext) d2
        exact ⟨res, s3, by simpa using e3, G3, by simpa using d3⟩
      · obtain ⟨res, s3, e3, G3, d3⟩ := bOr_spec G2.str G2.cache (d1.ext G2.ext) d2
        exact ⟨res, s3, by simpa using e3, G3, by simpa using d3⟩
    obtain ⟨res, s3, e3, G3, d3⟩ := key
    rw [e3]
    simp only [Option.bind_some]
    have E3 := E2.trans G3.ext
    exact ⟨res, _, s3, rfl, ⟨G3.str, G3.cache, E3⟩,
      (R2.ext G3.ext).upd (hch0.mono E3.tbl) (ha.ext E3) (hb.ext E3) d3 _, d3⟩

/-- With the intended operation code the relational product is right. -/
theorem relProdFixed_spec (ex : Bool) {s : S} {v a b : F} {gv ga gb : BFun} (hs : SInv s) (hc : CInv s)
    (hv : Denotes s v gv) (ha : Denotes s a ga) (hb : Denotes s b gb) :
    ∃ r s' vs, relProdFixed ex s v a b = some (r, s') ∧ Good s s' ∧
      (∀ v, v ∈ vs ↔ DependsOn gv v) ∧ Denotes s' r (qFun (!ex) vs (fun ρ => ga ρ && gb ρ)) := by
  obtain ⟨d, s1, ws, e1, G1, hch, hiff⟩ := depends_chain hs hc hv
  obtain ⟨r, rc, s2, e2, G2, _, d2⟩ := relProd_spec (ex := ex) rfl (s1.size / 10) (2 * s1.fuel) s1 rcEmpty d a b
    ws ga gb G1.str G1.cache hch (ha.ext G1.ext) (hb.ext G1.ext) (rcEmpty_ok _ _)
    (by unfold S.fuel; omega)
  refine ⟨r, s2, ws, ?_, G1.trans G2, hiff, d2⟩
  simp only [relProdFixed, e1, e2, Option.bind_eq_bind, Option.bind_some]

end Voss.Bdd
