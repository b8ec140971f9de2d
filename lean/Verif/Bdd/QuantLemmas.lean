import Verif.Bdd.StepLemmas
/-
Quantification and support.
-/
namespace Voss.Bdd

/-! ### Boolean functions -/

theorem set1_set1 (ρ : Env) (v : Nat) (a b : Bool) : set1 (set1 ρ v a) v b = set1 ρ v b := by
  funext w; by_cases h : w = v <;> simp [set1, h]

theorem set1_eq_self (ρ : Env) (v : Nat) : set1 ρ v (ρ v) = ρ := by
  funext w; by_cases h : w = v <;> simp [set1, h]

theorem set1_comm (ρ : Env) {v w : Nat} (h : v ≠ w) (a b : Bool) :
    set1 (set1 ρ v a) w b = set1 (set1 ρ w b) v a := by
  funext x
  by_cases h1 : x = v <;> by_cases h2 : x = w <;> simp [set1, h1, h2]
  · omega
  · intro h'; exact absurd h' h
  · intro h'; exact absurd h'.symm h

theorem qFun_onlyFrom {s : S} {m : Nat} (u : Bool) : ∀ (vs : List Nat) (g : BFun),
    OnlyFrom s m g → OnlyFrom s m (qFun u vs g) := by
  intro vs
  induction vs with
  | nil => intro g h; exact h
  | cons v vs ih =>
    intro g h
    have key : ∀ b, OnlyFrom s m (fun ρ => g (set1 ρ v b)) := by
      intro b ρ ρ' hr
      apply h
      intro w hw hm
      by_cases hwv : w = v
      · subst hwv; simp [set1_same]
      · rw [set1_ne _ _ hwv, set1_ne _ _ hwv]; exact hr w hw hm
    intro ρ ρ' hr
    simp only [qFun, ih _ (key true) ρ ρ' hr, ih _ (key false) ρ ρ' hr]

theorem qFun_skip (u : Bool) (v : Nat) (vs : List Nat) {g : BFun} (h : ∀ ρ b, g (set1 ρ v b) = g ρ) :
    qFun u (v :: vs) g = qFun u vs g := by
  funext ρ
  have e : ∀ b, (fun ρ => g (set1 ρ v b)) = g := fun b => funext fun ρ => h ρ b
  simp only [qFun, e]
  cases u <;> simp

theorem qFun_const (u : Bool) (vs : List Nat) (b : Bool) : qFun u vs (fun _ => b) = fun _ => b := by
  induction vs with
  | nil => rfl
  | cons v vs ih => rw [qFun_skip u v vs (fun _ _ => rfl), ih]

theorem qFun_ite (u : Bool) (w : Nat) : ∀ (vs : List Nat) (gl gr : BFun), w ∉ vs →
    qFun u vs (fun ρ => if ρ w then gl ρ else gr ρ) =
      fun ρ => if ρ w then qFun u vs gl ρ else qFun u vs gr ρ := by
  intro vs
  induction vs with
  | nil => intro gl gr _; rfl
  | cons v vs ih =>
    intro gl gr hw
    simp only [List.mem_cons, not_or] at hw
    funext ρ
    simp only [qFun]
    have e : ∀ b, (fun ρ : Env => if (set1 ρ v b) w then gl (set1 ρ v b) else gr (set1 ρ v b)) =
        fun ρ => if ρ w then gl (set1 ρ v b) else gr (set1 ρ v b) := by
      intro b; funext ρ; rw [set1_ne _ _ hw.1]
    rw [e true, e false, ih _ _ hw.2, ih _ _ hw.2]
    by_cases hρ : ρ w <;> simp [hρ]

theorem qFun_forall : ∀ (vs : List Nat) (g : BFun) (ρ : Env),
    qFun true vs g ρ = true ↔ ∀ ρ', AgreeOff vs ρ ρ' → g ρ' = true := by
  intro vs
  induction vs with
  | nil =>
    intro g ρ
    constructor
    · intro h ρ' ha
      have : ρ' = ρ := funext fun v => ha v (by simp)
      rw [this]; exact h
    · intro h; exact h ρ (fun _ _ => rfl)
  | cons v vs ih =>
    intro g ρ
    simp only [qFun, if_true, Bool.and_eq_true, ih]
    constructor
    · rintro ⟨h1, h2⟩ ρ' ha
      have key : AgreeOff vs ρ (set1 ρ' v (ρ v)) := by
        intro w hw
        by_cases hwv : w = v
        · subst hwv; exact set1_same _ _ _
        · rw [set1_ne _ _ hwv]; exact ha w (by simp [hwv, hw])
      have e : ∀ b, ρ' v = b → set1 (set1 ρ' v (ρ v)) v b = ρ' := by
        intro b hb; rw [set1_set1, ← hb, set1_eq_self]
      cases hv : ρ' v
      · have := h2 _ key; rw [e _ hv] at this; exact this
      · have := h1 _ key; rw [e _ hv] at this; exact this
    · intro h
      constructor <;>
      · intro ρ' ha
        apply h
        intro w hw
        simp only [List.mem_cons, not_or] at hw
        rw [set1_ne _ _ hw.1]
        exact ha w hw.2

theorem qFun_exists : ∀ (vs : List Nat) (g : BFun) (ρ : Env),
    qFun false vs g ρ = true ↔ ∃ ρ', AgreeOff vs ρ ρ' ∧ g ρ' = true := by
  intro vs
  induction vs with
  | nil =>
    intro g ρ
    constructor
    · intro h; exact ⟨ρ, fun _ _ => rfl, h⟩
    · rintro ⟨ρ', ha, h⟩
      have : ρ' = ρ := funext fun v => ha v (by simp)
      rw [this] at h; exact h
  | cons v vs ih =>
    intro g ρ
    simp only [qFun, Bool.false_eq_true, if_false, Bool.or_eq_true, ih]
    constructor
    · rintro (⟨ρ', ha, h⟩ | ⟨ρ', ha, h⟩) <;>
      · refine ⟨_, ?_, h⟩
        intro w hw
        simp only [List.mem_cons, not_or] at hw
        rw [set1_ne _ _ hw.1]
        exact ha w hw.2
    · rintro ⟨ρ', ha, h⟩
      have key : AgreeOff vs ρ (set1 ρ' v (ρ v)) := by
        intro w hw
        by_cases hwv : w = v
        · subst hwv; exact set1_same _ _ _
        · rw [set1_ne _ _ hwv]; exact ha w (by simp [hwv, hw])
      have e : ∀ b, ρ' v = b → set1 (set1 ρ' v (ρ v)) v b = ρ' := by
        intro b hb; rw [set1_set1, ← hb, set1_eq_self]
      cases hv : ρ' v
      · refine Or.inr ⟨_, key, ?_⟩; rw [e _ hv]; exact h
      · refine Or.inl ⟨_, key, ?_⟩; rw [e _ hv]; exact h

/-! ### Chains of variables -/

theorem chain_ord {s : S} (hs : SInv s) {i : Nat} {vs : List Nat} (h : Chain s.tbl i vs) :
    ∀ v ∈ vs, v < s.nvars ∧ lev s i ≤ s.ord v := by
  generalize ht : s.tbl = t at h
  induction h with
  | nil => intro v hv; simp at hv
  | cons h0 e hc ih =>
    subst ht
    intro v hv
    have hvar := hs.var_lt _ _ e
    rw [lev_some e]
    rcases List.mem_cons.1 hv with rfl | hv
    · exact ⟨hvar, le_rfl⟩
    · have := ih v hv
      have hb := lev_below hs hvar (hs.below_l _ _ e)
      exact ⟨this.1, by omega⟩

theorem chain_exists {s : S} (hs : SInv s) : ∀ (k i : Nat), s.nvars - lev s i ≤ k →
    (i = 0 ∨ ∃ n, s.tbl i = some n) → ∃ vs, Chain s.tbl i vs := by
  intro k
  induction k with
  | zero =>
    intro i hk h
    rcases h with rfl | ⟨n, e⟩
    · exact ⟨_, Chain.nil⟩
    · have := lev_lt hs e; omega
  | succ k ih =>
    intro i hk h
    rcases h with rfl | ⟨n, e⟩
    · exact ⟨_, Chain.nil⟩
    · have hl := lev_below hs (hs.var_lt _ _ e) (hs.below_l _ _ e)
      have hlt := lev_lt hs e
      rw [lev_some e] at hk hlt
      have hbl := hs.below_l _ _ e
      obtain ⟨vs, hv⟩ := ih n.lson (by omega) (by
        rcases hbl with h | ⟨m, h, _⟩
        · exact Or.inl h
        · exact Or.inr ⟨m, h⟩)
      exact ⟨_, Chain.cons (idx_ne_zero hs e) e hv⟩

theorem all_set1_true (vs : List Nat) (ρ : Env) (v : Nat) :
    vs.all (set1 ρ v true) = (vs.filter (· ≠ v)).all ρ := by
  rw [Bool.eq_iff_iff]
  simp only [List.all_eq_true, List.mem_filter, decide_eq_true_eq]
  constructor
  · intro h w hw
    have := h w hw.1
    rwa [set1_ne _ _ hw.2] at this
  · intro h w hw
    by_cases hwv : w = v
    · subst hwv; exact set1_same _ _ _
    · rw [set1_ne _ _ hwv]; exact h w ⟨hw, hwv⟩

theorem all_set1_notin {vs : List Nat} (ρ : Env) {v : Nat} (b : Bool) (h : v ∉ vs) :
    vs.all (set1 ρ v b) = vs.all ρ := by
  rw [Bool.eq_iff_iff]
  simp only [List.all_eq_true]
  constructor <;> intro h' w hw
  · have := h' w hw; rwa [set1_ne _ _ (by rintro rfl; exact h hw)] at this
  · rw [set1_ne _ _ (by rintro rfl; exact h hw)]; exact h' w hw

/-- The chain of a conjunction of variables lists exactly these variables. -/
theorem chain_conj {s : S} (hs : SInv s) : ∀ (k i : Nat) (vs : List Nat), s.nvars - lev s i ≤ k →
    Den s.tbl i (fun ρ => !(vs.all ρ)) → ∃ ws, Chain s.tbl i ws ∧ ∀ v, v ∈ ws ↔ v ∈ vs := by
  have base : ∀ vs : List Nat, (fun _ : Env => false) = (fun ρ => !(vs.all ρ)) → vs = [] := by
    intro vs h
    cases vs with
    | nil => rfl
    | cons v vs =>
      have := congrFun h (fun _ => false)
      simp at this
  intro k
  induction k with
  | zero =>
    intro i vs hk h
    rcases (denotes_pos.2 h).live with h0 | ⟨n, e⟩
    · simp only at h0; subst h0
      have := base vs (Den.zero.det h)
      subst this
      exact ⟨_, Chain.nil, by simp⟩
    · have := lev_lt hs e; simp only at this; omega
  | succ k ih =>
    intro i vs hk h
    have d := denotes_pos.2 h
    rcases d.live with h0 | ⟨n, e⟩
    · simp only at h0; subst h0
      have := base vs (Den.zero.det h)
      subst this
      exact ⟨_, Chain.nil, by simp⟩
    · obtain ⟨gl, gr, dl, dr, hg⟩ := d.split e (idx_ne_zero hs e)
      obtain ⟨e1, _⟩ := cof_eq hs e dl dr hg
      have hl := lev_sons hs e
      have hlt := lev_lt hs e
      have hsi := (sons_idx ⟨false, i⟩ n).1
      have hmem : n.var ∈ vs := by
        by_contra hc
        obtain ⟨ρ, hρ⟩ := top_essential hs e d
        exact hρ (by simp only [all_set1_notin ρ _ hc])
      have dl' : Den s.tbl n.lson (fun ρ => !((vs.filter (· ≠ n.var)).all ρ)) := by
        have h1 : (sons ⟨false, i⟩ n).1 = ⟨false, n.lson⟩ := by simp [sons, F.xneg]
        rw [h1, denotes_pos] at dl
        have : gl = fun ρ => !((vs.filter (· ≠ n.var)).all ρ) := by
          rw [e1]; funext ρ; simp only [all_set1_true]
        rwa [this] at dl
      rw [hsi] at hl
      simp only at hl hlt
      obtain ⟨ws, hw, hiff⟩ := ih n.lson _ (by omega) dl'
      refine ⟨_, Chain.cons (idx_ne_zero hs e) e hw, ?_⟩
      intro v
      simp only [List.mem_cons, hiff, List.mem_filter, decide_eq_true_eq]
      constructor
      · rintro (rfl | h)
        · exact hmem
        · exact h.1
      · intro h
        by_cases hv : v = n.var
        · exact Or.inl hv
        · exact Or.inr ⟨h, hv⟩

/-! ### quantify -/

theorem idx_ne_of {f : F} (h : ¬ (f = ZERO ∨ f = ONE)) : f.idx ≠ 0 := fun h0 => h (idx_zero h0)

theorem quantify_spec {type : Nat}
    (ht : ¬ (type = opAND ∨ type = opOR ∨ type = opXOR)) (ht6 : type ≠ opDEPENDS) :
    ∀ (fuel : Nat) (s : S) (f vf : F) (g : BFun) (vs : List Nat), SInv s → CInv s →
      Denotes s f g → Chain s.tbl vf.idx vs →
      (s.nvars - lev s f.idx) + (s.nvars - lev s vf.idx) < fuel →
      ∃ r s', quantify fuel s f vf type = some (r, s') ∧ Good s s' ∧
        Denotes s' r (qFun (type == opUNIVERSAL) vs g) := by
  intro fuel
  induction fuel with
  | zero => intro s f vf g vs _ _ _ _ h; omega
  | succ fuel ih =>
    intro s f vf g vs hs hc hd hch hf
    unfold quantify
    by_cases hv0 : vf = ONE ∨ vf = ZERO
    · rw [if_pos hv0]
      refine ⟨f, s, rfl, ⟨hs, hc, Ext.refl s⟩, ?_⟩
      have : vf.idx = 0 := by rcases hv0 with rfl | rfl <;> rfl
      rw [this] at hch
      cases hch with
      | nil => exact hd
      | cons h0 => exact absurd rfl h0
    · rw [if_neg hv0]
      by_cases hf0 : f = ZERO ∨ f = ONE
      · rw [if_pos hf0]
        refine ⟨f, s, rfl, ⟨hs, hc, Ext.refl s⟩, ?_⟩
        rcases hf0 with rfl | rfl
        · rw [hd.det (denotes_zero s), qFun_const]; exact denotes_zero s
        · rw [hd.det (denotes_one s), qFun_const]; exact denotes_one s
      · rw [if_neg hf0]
        cases hcf : cacheFind s type f vf with
        | some r =>
          refine ⟨r, s, rfl, ⟨hs, hc, Ext.refl s⟩, ?_⟩
          have he := hc _ (cacheFind_some hcf)
          unfold EntryOK at he
          rw [if_neg ht, if_neg ht6] at he
          obtain ⟨ga, ws, d1, d2, d3⟩ := he
          simp only at d1 d2 d3
          have hws : ws = vs := by
            clear d3 hf
            revert ws
            generalize vf.idx = i at hch
            induction hch with
            | nil =>
              intro ws h; cases h with
              | nil => rfl
              | cons h0 => exact absurd rfl h0
            | cons h0 e _ ihc =>
              intro ws h; cases h with
              | nil => exact absurd rfl h0
              | cons _ e' h' => rw [e] at e'; cases e'; rw [ihc _ h']
          rw [hd.det d1, ← hws]
          exact d3
        | none =>
          have hfi := idx_ne_of hf0
          have hvi : vf.idx ≠ 0 := idx_ne_of (by tauto)
          obtain ⟨n, e⟩ := hd.node_of_ne hfi
          generalize hvidx : vf.idx = vi at hch hf hvi
          cases hch with
          | nil => exact absurd rfl hvi
          | @cons _ nv vs' _ ev hch' =>
            simp only [e, ev, Option.bind_eq_bind, Option.bind_some]
            have hnv := hs.var_lt _ _ e
            have hvv := hs.var_lt _ _ ev
            have levf := lev_some e
            have levv := lev_some ev
            have lf := lev_lt hs e
            have lv := lev_lt hs ev
            have lvb := lev_below hs hvv (hs.below_l _ _ ev)
            have lsons := lev_sons hs e
            have hE0 : ∀ {s' : S} {r : F}, Good s s' →
                Denotes s' r (qFun (type == opUNIVERSAL) (nv.var :: vs') g) →
                EntryOK s' ⟨type, f, vf, r⟩ := by
              intro s' r G d
              unfold EntryOK
              rw [if_neg ht, if_neg ht6]
              refine ⟨g, _, hd.ext G.ext, ?_, d⟩
              simp only [hvidx]
              exact Chain.cons hvi (G.ext.tbl _ _ ev) (hch'.mono G.ext.tbl)
            by_cases hgt : s.ord n.var > s.ord nv.var
            · rw [if_pos hgt]
              obtain ⟨r, s1, e1, G1, d1⟩ := ih s f ⟨false, nv.lson⟩ g vs' hs hc hd hch' (by
                simp only; omega)
              simp only [e1, Option.bind_some]
              have hsk : qFun (type == opUNIVERSAL) (nv.var :: vs') g =
                  qFun (type == opUNIVERSAL) vs' g := by
                apply qFun_skip
                intro ρ b
                exact (hd.onlyFrom hs).set1 (by rw [levf]; exact hgt) ρ b
              rw [hsk] at hE0 ⊢
              exact ⟨r, _, rfl, cacheAdd_good G1 (hE0 G1 d1), d1⟩
            · rw [if_neg hgt]
              obtain ⟨gl, gr, dl, dr, hg⟩ := hd.split e hfi
              obtain ⟨c1, c2⟩ := cof_eq hs e dl dr hg
              by_cases hlt : s.ord n.var < s.ord nv.var
              · rw [if_pos hlt]
                have hchain : Chain s.tbl vf.idx (nv.var :: vs') := by
                  rw [hvidx]; exact Chain.cons hvi ev hch'
                obtain ⟨l, s1, e1, G1, d1⟩ := ih s (sons f n).1 vf gl _ hs hc dl hchain (by
                  rw [hvidx]; omega)
                simp only [e1, Option.bind_some]
                have dr1 := dr.ext G1.ext
                have hl2 := lev_ext G1.ext dr hs G1.str
                have hlv : lev s1 vi = lev s vi := by
                  rw [lev_some ev, lev_some (G1.ext.tbl _ _ ev), G1.ext.ord]
                obtain ⟨r, s2, e2, G2, d2⟩ := ih s1 (sons f n).2 vf gr _ G1.str G1.cache dr1
                  (hchain.mono G1.ext.tbl) (by rw [hl2, hvidx, hlv, G1.ext.nvars]; omega)
                simp only [e2, Option.bind_some]
                have E2 := G1.ext.trans G2.ext
                have nv' : s2.nvars = s.nvars := E2.nvars
                have od : s2.ord = s.ord := E2.ord
                have ol : OnlyFrom s2 (s.ord n.var + 1)
                    (qFun (type == opUNIVERSAL) (nv.var :: vs') gl) := by
                  rw [onlyFrom_ext E2]
                  exact qFun_onlyFrom _ _ _ ((dl.onlyFrom hs).mono (by omega))
                have or' : OnlyFrom s2 (s.ord n.var + 1)
                    (qFun (type == opUNIVERSAL) (nv.var :: vs') gr) := by
                  rw [onlyFrom_ext E2]
                  exact qFun_onlyFrom _ _ _ ((dr.onlyFrom hs).mono (by omega))
                have lb1 := lev_of_onlyFrom G2.str (d1.ext G2.ext) ol (by omega)
                have lb2 := lev_of_onlyFrom G2.str d2 or' (by omega)
                obtain ⟨res, s3, e3, hs3, hE3, hc3, d3⟩ := findInsert_spec G2.str (v := n.var)
                  (by omega) (d1.ext G2.ext) d2 (by rw [od]; omega) (by rw [od]; omega)
                simp only [e3, Option.bind_some]
                have G3 : Good s s3 := ⟨hs3, G2.cache.ext hE3 hc3, E2.trans hE3⟩
                have hres : Denotes s3 res (qFun (type == opUNIVERSAL) (nv.var :: vs') g) := by
                  rw [hg, qFun_ite]
                  · exact d3
                  · intro hmem
                    have := (chain_ord hs hchain _ hmem).2
                    rw [hvidx] at this
                    omega
                exact ⟨res, _, rfl, cacheAdd_good G3 (hE0 G3 hres), hres⟩
              · rw [if_neg hlt]
                have hveq : n.var = nv.var := hs.ord_inj _ _ hnv hvv (by omega)
                obtain ⟨l, s1, e1, G1, d1⟩ := ih s (sons f n).1 ⟨false, nv.lson⟩ gl vs' hs hc dl hch'
                  (by simp only; omega)
                simp only [e1, Option.bind_some]
                have hl2 := lev_ext G1.ext dr hs G1.str
                have hlv : lev s1 nv.lson = lev s nv.lson := by
                  rcases hs.below_l _ _ ev with h0 | ⟨m, em, _⟩
                  · rw [h0, lev_zero hs, lev_zero G1.str, G1.ext.nvars]
                  · rw [lev_some em, lev_some (G1.ext.tbl _ _ em), G1.ext.ord]
                obtain ⟨r, s2, e2, G2, d2⟩ := ih s1 (sons f n).2 ⟨false, nv.lson⟩ gr vs' G1.str
                  G1.cache (dr.ext G1.ext) (hch'.mono G1.ext.tbl)
                  (by simp only; rw [hl2, hlv, G1.ext.nvars]; omega)
                simp only [e2, Option.bind_some]
                have E2 := G1.ext.trans G2.ext
                have hgq : qFun (type == opUNIVERSAL) (nv.var :: vs') g = fun ρ =>
                    if (type == opUNIVERSAL) then
                      (qFun (type == opUNIVERSAL) vs' gl ρ && qFun (type == opUNIVERSAL) vs' gr ρ)
                    else (qFun (type == opUNIVERSAL) vs' gl ρ || qFun (type == opUNIVERSAL) vs' gr ρ) := by
                  funext ρ
                  rw [c1, c2, hveq]
                  rfl
                by_cases hu : type = opUNIVERSAL
                · rw [if_pos hu]
                  obtain ⟨res, s3, e3, G3, d3⟩ := bAnd_spec G2.str G2.cache (d1.ext G2.ext) d2
                  simp only [e3, Option.bind_some]
                  have G := (Good.mk G2.str G2.cache E2).trans G3
                  have hres : Denotes s3 res (qFun (type == opUNIVERSAL) (nv.var :: vs') g) := by
                    rw [hgq]; simpa [hu] using d3
                  exact ⟨res, _, rfl, cacheAdd_good G (hE0 G hres), hres⟩
                · rw [if_neg hu]
                  obtain ⟨res, s3, e3, G3, d3⟩ := bOr_spec G2.str G2.cache (d1.ext G2.ext) d2
                  simp only [e3, Option.bind_some]
                  have G := (Good.mk G2.str G2.cache E2).trans G3
                  have hres : Denotes s3 res (qFun (type == opUNIVERSAL) (nv.var :: vs') g) := by
                    rw [hgq]; simpa [hu] using d3
                  exact ⟨res, _, rfl, cacheAdd_good G (hE0 G hres), hres⟩

/-! ### Support -/

theorem dependsOn_not (g : BFun) (v : Nat) : DependsOn (fun ρ => !(g ρ)) v ↔ DependsOn g v := by
  unfold DependsOn
  constructor <;> rintro ⟨ρ, h⟩ <;> refine ⟨ρ, ?_⟩
  · intro h'; exact h (by simp only [h'])
  · intro h'; exact h (by simpa using h')

theorem dependsOn_xor (b : Bool) (g : BFun) (v : Nat) :
    DependsOn (fun ρ => xor b (g ρ)) v ↔ DependsOn g v := by
  cases b
  · simp
  · simpa using dependsOn_not g v

theorem dependsOn_node {s : S} (hs : SInv s) {f : F} {n : Node} {g gl gr : BFun}
    (e : s.tbl f.idx = some n) (d : Denotes s f g) (dl : Denotes s (sons f n).1 gl)
    (dr : Denotes s (sons f n).2 gr) (hg : g = fun ρ => if ρ n.var then gl ρ else gr ρ) (v : Nat) :
    DependsOn g v ↔ v = n.var ∨ DependsOn gl v ∨ DependsOn gr v := by
  have hl := lev_sons hs e
  rw [lev_some e] at hl
  have il : ∀ ρ b, gl (set1 ρ n.var b) = gl ρ := fun ρ b => (dl.onlyFrom hs).set1 hl.1 ρ b
  have ir : ∀ ρ b, gr (set1 ρ n.var b) = gr ρ := fun ρ b => (dr.onlyFrom hs).set1 hl.2 ρ b
  constructor
  · rintro ⟨ρ, h⟩
    by_cases hv : v = n.var
    · exact Or.inl hv
    · right
      subst hg
      simp only [set1_ne ρ _ (Ne.symm hv)] at h
      cases hb : ρ n.var
      · right; refine ⟨ρ, ?_⟩; simpa [hb] using h
      · left; refine ⟨ρ, ?_⟩; simpa [hb] using h
  · rintro (rfl | ⟨ρ, h⟩ | ⟨ρ, h⟩)
    · exact top_essential hs e d
    · have hv : v ≠ n.var := by
        rintro rfl; exact h (by rw [il, il])
      refine ⟨set1 ρ n.var true, ?_⟩
      subst hg
      simp only [set1_ne _ _ (Ne.symm hv), set1_same, if_true]
      rw [set1_comm _ (Ne.symm hv), set1_comm _ (Ne.symm hv), il, il]
      exact h
    · have hv : v ≠ n.var := by
        rintro rfl; exact h (by rw [ir, ir])
      refine ⟨set1 ρ n.var false, ?_⟩
      subst hg
      simp only [set1_ne _ _ (Ne.symm hv), set1_same, Bool.false_eq_true, if_false]
      rw [set1_comm _ (Ne.symm hv), set1_comm _ (Ne.symm hv), ir, ir]
      exact h

theorem var_denotes {s : S} (hs : SInv s) {v : Nat} (hv : v < s.nvars) :
    ∃ r s', findInsert s v ONE ZERO = some (r, s') ∧ SInv s' ∧ Ext s s' ∧ s'.cache = s.cache ∧
      Denotes s' r (fun ρ => ρ v) := by
  have ho := hs.ord_lt _ hv
  obtain ⟨r, s', e, h1, h2, h3, h4⟩ := findInsert_spec hs hv (denotes_one s) (denotes_zero s)
    (by simp only [ONE]; rw [lev_zero hs]; exact ho) (by simp only [ZERO]; rw [lev_zero hs]; exact ho)
  refine ⟨r, s', e, h1, h2, h3, ?_⟩
  convert h4 using 1
  funext ρ
  cases ρ v <;> simp

theorem bDepends_spec : ∀ (fuel : Nat) (s : S) (f : F) (g : BFun), SInv s → CInv s →
    Denotes s f g → s.nvars < fuel + lev s f.idx →
    ∃ r s' vs, bDepends fuel s f = some (r, s') ∧ Good s s' ∧ (∀ v, v ∈ vs ↔ DependsOn g v) ∧
      Denotes s' r (fun ρ => List.all vs ρ) := by
  intro fuel
  induction fuel with
  | zero => intro s f g hs _ _ h; have := lev_le hs f.idx; omega
  | succ fuel ih =>
    intro s f g hs hc hd hf
    unfold bDepends
    by_cases h0 : f = ZERO
    · rw [if_pos h0]
      subst h0
      refine ⟨ONE, s, [], rfl, ⟨hs, hc, Ext.refl s⟩, ?_, by simpa using denotes_one s⟩
      intro v; rw [hd.det (denotes_zero s)]; simp [DependsOn]
    · rw [if_neg h0]
      by_cases h1 : f = ONE
      · rw [if_pos h1]
        subst h1
        refine ⟨ONE, s, [], rfl, ⟨hs, hc, Ext.refl s⟩, ?_, by simpa using denotes_one s⟩
        intro v; rw [hd.det (denotes_one s)]; simp [DependsOn]
      · rw [if_neg h1]
        cases hcf : cacheFind s opDEPENDS f f with
        | some r =>
          have he := hc _ (cacheFind_some hcf)
          unfold EntryOK at he
          rw [if_neg (show ¬ (opDEPENDS = opAND ∨ opDEPENDS = opOR ∨ opDEPENDS = opXOR) by decide), if_pos rfl] at he
          obtain ⟨g', vs, d1, d2, d3⟩ := he
          simp only at d1 d3
          refine ⟨r, s, vs, rfl, ⟨hs, hc, Ext.refl s⟩, ?_, d3⟩
          rw [hd.det d1]; exact d2
        | none =>
          have hfi : f.idx ≠ 0 := idx_ne_of (by tauto)
          obtain ⟨n, e⟩ := hd.node_of_ne hfi
          simp only [e, Option.bind_eq_bind, Option.bind_some]
          -- forget the sign of `f`
          have e' : s.tbl (⟨false, f.idx⟩ : F).idx = some n := e
          obtain ⟨g0, hg0, rfl⟩ := hd
          have d0 : Denotes s ⟨false, f.idx⟩ g0 := denotes_pos.2 hg0
          obtain ⟨gl, gr, dl, dr, hg⟩ := d0.split e' hfi
          have hdep := dependsOn_node hs e' d0 dl dr hg
          have hls := lev_sons hs e'
          have hs1 : (sons ⟨false, f.idx⟩ n).1 = ⟨false, n.lson⟩ := by simp [sons, F.xneg]
          have hs2 : (sons ⟨false, f.idx⟩ n).2 = n.rson := by simp [sons, F.xneg]
          rw [hs1] at dl hls
          rw [hs2] at dr hls
          simp only at hls
          obtain ⟨r1, s1, vl, e1, G1, i1, d1⟩ := ih s _ gl hs hc dl (by simp only; omega)
          simp only [e1, Option.bind_some]
          have hl2 := lev_ext G1.ext dr hs G1.str
          obtain ⟨r2, s2, vr, e2, G2, i2, d2⟩ := ih s1 _ gr G1.str G1.cache (dr.ext G1.ext)
            (by rw [hl2, G1.ext.nvars]; omega)
          simp only [e2, Option.bind_some]
          obtain ⟨r3, s3, e3, G3, d3⟩ := bAnd_spec G2.str G2.cache (d1.ext G2.ext) d2
          simp only [e3, Option.bind_some]
          have E3 := (G1.trans G2).trans G3
          obtain ⟨r4, s4, e4, hs4, hE4, hc4, d4⟩ := var_denotes G3.str (v := n.var) (by
            rw [E3.ext.nvars]; exact hs.var_lt _ _ e)
          simp only [e4, Option.bind_some]
          have E4 : Good s s4 := ⟨hs4, G3.cache.ext hE4 hc4, E3.ext.trans hE4⟩
          obtain ⟨r5, s5, e5, G5, d5⟩ := bAnd_spec E4.str E4.cache (d3.ext hE4) d4
          simp only [e5, Option.bind_some]
          have E5 := E4.trans G5
          have hiff : ∀ v, v ∈ (n.var :: (vl ++ vr)) ↔ DependsOn (fun ρ => xor f.neg (g0 ρ)) v := by
            intro v
            rw [dependsOn_xor, hdep, List.mem_cons, List.mem_append, i1, i2]
          have hres : Denotes s5 r5 (fun ρ => List.all (n.var :: (vl ++ vr)) ρ) := by
            convert d5 using 1
            funext ρ
            simp only [List.all_cons, List.all_append]
            cases ρ n.var <;> simp
          refine ⟨r5, _, _, rfl, cacheAdd_good E5 ?_, hiff, hres⟩
          unfold EntryOK
          rw [if_neg (show ¬ (opDEPENDS = opAND ∨ opDEPENDS = opOR ∨ opDEPENDS = opXOR) by decide), if_pos rfl]
          exact ⟨_, _, (show Denotes s f _ from ⟨g0, hg0, rfl⟩).ext E5.ext, hiff, hres⟩

/-- `B_forall` / `B_thereis` on the support of a function. -/
theorem quant_spec {type : Nat} (ht : type = opUNIVERSAL ∨ type = opEXISTENTIAL) {s : S} {v f : F}
    {gv g : BFun} (hs : SInv s) (hc : CInv s) (hv : Denotes s v gv) (hf : Denotes s f g) :
    ∃ r s' vs, (do let (d, s) ← bDepends s.fuel s v
                   quantify (2 * s.fuel) s f d type) = some (r, s') ∧ Good s s' ∧
      (∀ v, v ∈ vs ↔ DependsOn gv v) ∧ Denotes s' r (qFun (type == opUNIVERSAL) vs g) := by
  obtain ⟨d, s1, vs, e1, G1, i1, d1⟩ := bDepends_spec s.fuel s v gv hs hc hv (by
    unfold S.fuel; omega)
  simp only [e1, Option.bind_eq_bind, Option.bind_some]
  have hn : d.neg = true := by
    rw [d1.neg_eq]; simp
  obtain ⟨g0, hg0, hg0'⟩ := d1
  have hden : Den s1.tbl d.idx (fun ρ => !(List.all vs ρ)) := by
    have : g0 = fun ρ => !(List.all vs ρ) := by
      funext ρ
      have := congrFun hg0' ρ
      simp only [hn, Bool.true_xor] at this
      rw [this]; simp
    rwa [this] at hg0
  obtain ⟨ws, hch, hiff⟩ := chain_conj G1.str _ d.idx vs le_rfl hden
  obtain ⟨r, s2, e2, G2, d2⟩ := quantify_spec (type := type) (by
      rcases ht with rfl | rfl <;> decide) (by rcases ht with rfl | rfl <;> decide)
    (2 * s1.fuel) s1 f d g ws G1.str G1.cache (hf.ext G1.ext) hch (by unfold S.fuel; omega)
  refine ⟨r, s2, ws, e2, G1.trans G2, ?_, d2⟩
  intro v; rw [hiff, i1]

end Voss.Bdd
