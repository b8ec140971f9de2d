import Verif.Bdd.VarLemmas
import Verif.Bdd.Model2
import Mathlib.Data.List.Forall2
/-
Composition (`substitute`).
-/
namespace Voss.Bdd

theorem forall₂_mem_left {α β : Type} {R : α → β → Prop} {l : List α} {l' : List β}
    (h : List.Forall₂ R l l') {a : α} (ha : a ∈ l) : ∃ b ∈ l', R a b := by
  induction h with
  | nil => simp at ha
  | cons h _ ih =>
    rcases List.mem_cons.1 ha with rfl | ha
    · exact ⟨_, by simp, h⟩
    · obtain ⟨b, hb, hr⟩ := ih ha
      exact ⟨b, List.mem_cons_of_mem _ hb, hr⟩

theorem forall₂_mem_right {α β : Type} {R : α → β → Prop} {l : List α} {l' : List β}
    (h : List.Forall₂ R l l') {b : β} (hb : b ∈ l') : ∃ a ∈ l, R a b := by
  induction h with
  | nil => simp at hb
  | cons h _ ih =>
    rcases List.mem_cons.1 hb with rfl | hb
    · exact ⟨_, by simp, h⟩
    · obtain ⟨a, ha, hr⟩ := ih hb
      exact ⟨a, List.mem_cons_of_mem _ ha, hr⟩

/-- Handles and functions of a substitution list correspond. -/
def SubsDen (s : S) (subs : Subs) (σ : List (Nat × BFun)) : Prop :=
  List.Forall₂ (fun p q => p.1 = q.1 ∧ Denotes s p.2 q.2) subs σ

/-- Sorted by variable order, declared variables only. -/
def SubsOrd (s : S) (subs : Subs) : Prop :=
  subs.Pairwise (fun p q => s.ord p.1 < s.ord q.1) ∧ ∀ p ∈ subs, p.1 < s.nvars

theorem SubsDen.mono {s s' : S} (h : ∀ f g, Denotes s f g → Denotes s' f g) {subs : Subs}
    {σ : List (Nat × BFun)} (d : SubsDen s subs σ) : SubsDen s' subs σ := by
  unfold SubsDen at *
  exact d.imp fun p q hpq => ⟨hpq.1, h _ _ hpq.2⟩

theorem SubsOrd.keeps {s s' : S} (h : Keeps s s') {subs : Subs} (d : SubsOrd s subs) :
    SubsOrd s' subs := by
  refine ⟨?_, fun p hp => lt_of_lt_of_le (d.2 p hp) h.nvars⟩
  refine d.1.imp_of_mem ?_
  intro p q hp hq hpq
  rw [h.ord _ (d.2 p hp), h.ord _ (d.2 q hq)]; exact hpq

theorem SubsDen.fst {s : S} {subs : Subs} {σ : List (Nat × BFun)} (d : SubsDen s subs σ) :
    subs.map Prod.fst = σ.map Prod.fst := by
  induction d with
  | nil => rfl
  | cons h _ ih => simp [h.1, ih]

theorem lookup_none_of_fst {β : Type} {l : List (Nat × β)} {v : Nat} (h : v ∉ l.map Prod.fst) :
    l.lookup v = none := by
  induction l with
  | nil => rfl
  | cons a l ih =>
    simp only [List.map_cons, List.mem_cons, not_or] at h
    obtain ⟨w, b⟩ := a
    rw [List.lookup_cons]
    have : (v == w) = false := by rw [beq_eq_false_iff_ne]; exact h.1
    simp only [this]; exact ih h.2

theorem substEnv_of_not_mem {σ : List (Nat × BFun)} {v : Nat} (h : v ∉ σ.map Prod.fst) (ρ : Env) :
    substEnv σ ρ v = ρ v := by simp [substEnv, lookup_none_of_fst h]

theorem substEnv_cons_same (v : Nat) (h : BFun) (σ : List (Nat × BFun)) (ρ : Env) :
    substEnv ((v, h) :: σ) ρ v = h ρ := by simp [substEnv, List.lookup_cons]

theorem substEnv_cons_ne {v w : Nat} (hne : w ≠ v) (h : BFun) (σ : List (Nat × BFun)) (ρ : Env) :
    substEnv ((v, h) :: σ) ρ w = substEnv σ ρ w := by
  have : (w == v) = false := by rw [beq_eq_false_iff_ne]; exact hne
  simp [substEnv, List.lookup_cons, this]

theorem comp_nil (g : BFun) : comp [] g = g := rfl

/-- Replacing a variable that comes before everything `g` looks at. -/
theorem comp_skip {s : S} {m v : Nat} {g h : BFun} (σ : List (Nat × BFun)) (ho : OnlyFrom s m g)
    (hv : s.ord v < m) : comp ((v, h) :: σ) g = comp σ g := by
  funext ρ
  apply ho
  intro w _ hw
  exact substEnv_cons_ne (by rintro rfl; omega) _ _ _

theorem comp_ite (σ : List (Nat × BFun)) (v : Nat) (gl gr : BFun) :
    comp σ (fun ρ => if ρ v then gl ρ else gr ρ) =
      fun ρ => if substEnv σ ρ v then comp σ gl ρ else comp σ gr ρ := rfl

/-- The memo table tells the truth about suffixes of the substitution. -/
def MemoOK (s : S) (σ0 : List (Nat × BFun)) (c : SubCache) : Prop :=
  ∀ e ∈ c, ∃ g σ, Denotes s e.1.1 g ∧ σ <:+ σ0 ∧ σ.length = e.1.2 ∧ Denotes s e.2 (comp σ g)

theorem MemoOK.mono {s s' : S} (h : ∀ f g, Denotes s f g → Denotes s' f g)
    {σ0 : List (Nat × BFun)} {c : SubCache} (d : MemoOK s σ0 c) : MemoOK s' σ0 c := by
  intro e he
  obtain ⟨g, σ, h1, h2, h3, h4⟩ := d e he
  exact ⟨g, σ, h _ _ h1, h2, h3, h _ _ h4⟩

theorem lookup_mem' {α β : Type} [BEq α] [LawfulBEq α] {l : List (α × β)} {n : α} {f : β}
    (h : l.lookup n = some f) : (n, f) ∈ l := by
  induction l with
  | nil => simp at h
  | cons a l ih =>
    obtain ⟨m, b⟩ := a
    rw [List.lookup_cons] at h
    by_cases hm : n == m
    · simp only [hm] at h
      rw [beq_iff_eq] at hm
      cases h; subst hm; simp
    · simp only [hm] at h
      exact List.mem_cons_of_mem _ (ih h)

theorem MemoOK.add {s : S} {σ0 σ : List (Nat × BFun)} {c : SubCache} (d : MemoOK s σ0 c)
    {f r : F} {g : BFun} {k : Nat} (h1 : Denotes s f g) (h2 : σ <:+ σ0) (h3 : σ.length = k)
    (h4 : Denotes s r (comp σ g)) : MemoOK s σ0 (((f, k), r) :: c) := by
  intro e he
  rcases List.mem_cons.1 he with rfl | he
  · exact ⟨g, σ, h1, h2, h3, h4⟩
  · exact d e he

theorem okson {s : S} {r : F} {g : BFun} (hs : SInv s) (v : Nat) (hv : v < s.nvars)
    (h : Denotes s r g) :
    ∃ b, laterVar s v r = some b ∧ (b = true → s.ord v < lev s r.idx) := by
  unfold laterVar
  by_cases h0 : r.idx = 0
  · exact ⟨true, by rw [if_pos h0], fun _ => by rw [h0, lev_zero hs]; exact hs.ord_lt v hv⟩
  · obtain ⟨n, e⟩ := h.node_of_ne h0
    refine ⟨decide (s.ord n.var > s.ord v), by rw [if_neg h0, e]; rfl, fun hb => ?_⟩
    rw [lev_some e]
    simpa using hb

set_option maxHeartbeats 1000000 in
theorem bSubst_spec (σ0 : List (Nat × BFun)) :
    ∀ (fuel : Nat) (s : S) (c : SubCache) (f : F) (subs : Subs) (g : BFun) (σ : List (Nat × BFun)),
      SInv s → CInv s → Denotes s f g → SubsDen s subs σ → SubsOrd s subs → σ <:+ σ0 →
      MemoOK s σ0 c → s.nvars + subs.length < fuel + lev s f.idx →
      ∃ r c' s', bSubst fuel s c f subs = some (r, c', s') ∧ Good s s' ∧ MemoOK s' σ0 c' ∧
        Denotes s' r (comp σ g) := by
  intro fuel
  induction fuel with
  | zero =>
    intro s c f subs g σ hs _ _ _ _ _ _ hf
    have := lev_le hs f.idx
    omega
  | succ fuel ih =>
    intro s c f subs g σ hs hc hd hsd hso hsuf hm hf
    cases subs with
    | nil =>
      cases hsd
      exact ⟨f, c, s, rfl, ⟨hs, hc, Ext.refl s⟩, hm, by rw [comp_nil]; exact hd⟩
    | cons p rest =>
      obtain ⟨sv, ex⟩ := p
      cases hsd with
      | @cons _ q _ σr hpq hrest =>
      obtain ⟨sv', hx⟩ := q
      obtain ⟨rfl, dex⟩ := hpq
      simp only at dex
      have hlen : σr.length = rest.length := (List.Forall₂.length_eq hrest).symm
      have hsufr : σr <:+ σ0 := (List.suffix_cons _ _).trans hsuf
      have hsor : SubsOrd s rest := ⟨(List.pairwise_cons.1 hso.1).2, fun p hp => hso.2 p (List.mem_cons_of_mem _ hp)⟩
      have hsv : sv < s.nvars := hso.2 (sv, ex) (by simp)
      simp only [bSubst]
      by_cases hconst : f = ONE ∨ f = ZERO
      · rw [if_pos hconst]
        refine ⟨f, c, s, rfl, ⟨hs, hc, Ext.refl s⟩, hm, ?_⟩
        rcases hconst with rfl | rfl
        · rw [hd.det (denotes_one s)]; exact denotes_one s
        · rw [hd.det (denotes_zero s)]; exact denotes_zero s
      · rw [if_neg hconst]
        cases hl : c.lookup (f, rest.length + 1) with
        | some r =>
          refine ⟨r, c, s, rfl, ⟨hs, hc, Ext.refl s⟩, hm, ?_⟩
          obtain ⟨g', σ', h1, h2, h3, h4⟩ := hm _ (lookup_mem' hl)
          simp only at h1 h3 h4
          have : σ' = (sv, hx) :: σr := by
            refine List.IsSuffix.eq_of_length (List.suffix_of_suffix_length_le h2 hsuf ?_) ?_ <;> simp [h3, hlen]
          subst this
          rw [hd.det h1]; exact h4
        | none =>
          have h0 : f.idx ≠ 0 := idx_ne_of (fun h => hconst h.symm)
          obtain ⟨n, en⟩ := hd.node_of_ne h0
          have hnv := hs.var_lt _ _ en
          simp only [en, Option.bind_eq_bind, Option.bind_some]
          have hlevf := lev_some en
          simp only [List.length_cons] at hf
          by_cases hgt : s.ord n.var > s.ord sv
          · rw [if_pos hgt]
            obtain ⟨r, c1, s1, e1, G1, m1, d1⟩ := ih s c f rest g σr hs hc hd hrest hsor hsufr hm (by omega)
            simp only [e1, Option.bind_some]
            have key : comp ((sv, hx) :: σr) g = comp σr g :=
              comp_skip σr (hd.onlyFrom hs) (by rw [hlevf]; exact hgt)
            rw [← key] at d1
            exact ⟨r, _, s1, rfl, G1, m1.add (hd.ext G1.ext) hsuf (by simp [hlen]) d1, d1⟩
          · rw [if_neg hgt]
            obtain ⟨gl, gr, dl, dr, hg⟩ := hd.split en h0
            have hls := lev_sons hs en
            by_cases hlt : s.ord n.var < s.ord sv
            · rw [if_pos hlt]
              have hnotin : n.var ∉ (((sv, hx) :: σr : List (Nat × BFun)).map Prod.fst) := by
                have hh := SubsDen.fst hrest
                simp only [List.map_cons, List.mem_cons, not_or]
                refine ⟨by rintro e; rw [e] at hlt; omega, ?_⟩
                rw [← hh]
                intro hmem
                obtain ⟨p, hp, e⟩ := List.mem_map.1 hmem
                have := (List.pairwise_cons.1 hso.1).1 p hp
                rw [e] at this
                simp only at this; omega
              obtain ⟨varf, s1, e1, hs1, hE1, hc1, d1⟩ := findInsert_spec hs (v := n.var) hnv
                (denotes_one s) (denotes_zero s)
                (by simp only [ONE]; rw [lev_zero hs]; exact hs.ord_lt _ hnv)
                (by simp only [ZERO]; rw [lev_zero hs]; exact hs.ord_lt _ hnv)
              simp only [e1, Option.bind_some]
              have G1 : Good s s1 := ⟨hs1, hc.ext hE1 hc1, hE1⟩
              have d1' : Denotes s1 varf (fun ρ => ρ n.var) := by
                convert d1 using 1; funext ρ; simp
              have full : SubsDen s ((sv, ex) :: rest) ((sv, hx) :: σr) := List.Forall₂.cons ⟨rfl, dex⟩ hrest
              obtain ⟨l, c2, s2, e2, G2, m2, d2⟩ := ih s1 c (sons f n).1 ((sv, ex) :: rest) gl ((sv, hx) :: σr)
                hs1 G1.cache (dl.ext hE1) (full.mono fun _ _ d => d.ext hE1) (hso.keeps hE1.keeps) hsuf
                (hm.mono fun _ _ d => d.ext hE1)
                (by rw [lev_ext hE1 dl hs hs1, hE1.nvars]; simp only [List.length_cons]; omega)
              simp only [e2, Option.bind_some]
              have E2 := hE1.trans G2.ext
              obtain ⟨r, c3, s3, e3, G3, m3, d3⟩ := ih s2 c2 (sons f n).2 ((sv, ex) :: rest) gr ((sv, hx) :: σr)
                G2.str G2.cache (dr.ext E2) (full.mono fun _ _ d => d.ext E2) (hso.keeps E2.keeps) hsuf
                m2 (by rw [lev_ext E2 dr hs G2.str, E2.nvars]; simp only [List.length_cons]; omega)
              simp only [e3, Option.bind_some]
              have E3 := E2.trans G3.ext
              have d2' := d2.ext G3.ext
              have d1'' := d1'.ext (G2.ext.trans G3.ext)
              have hnv3 : n.var < s3.nvars := by rw [E3.nvars]; exact hnv
              obtain ⟨bl, ebl, hbl⟩ := okson G3.str n.var hnv3 d2'
              obtain ⟨br, ebr, hbr⟩ := okson G3.str n.var hnv3 d3
              simp only [ebl, ebr, Option.bind_some]
              have hcomp : comp ((sv, hx) :: σr) g = fun ρ => if ρ n.var then comp ((sv, hx) :: σr) gl ρ
                  else comp ((sv, hx) :: σr) gr ρ := by
                rw [hg, comp_ite]; funext ρ; rw [substEnv_of_not_mem hnotin]
              by_cases hb : (bl && br) = true
              · rw [if_pos hb]
                rw [Bool.and_eq_true] at hb
                obtain ⟨res, s4, e4, hs4, hE4, hc4, d4⟩ := findInsert_spec G3.str (v := n.var) hnv3 d2' d3
                  (hbl hb.1) (hbr hb.2)
                simp only [e4, Option.bind_some]
                rw [← hcomp] at d4
                have E4 := E3.trans hE4
                exact ⟨res, _, s4, rfl, ⟨hs4, G3.cache.ext hE4 hc4, E4⟩,
                  (m3.mono fun _ _ d => d.ext hE4).add (hd.ext E4) hsuf (by simp [hlen]) d4, d4⟩
              · rw [if_neg hb]
                obtain ⟨x, s4, e4, G4, d4⟩ := bAnd_spec G3.str G3.cache d2' d1''
                simp only [e4, Option.bind_some]
                obtain ⟨y, s5, e5, G5, d5⟩ := bAnd_spec G4.str G4.cache (d3.ext G4.ext) ((d1''.not).ext G4.ext)
                simp only [e5, Option.bind_some]
                obtain ⟨res, s6, e6, G6, d6⟩ := bOr_spec G5.str G5.cache (d4.ext G5.ext) d5
                simp only [e6, Option.bind_some]
                have E6 := (E3.trans G4.ext).trans (G5.ext.trans G6.ext)
                have E36 := G4.ext.trans (G5.ext.trans G6.ext)
                have d6' : Denotes s6 res (comp ((sv, hx) :: σr) g) := by
                  rw [hcomp]; convert d6 using 1; funext ρ; by_cases hρ : ρ n.var <;> simp [hρ]
                exact ⟨res, _, s6, rfl, ⟨G6.str, G6.cache, E6⟩,
                  (m3.mono fun _ _ d => d.ext E36).add (hd.ext E6) hsuf (by simp [hlen]) d6', d6'⟩
            · rw [if_neg hlt]
              have hveq : n.var = sv := hs.ord_inj _ _ hnv hsv (by omega)
              obtain ⟨l, c1, s1, e1, G1, m1, d1⟩ := ih s c (sons f n).1 rest gl σr hs hc dl hrest hsor hsufr hm
                (by omega)
              simp only [e1, Option.bind_some]
              obtain ⟨x, s2, e2, G2, d2⟩ := bAnd_spec G1.str G1.cache d1 (dex.ext G1.ext)
              simp only [e2, Option.bind_some]
              have E2 := G1.ext.trans G2.ext
              obtain ⟨r, c3, s3, e3, G3, m3, d3⟩ := ih s2 c1 (sons f n).2 rest gr σr G2.str G2.cache
                (dr.ext E2) (SubsDen.mono (fun _ _ d => d.ext E2) hrest) (hsor.keeps E2.keeps) hsufr
                (m1.mono fun _ _ d => d.ext G2.ext)
                (by rw [lev_ext E2 dr hs G2.str, E2.nvars]; omega)
              simp only [e3, Option.bind_some]
              have E3 := E2.trans G3.ext
              obtain ⟨y, s4, e4, G4, d4⟩ := bAnd_spec G3.str G3.cache d3 ((dex.not).ext E3)
              simp only [e4, Option.bind_some]
              obtain ⟨res, s5, e5, G5, d5⟩ := bOr_spec G4.str G4.cache (d2.ext (G3.ext.trans G4.ext)) d4
              simp only [e5, Option.bind_some]
              have E35 := G4.ext.trans G5.ext
              have E5 := E3.trans E35
              have kl : comp ((sv, hx) :: σr) gl = comp σr gl := comp_skip σr (dl.onlyFrom hs) (by omega)
              have kr : comp ((sv, hx) :: σr) gr = comp σr gr := comp_skip σr (dr.onlyFrom hs) (by omega)
              have d5' : Denotes s5 res (comp ((sv, hx) :: σr) g) := by
                rw [hg, comp_ite, hveq, kl, kr]
                convert d5 using 1
                funext ρ
                rw [substEnv_cons_same]
                cases hx ρ <;> simp
              exact ⟨res, _, s5, rfl, ⟨G5.str, G5.cache, E5⟩,
                (m3.mono fun _ _ d => d.ext E35).add (hd.ext E5) hsuf (by simp [hlen]) d5', d5'⟩

/-! ### Building the substitution list -/

theorem addToSubs_spec {s : S} (hs : SInv s) {v : Nat} (hv : v < s.nvars) (e : F) :
    ∀ {subs : Subs}, SubsOrd s subs →
      (v ∈ subs.map Prod.fst → addToSubs s subs v e = none) ∧
      (v ∉ subs.map Prod.fst → ∃ subs', addToSubs s subs v e = some subs' ∧ SubsOrd s subs' ∧
        ∀ p, p ∈ subs' ↔ p = (v, e) ∨ p ∈ subs) := by
  intro subs
  induction subs with
  | nil =>
    intro _
    refine ⟨by simp, fun _ => ⟨[(v, e)], rfl, ⟨by simp, by simpa using hv⟩, by simp⟩⟩
  | cons q rest ih =>
    intro ho
    obtain ⟨w, h⟩ := q
    obtain ⟨ho1, ho2⟩ := ho
    rw [List.pairwise_cons] at ho1
    have hw : w < s.nvars := ho2 (w, h) (by simp)
    have hor : SubsOrd s rest := ⟨ho1.2, fun p hp => ho2 p (List.mem_cons_of_mem _ hp)⟩
    have := ih hor
    simp only [addToSubs, List.map_cons, List.mem_cons, not_or]
    by_cases hlt : s.ord v < s.ord w
    · simp only [hlt, if_true]
      have hnot : v ≠ w ∧ v ∉ rest.map Prod.fst := by
        refine ⟨by rintro rfl; omega, fun hm => ?_⟩
        obtain ⟨p, hp, rfl⟩ := List.mem_map.1 hm
        have := ho1.1 p hp
        simp only at this; omega
      refine ⟨fun h' => ?_, fun _ => ⟨_, rfl, ⟨?_, ?_⟩, ?_⟩⟩
      · rcases h' with h' | h'
        · exact absurd h' hnot.1
        · exact absurd h' hnot.2
      · rw [List.pairwise_cons, List.pairwise_cons]
        refine ⟨?_, ho1⟩
        intro p hp
        rcases List.mem_cons.1 hp with rfl | hp
        · exact hlt
        · exact hlt.trans (ho1.1 p hp)
      · intro p hp
        rcases List.mem_cons.1 hp with rfl | hp
        · exact hv
        · exact ho2 p hp
      · simp
    · simp only [hlt, if_false]
      by_cases hvw : v = w
      · simp [hvw]
      · simp only [hvw, if_false, false_or]
        refine ⟨fun h' => by rw [this.1 h']; rfl, fun h' => ?_⟩
        obtain ⟨subs', e1, o1, m1⟩ := this.2 h'.2
        refine ⟨(w, h) :: subs', by rw [e1]; rfl, ⟨?_, ?_⟩, ?_⟩
        · rw [List.pairwise_cons]
          refine ⟨fun p hp => ?_, o1.1⟩
          rcases (m1 p).1 hp with rfl | hp
          · simp only
            rcases Nat.lt_or_ge (s.ord w) (s.ord v) with h'' | h''
            · exact h''
            · exact absurd (hs.ord_inj v w hv hw (by omega)) hvw
          · exact ho1.1 p hp
        · intro p hp
          rcases List.mem_cons.1 hp with rfl | hp
          · exact hw
          · exact o1.2 p hp
        · intro p
          simp only [List.mem_cons, m1 p]
          tauto

theorem var_unique {s : S} (hI : Inv s) {v w : Nat} {f : F} (h : Denotes s f (fun ρ => ρ v))
    (h' : Denotes s f (fun ρ => ρ w)) : v = w := by
  by_contra hne
  have := congrFun (h.det h') (fun x => decide (x = v))
  simp at this
  exact hne this.symm

/-- The node of a variable carries that variable. -/
theorem var_node {s : S} (hs : SInv s) {v : Nat} {f : F} (h : Denotes s f (fun ρ => ρ v)) :
    ∃ n, s.tbl f.idx = some n ∧ n.var = v := by
  have h0 : f.idx ≠ 0 := by
    intro h0
    rcases idx_zero h0 with rfl | rfl
    · have := congrFun (h.det (denotes_zero s)) (fun _ => true); simp at this
    · have := congrFun (h.det (denotes_one s)) (fun _ => false); simp at this
  obtain ⟨n, e⟩ := h.node_of_ne h0
  refine ⟨n, e, ?_⟩
  obtain ⟨ρ, hρ⟩ := top_essential hs e h
  by_contra hne
  exact hρ (by simp only; rw [set1_ne _ _ (Ne.symm hne), set1_ne _ _ (Ne.symm hne)])

theorem buildSubs_spec : ∀ (pairs : List (String × F)) (s : S) (subs : Subs) (seen : List (String × F)),
    Inv s → SubsOrd s subs →
    (∀ v e, (v, e) ∈ subs ↔ v < s.nvars ∧ (s.vname v, e) ∈ seen) →
    (∀ p ∈ seen, ∃ v, v < s.nvars ∧ s.vname v = p.1) →
    ∃ out s', buildSubs s subs pairs = some (out, s') ∧ Inv s' ∧ Keeps s s' ∧
      ((∃ p ∈ pairs, p.1 ∈ seen.map Prod.fst) ∨ ¬ (pairs.map Prod.fst).Nodup → out = none) ∧
      ((∀ p ∈ pairs, p.1 ∉ seen.map Prod.fst) → (pairs.map Prod.fst).Nodup →
        ∃ subs', out = some subs' ∧ SubsOrd s' subs' ∧
          ∀ v e, (v, e) ∈ subs' ↔ v < s'.nvars ∧ ((s'.vname v, e) ∈ seen ∨ (s'.vname v, e) ∈ pairs)) := by
  intro pairs
  induction pairs with
  | nil =>
    intro s subs seen hI ho hm _
    exact ⟨some subs, s, rfl, hI, Keeps.refl s, by simp, fun _ _ => ⟨subs, rfl, ho, by simpa using hm⟩⟩
  | cons q rest ih =>
    intro s subs seen hI ho hm hseen
    obtain ⟨name, e⟩ := q
    obtain ⟨f, s1, e1, I1, K1, hl, v, hv, hn, hd⟩ := bVar_spec hI name
    obtain ⟨n, en, hnv⟩ := var_node I1.str hd
    simp only [buildSubs, e1, Option.bind_eq_bind, Option.bind_some, en, hnv]
    have ho1 := ho.keeps K1
    have hm1 : ∀ w x, (w, x) ∈ subs ↔ w < s1.nvars ∧ (s1.vname w, x) ∈ seen := by
      intro w x
      rw [hm w x]
      constructor
      · rintro ⟨h1, h2⟩; exact ⟨lt_of_lt_of_le h1 K1.nvars, by rw [K1.vname w h1]; exact h2⟩
      · rintro ⟨h1, h2⟩
        obtain ⟨u, hu, hun⟩ := hseen _ h2
        simp only at hun
        rw [← K1.vname u hu] at hun
        have := I1.vars.name_inj u w (lt_of_lt_of_le hu K1.nvars) h1 hun
        subst this
        exact ⟨hu, by rw [← hun, K1.vname u hu] at h2; exact h2⟩
    have hseen1 : ∀ p ∈ seen, ∃ v, v < s1.nvars ∧ s1.vname v = p.1 := by
      intro p hp
      obtain ⟨u, hu, hun⟩ := hseen p hp
      exact ⟨u, lt_of_lt_of_le hu K1.nvars, by rw [K1.vname u hu]; exact hun⟩
    have hmem : v ∈ subs.map Prod.fst ↔ name ∈ seen.map Prod.fst := by
      constructor
      · intro h
        obtain ⟨⟨w, x⟩, hp, hw⟩ := List.mem_map.1 h
        simp only at hw
        subst hw
        have := ((hm1 w x).1 hp).2
        rw [hn] at this
        exact List.mem_map.2 ⟨_, this, rfl⟩
      · intro h
        obtain ⟨⟨w, x⟩, hp, hw⟩ := List.mem_map.1 h
        simp only at hw
        subst hw
        exact List.mem_map.2 ⟨(v, x), (hm1 v x).2 ⟨hv, by rw [hn]; exact hp⟩, rfl⟩
    obtain ⟨A1, A2⟩ := addToSubs_spec I1.str hv e ho1
    by_cases hin : name ∈ seen.map Prod.fst
    · rw [A1 (hmem.2 hin)]
      refine ⟨none, s1, rfl, I1, K1, fun _ => rfl, fun h => ?_⟩
      exact absurd hin (h (name, e) (by simp))
    · obtain ⟨subs', e2, o2, m2⟩ := A2 (fun h => hin (hmem.1 h))
      rw [e2]
      simp only
      obtain ⟨out, s', e3, I3, K3, B1, B2⟩ := ih s1 subs' ((name, e) :: seen) I1 o2 (by
          intro w x
          rw [m2, hm1 w x]
          simp only [List.mem_cons, Prod.mk.injEq]
          constructor
          · rintro (⟨rfl, rfl⟩ | ⟨h1, h2⟩)
            · exact ⟨hv, Or.inl ⟨hn, rfl⟩⟩
            · exact ⟨h1, Or.inr h2⟩
          · rintro ⟨h1, ⟨h2, rfl⟩ | h2⟩
            · exact Or.inl ⟨I1.vars.name_inj _ _ h1 hv (by rw [h2, hn]), rfl⟩
            · exact Or.inr ⟨h1, h2⟩) (by
          intro p hp
          rcases List.mem_cons.1 hp with rfl | hp
          · exact ⟨v, hv, hn⟩
          · exact hseen1 p hp)
      refine ⟨out, s', e3, I3, K1.trans K3, ?_, ?_⟩
      · intro h
        apply B1
        rcases h with ⟨p, hp, h⟩ | h
        · rcases List.mem_cons.1 hp with rfl | hp
          · exact absurd h hin
          · exact Or.inl ⟨p, hp, by simp only [List.map_cons, List.mem_cons]; exact Or.inr h⟩
        · simp only [List.map_cons, List.nodup_cons, not_and_or, not_not] at h
          rcases h with h | h
          · obtain ⟨p, hp, hpe⟩ := List.mem_map.1 h
            exact Or.inl ⟨p, hp, by simp [hpe]⟩
          · exact Or.inr h
      · intro h1 h2
        simp only [List.map_cons, List.nodup_cons] at h2
        obtain ⟨subs3, q1, q2, q3⟩ := B2 (by
          intro p hp
          simp only [List.map_cons, List.mem_cons, not_or]
          refine ⟨?_, h1 p (List.mem_cons_of_mem _ hp)⟩
          intro he
          exact h2.1 (List.mem_map.2 ⟨p, hp, he⟩)) h2.2
        refine ⟨subs3, q1, q2, fun w x => ?_⟩
        rw [q3]
        simp only [List.mem_cons]
        tauto

/-! ### Applying it -/

theorem substAll_spec {subs : Subs} {σ : List (Nat × BFun)} :
    ∀ (fs : List F) (s : S) (c : SubCache) (gs : List BFun), SInv s → CInv s →
      List.Forall₂ (Denotes s) fs gs → SubsDen s subs σ → SubsOrd s subs → MemoOK s σ c →
      ∃ rs s', substAll subs s c fs = some (rs, s') ∧ Good s s' ∧
        List.Forall₂ (fun r g => Denotes s' r (comp σ g)) rs gs := by
  intro fs
  induction fs with
  | nil =>
    intro s c gs hs hc hf _ _ _
    cases hf
    exact ⟨[], s, rfl, ⟨hs, hc, Ext.refl s⟩, List.Forall₂.nil⟩
  | cons f fs ih =>
    intro s c gs hs hc hf hd ho hm
    cases hf with
    | @cons _ g _ gs' h1 h2 =>
    obtain ⟨r, c1, s1, e1, G1, m1, d1⟩ := bSubst_spec σ (s.fuel + subs.length) s c f subs g σ hs hc h1 hd ho
      (List.suffix_refl _) hm (by unfold S.fuel; omega)
    simp only [substAll, e1, Option.bind_eq_bind, Option.bind_some]
    obtain ⟨rs, s2, e2, G2, d2⟩ := ih s1 c1 gs' G1.str G1.cache (h2.imp fun _ _ d => d.ext G1.ext)
      (hd.mono fun _ _ d => d.ext G1.ext) (ho.keeps G1.ext.keeps) m1
    simp only [e2, Option.bind_some]
    exact ⟨_, s2, rfl, G1.trans G2, List.Forall₂.cons (d1.ext G2.ext) d2⟩

theorem NDen.keeps {s s' : S} (hI : Inv s) (K : Keeps s s') {f : F} {G : NEnv → Bool} (h : NDen s f G) :
    NDen s' f G := by
  obtain ⟨g, d, e⟩ := h
  refine ⟨g, K.den _ _ d, fun η => ?_⟩
  rw [e η]
  apply d.onlyFrom hI.str
  intro v hv _
  rw [K.vname v hv]

theorem lookup_fst {α : Type} {l : List (String × α)} {n : String} (hnd : (l.map Prod.fst).Nodup) {x : α}
    (h : (n, x) ∈ l) : l.lookup n = some x := by
  induction l with
  | nil => simp at h
  | cons a l ih =>
    obtain ⟨m, b⟩ := a
    simp only [List.map_cons, List.nodup_cons] at hnd
    rw [List.lookup_cons]
    rcases List.mem_cons.1 h with h | h'
    · cases h; simp
    · have : (n == m) = false := by
        rw [beq_eq_false_iff_ne]; rintro rfl
        exact hnd.1 (List.mem_map.2 ⟨(n, x), h', rfl⟩)
      simp only [this]; exact ih hnd.2 h'

theorem lookup_fstNat {α : Type} {l : List (Nat × α)} {n : Nat} (hnd : (l.map Prod.fst).Nodup) {x : α}
    (h : (n, x) ∈ l) : l.lookup n = some x := by
  induction l with
  | nil => simp at h
  | cons a l ih =>
    obtain ⟨m, b⟩ := a
    simp only [List.map_cons, List.nodup_cons] at hnd
    rw [List.lookup_cons]
    rcases List.mem_cons.1 h with h | h'
    · cases h; simp
    · have : (n == m) = false := by
        rw [beq_eq_false_iff_ne]; rintro rfl
        exact hnd.1 (List.mem_map.2 ⟨(n, x), h', rfl⟩)
      simp only [this]; exact ih hnd.2 h'

theorem SubsOrd.nodup {s : S} {subs : Subs} (h : SubsOrd s subs) : (subs.map Prod.fst).Nodup := by
  have := h.1
  rw [List.Nodup, List.pairwise_map]
  exact this.imp fun hlt he => by rw [he] at hlt; omega

theorem buildSubs_via : ∀ (pairs : List (String × F)) (s : S) (subs : Subs) (out : Option Subs) (s' : S),
    buildSubs s subs pairs = some (out, s') → Via (fun n => n ∈ pairs.map Prod.fst) s s'
  | [], s, subs, out, s', h => by
    simp only [buildSubs, Option.some.injEq, Prod.mk.injEq] at h
    rw [h.2]; exact Via.refl _
  | (name, e) :: rest, s, subs, out, s', h => by
    simp only [buildSubs, Option.bind_eq_bind] at h
    rw [Option.bind_eq_some_iff] at h
    obtain ⟨⟨v, s1⟩, e1, h⟩ := h
    rw [Option.bind_eq_some_iff] at h
    obtain ⟨n, _, h⟩ := h
    simp only at h
    split at h
    · simp only [Option.some.injEq, Prod.mk.injEq] at h
      rw [← h.2]
      exact Via.var (by simp) e1 (Via.refl _)
    · exact Via.var (by simp) e1 ((buildSubs_via rest s1 _ out s' h).mono (fun n hn => by simp at hn ⊢; tauto))

theorem substitute_spec {s : S} (hI : Inv s) {pairs : List (String × F)}
    {σ : List (String × (NEnv → Bool))} {fs : List F} {Gs : List (NEnv → Bool)}
    (hp : List.Forall₂ (fun p q => p.1 = q.1 ∧ NDen s p.2 q.2) pairs σ)
    (hf : List.Forall₂ (NDen s) fs Gs) :
    ∃ out s', substitute s pairs fs = some (out, s') ∧ Inv s' ∧ Keeps s s' ∧
      Via (fun n => n ∈ pairs.map Prod.fst) s s' ∧ (¬ (pairs.map Prod.fst).Nodup → out = none) ∧
      ((pairs.map Prod.fst).Nodup →
        ∃ rs, out = some rs ∧ List.Forall₂ (fun r G => NDen s' r (nSubst σ G)) rs Gs) := by
  obtain ⟨out, s1, e1, I1, K1, B1, B2⟩ := buildSubs_spec pairs s [] [] hI ⟨by simp, by simp⟩ (by simp) (by simp)
  simp only [substitute, e1, Option.bind_eq_bind, Option.bind_some]
  by_cases hnd : (pairs.map Prod.fst).Nodup
  · obtain ⟨subs, rfl, ho, hm⟩ := B2 (by simp) hnd
    simp only [List.not_mem_nil, false_or] at hm
    -- denotations of the replacements
    have hp1 : List.Forall₂ (fun p q => p.1 = q.1 ∧ NDen s1 p.2 q.2) pairs σ :=
      hp.imp fun _ _ h => ⟨h.1, h.2.keeps hI K1⟩
    have hex : ∀ p ∈ subs, ∃ g, Denotes s1 p.2 g := by
      rintro ⟨v, x⟩ hpm
      have := ((hm v x).1 hpm).2
      obtain ⟨q, hq, _, g, hg, _⟩ := forall₂_mem_left hp1 this
      exact ⟨g, hg⟩
    choose! D hD using hex
    let σn : List (Nat × BFun) := subs.map fun p => (p.1, D p)
    have hsd : SubsDen s1 subs σn := by
      show List.Forall₂ _ subs (subs.map _)
      rw [List.forall₂_map_right_iff]
      exact List.forall₂_same.2 fun p hpm => ⟨rfl, hD p hpm⟩
    have hgs : ∃ gs : List BFun, List.Forall₂ (Denotes s1) fs gs ∧
        List.Forall₂ (fun g (G : NEnv → Bool) => ∀ η : NEnv, G η = g (fun v => η (s1.vname v))) gs Gs := by
      clear hp hp1 e1 B1 B2
      induction hf with
      | nil => exact ⟨[], List.Forall₂.nil, List.Forall₂.nil⟩
      | cons h _ ih =>
        obtain ⟨gs, i1, i2⟩ := ih
        obtain ⟨g, d, hg⟩ := h.keeps hI K1
        exact ⟨g :: gs, List.Forall₂.cons d i1, List.Forall₂.cons hg i2⟩
    obtain ⟨gs, hg1, hg2⟩ := hgs
    obtain ⟨rs, s2, e2, G2, d2⟩ := substAll_spec (σ := σn) fs s1 [] gs I1.str I1.cache hg1 hsd ho
      (by intro e he; simp at he)
    simp only [e2, Option.bind_some]
    have I2 := I1.good G2
    refine ⟨_, s2, rfl, I2, K1.trans G2.ext.keeps,
      (buildSubs_via _ _ _ _ _ e1).trans (Via.ext G2.ext (Via.refl _)), fun h => absurd hnd h, fun _ => ⟨rs, rfl, ?_⟩⟩
    have env : ∀ (η : NEnv) v, v < s1.nvars → substEnv σn (fun v => η (s1.vname v)) v =
        (match σ.lookup (s1.vname v) with
          | some h => h η
          | none => η (s1.vname v)) := by
      intro η v hv
      have hndσ : (σ.map Prod.fst).Nodup := by
        have : pairs.map Prod.fst = σ.map Prod.fst := by
          clear * - hp
          induction hp with
          | nil => rfl
          | cons h _ ih => simp [h.1, ih]
        rw [← this]; exact hnd
      by_cases hin : v ∈ subs.map Prod.fst
      · obtain ⟨⟨w, x⟩, hpm, hw⟩ := List.mem_map.1 hin
        simp only at hw; subst hw
        have l1 : σn.lookup w = some (D (w, x)) := by
          apply lookup_fstNat
          · show ((subs.map _).map Prod.fst).Nodup
            rw [List.map_map]; exact ho.nodup
          · exact List.mem_map.2 ⟨_, hpm, rfl⟩
        have hpp := ((hm w x).1 hpm).2
        obtain ⟨q, hq, hq1, g, hg, hgG⟩ : ∃ q ∈ σ, (s1.vname w) = q.1 ∧ NDen s1 x q.2 := by
          obtain ⟨q, hq, h1, h2⟩ := forall₂_mem_left hp1 hpp
          exact ⟨q, hq, h1, h2⟩
        have l2 : σ.lookup (s1.vname w) = some q.2 := by
          apply lookup_fst hndσ
          rw [hq1]; exact hq
        simp only [substEnv, l1, l2]
        rw [hgG, hg.det (hD _ hpm)]
      · have l1 : σn.lookup v = none := by
          apply lookup_none_of_fst
          show v ∉ ((subs.map _).map Prod.fst)
          rw [List.map_map]; exact hin
        have l2 : σ.lookup (s1.vname v) = none := by
          cases hl : σ.lookup (s1.vname v) with
          | none => rfl
          | some h =>
            exfalso
            have hmem := lookup_mem' hl
            obtain ⟨⟨m, x⟩, hx, h1, _⟩ := forall₂_mem_right hp1 hmem
            simp only at h1
            subst h1
            exact hin (List.mem_map.2 ⟨(v, x), (hm v _).2 ⟨hv, hx⟩, rfl⟩)
        simp only [substEnv, l1, l2]
    clear * - d2 hg2 env G2 hg1 I1
    induction hg2 generalizing rs fs with
    | nil => cases d2; exact List.Forall₂.nil
    | @cons g G gs Gs hgG _ ih =>
      cases d2 with
      | cons h1 h2 =>
      cases hg1 with
      | cons k1 k2 =>
      refine List.Forall₂.cons ⟨_, h1, fun η => ?_⟩ (ih k2 _ h2)
      simp only [nSubst, comp, hgG]
      apply k1.onlyFrom I1.str
      intro v hv _
      rw [G2.ext.vname]
      exact (env η v hv).symm
  · have := B1 (Or.inr hnd)
    subst this
    exact ⟨none, s1, rfl, I1, K1, buildSubs_via _ _ _ _ _ e1, fun _ => rfl, fun h => absurd h hnd⟩

end Voss.Bdd
