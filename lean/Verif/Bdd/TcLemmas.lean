import Verif.Bdd.NameLemmas
import Verif.Bdd.History
import Mathlib.Data.Set.Card
import Mathlib.Data.List.Sort
/-
Truth cover.
-/
namespace Voss.Bdd

/-- Number of assignments to the listed variables that satisfy `g`, the others being given by `ρ`. -/
def cnt : List Nat → BFun → Env → Nat
  | [], g, ρ => if g ρ then 1 else 0
  | v :: vs, g, ρ => cnt vs g (set1 ρ v true) + cnt vs g (set1 ρ v false)

theorem cnt_false (vs : List Nat) (ρ : Env) : cnt vs (fun _ => false) ρ = 0 := by
  induction vs generalizing ρ with
  | nil => rfl
  | cons v vs ih => simp [cnt, ih]

theorem cnt_true (vs : List Nat) (ρ : Env) : cnt vs (fun _ => true) ρ = 2 ^ vs.length := by
  induction vs generalizing ρ with
  | nil => rfl
  | cons v vs ih => simp only [cnt, ih, List.length_cons, pow_succ]; omega

theorem foldl_two (vs : List Nat) : ∀ r, vs.foldl (fun r _ => r * 2) r = r * 2 ^ vs.length := by
  induction vs with
  | nil => intro r; simp
  | cons v vs ih => intro r; rw [List.foldl_cons, ih, List.length_cons, pow_succ]; ring

theorem skipTo_spec (v : Nat) : ∀ (vs : List Nat) (m : Nat),
    (v ∉ vs → skipTo v vs m = none) ∧
    (v ∈ vs → ∃ pre rest, vs = pre ++ v :: rest ∧ skipTo v vs m = some (m * 2 ^ pre.length, rest)) := by
  intro vs
  induction vs with
  | nil => intro m; exact ⟨fun _ => rfl, fun h => absurd h (by simp)⟩
  | cons w vs ih =>
    intro m
    by_cases h : w = v
    · subst h
      refine ⟨fun h => absurd (by simp) h, fun _ => ⟨[], vs, rfl, by simp [skipTo]⟩⟩
    · obtain ⟨i1, i2⟩ := ih (2 * m)
      constructor
      · intro hn
        simp only [skipTo, if_neg h]
        exact i1 (fun hm => hn (List.mem_cons_of_mem _ hm))
      · intro hm
        simp only [skipTo, if_neg h]
        rcases List.mem_cons.1 hm with hm | hm
        · exact absurd hm.symm h
        obtain ⟨pre, rest, e1, e2⟩ := i2 hm
        refine ⟨w :: pre, rest, by rw [e1]; rfl, ?_⟩
        rw [e2, List.length_cons, pow_succ]
        congr 2; ring

/-- Counting over a variable the function does not look at doubles. -/
theorem cnt_skip {g : BFun} : ∀ (pre vs : List Nat) (ρ : Env),
    (∀ v ∈ pre, ∀ ρ b, g (set1 ρ v b) = g ρ) → (∀ ρ ρ', cnt vs g ρ = cnt vs g ρ') →
    cnt (pre ++ vs) g ρ = 2 ^ pre.length * cnt vs g ρ := by
  intro pre
  induction pre with
  | nil => intro vs ρ _ _; simp
  | cons v pre ih =>
    intro vs ρ h h'
    simp only [List.cons_append, cnt, List.length_cons]
    have hp : ∀ w ∈ pre, ∀ ρ b, g (set1 ρ w b) = g ρ := fun w hw => h w (List.mem_cons_of_mem _ hw)
    rw [ih vs _ hp h', ih vs _ hp h', h' (set1 ρ v true) ρ, h' (set1 ρ v false) ρ, pow_succ]
    ring

theorem cnt_congr {g g' : BFun} (v : Nat) (b : Bool) (hg : ∀ ρ : Env, ρ v = b → g ρ = g' ρ) :
    ∀ (vs : List Nat) (ρ : Env), v ∉ vs → ρ v = b → cnt vs g ρ = cnt vs g' ρ := by
  intro vs
  induction vs with
  | nil => intro ρ _ h; simp [cnt, hg ρ h]
  | cons w vs ih =>
    intro ρ hv h
    simp only [List.mem_cons, not_or] at hv
    simp only [cnt]
    rw [ih _ hv.2 (by rw [set1_ne _ _ hv.1]; exact h), ih _ hv.2 (by rw [set1_ne _ _ hv.1]; exact h)]

/-- The memo table tells the truth. -/
def TMemo (s : S) (L : List Nat) (memo : List (F × Nat)) : Prop :=
  ∀ e ∈ memo, ∃ g n pre rest, Denotes s e.1 g ∧ s.tbl e.1.idx = some n ∧ L = pre ++ n.var :: rest ∧
    (∀ v, DependsOn g v → v ∈ n.var :: rest) ∧ ∀ ρ, e.2 = cnt (n.var :: rest) g ρ

theorem split_unique {v : Nat} : ∀ {L pre rest pre' rest' : List Nat}, L.Nodup →
    L = pre ++ v :: rest → L = pre' ++ v :: rest' → rest = rest' := by
  intro L
  induction L with
  | nil => intro pre rest pre' rest' _ h; simp at h
  | cons w L ih =>
    intro pre rest pre' rest' hn h h'
    rw [List.nodup_cons] at hn
    cases pre with
    | nil =>
      cases pre' with
      | nil => simp at h h'; rw [← h.2, ← h'.2]
      | cons x pre' =>
        simp at h h'
        exact absurd (by rw [h'.2, h.1]; simp) hn.1
    | cons x pre =>
      cases pre' with
      | nil =>
        simp at h h'
        exact absurd (by rw [h.2, h'.1]; simp) hn.1
      | cons y pre' =>
        simp at h h'
        exact ih hn.2 h.2 h'.2

theorem truthCover_spec {s : S} (hs : SInv s) {L : List Nat}
    (hL : L.Pairwise (fun a b => s.ord a < s.ord b)) :
    ∀ (fuel : Nat) (memo : List (F × Nat)) (vs : List Nat) (b : F) (g : BFun),
      Denotes s b g → vs <:+ L → TMemo s L memo → s.nvars < fuel + lev s b.idx →
      ∃ out memo', truthCover fuel s memo vs b = some (out, memo') ∧ TMemo s L memo' ∧
        (out = none → ∃ v, DependsOn g v ∧ v ∉ vs) ∧
        (∀ k, out = some k → (∀ v, DependsOn g v → v ∈ vs) ∧ ∀ ρ, k = cnt vs g ρ) := by
  have hnd : L.Nodup := hL.imp fun h he => by rw [he] at h; omega
  intro fuel
  induction fuel with
  | zero => intro memo vs b g _ _ _ hf; have := lev_le hs b.idx; omega
  | succ fuel ih =>
    intro memo vs b g hd hsuf hm hf
    unfold truthCover
    by_cases hz : b = ZERO
    · subst hz
      rw [if_pos rfl]
      refine ⟨some 0, memo, rfl, hm, by simp, ?_⟩
      intro k hk
      cases hk
      rw [hd.det (denotes_zero s)]
      exact ⟨fun v ⟨ρ, h⟩ => absurd rfl h, fun ρ => (cnt_false vs ρ).symm⟩
    rw [if_neg hz]
    by_cases ho : b = ONE
    · subst ho
      rw [if_pos rfl]
      refine ⟨_, memo, rfl, hm, by simp, ?_⟩
      intro k hk
      simp only [Option.some.injEq] at hk
      rw [foldl_two, one_mul] at hk
      rw [hd.det (denotes_one s)]
      exact ⟨fun v ⟨ρ, h⟩ => absurd rfl h, fun ρ => by rw [cnt_true]; exact hk.symm⟩
    rw [if_neg ho]
    have h0 : b.idx ≠ 0 := idx_ne_of (by tauto)
    obtain ⟨n, en⟩ := hd.node_of_ne h0
    simp only [en, Option.bind_eq_bind, Option.bind_some]
    obtain ⟨gl, gr, dl, dr, hg⟩ := hd.split en h0
    have hls := lev_sons hs en
    rw [lev_some en] at hls hf
    have htop := top_essential hs en hd
    by_cases hin : n.var ∈ vs
    · obtain ⟨pre, rest, e1, e2⟩ := (skipTo_spec n.var vs 1).2 hin
      rw [e2]
      simp only [one_mul]
      have hrest : rest <:+ L := by
        refine List.IsSuffix.trans ?_ hsuf
        rw [e1]; exact ⟨pre ++ [n.var], by simp⟩
      have hvsord : vs.Pairwise (fun a b => s.ord a < s.ord b) := hL.sublist hsuf.sublist
      rw [e1, List.pairwise_append] at hvsord
      have hnotrest : n.var ∉ rest := by
        intro h
        have := (List.pairwise_cons.1 hvsord.2.1).1 _ h
        omega
      have hpreord : ∀ v ∈ pre, s.ord v < s.ord n.var := fun v hv => hvsord.2.2 v hv _ (by simp)
      have hpreg : ∀ v ∈ pre, ∀ ρ x, g (set1 ρ v x) = g ρ := by
        intro v hv ρ x
        exact (hd.onlyFrom hs).set1 (by rw [lev_some en]; exact hpreord v hv) ρ x
      have finish : ∀ c, (∀ v, DependsOn g v → v ∈ n.var :: rest) → (∀ ρ, c = cnt (n.var :: rest) g ρ) →
          (∀ v, DependsOn g v → v ∈ vs) ∧ ∀ ρ, 2 ^ pre.length * c = cnt vs g ρ := by
        intro c h1 h2
        refine ⟨fun v hv => by rw [e1]; exact List.mem_append_right _ (h1 v hv), fun ρ => ?_⟩
        rw [e1, cnt_skip pre (n.var :: rest) ρ hpreg (fun ρ ρ' => by rw [← h2 ρ, ← h2 ρ']), ← h2 ρ]
      cases hmm : memo.lookup b with
      | some r =>
        simp only
        refine ⟨_, memo, rfl, hm, by simp, ?_⟩
        intro k hk
        simp only [Option.some.injEq] at hk
        obtain ⟨g', n', pre', rest', q1, q2, q3, q4, q5⟩ := hm _ (lookup_mem' hmm)
        simp only at q1 q2 q5
        rw [en] at q2; cases q2
        rw [← hd.det q1] at q4 q5
        obtain ⟨pp, hpp⟩ := hsuf
        have hreq : rest' = rest := split_unique hnd q3 (by rw [← hpp, e1, ← List.append_assoc])
        subst hreq
        rw [← hk]
        exact finish r q4 q5
      | none =>
        simp only
        obtain ⟨L', memo1, e3, m1, f1, t1⟩ := ih memo rest (sons b n).1 gl dl hrest hm (by omega)
        rw [e3]
        simp only [Option.bind_some]
        have hdep := dependsOn_node hs en hd dl dr hg
        have fail : ∀ gs, (gs = gl ∨ gs = gr) → (∃ v, DependsOn gs v ∧ v ∉ rest) → ∃ v, DependsOn g v ∧ v ∉ vs := by
          rintro gs hgs ⟨v, hv1, hv2⟩
          have hgv : DependsOn g v := by
            rw [hdep]; rcases hgs with rfl | rfl
            · exact Or.inr (Or.inl hv1)
            · exact Or.inr (Or.inr hv1)
          have hov : s.ord n.var < s.ord v := by
            by_contra hc
            obtain ⟨ρ, hρ⟩ := hv1
            apply hρ
            rcases hgs with rfl | rfl
            · rw [(dl.onlyFrom hs).set1 (by omega), (dl.onlyFrom hs).set1 (by omega)]
            · rw [(dr.onlyFrom hs).set1 (by omega), (dr.onlyFrom hs).set1 (by omega)]
          refine ⟨v, hgv, ?_⟩
          rw [e1]
          simp only [List.mem_append, List.mem_cons, not_or]
          refine ⟨fun h => ?_, ?_, hv2⟩
          · have := hpreord v h; omega
          · rintro rfl; omega
        cases L' with
        | none =>
          exact ⟨none, memo1, rfl, m1, fun _ => fail gl (Or.inl rfl) (f1 rfl), by simp⟩
        | some l =>
          simp only
          obtain ⟨R', memo2, e4, m2, f2, t2⟩ := ih memo1 rest (sons b n).2 gr dr hrest m1 (by omega)
          rw [e4]
          simp only [Option.bind_some]
          cases R' with
          | none =>
            exact ⟨none, memo2, rfl, m2, fun _ => fail gr (Or.inr rfl) (f2 rfl), by simp⟩
          | some r =>
            simp only
            obtain ⟨s1, c1⟩ := t1 l rfl
            obtain ⟨s2, c2⟩ := t2 r rfl
            have hsup : ∀ v, DependsOn g v → v ∈ n.var :: rest := by
              intro v hv
              rw [hdep] at hv
              rcases hv with rfl | hv | hv
              · simp
              · exact List.mem_cons_of_mem _ (s1 v hv)
              · exact List.mem_cons_of_mem _ (s2 v hv)
            have hc : ∀ ρ, l + r = cnt (n.var :: rest) g ρ := by
              intro ρ
              simp only [cnt]
              rw [cnt_congr (g := g) (g' := gl) n.var true (fun ρ h => by rw [hg]; simp [h]) rest _ hnotrest
                (set1_same _ _ _), cnt_congr (g := g) (g' := gr) n.var false (fun ρ h => by rw [hg]; simp [h]) rest _
                hnotrest (set1_same _ _ _), ← c1, ← c2]
            refine ⟨_, _, rfl, ?_, by simp, ?_⟩
            · intro e he
              rcases List.mem_cons.1 he with rfl | he
              · obtain ⟨pp, hpp⟩ := hsuf
                exact ⟨g, n, pp ++ pre, rest, hd, en, by rw [← hpp, e1, List.append_assoc], hsup, hc⟩
              · exact m2 e he
            · intro k hk
              simp only [Option.some.injEq] at hk
              rw [← hk]
              exact finish _ hsup hc
    · rw [(skipTo_spec n.var vs 1).1 hin]
      exact ⟨none, memo, rfl, hm, fun _ => ⟨n.var, htop, hin⟩, by simp⟩

/-! ### The API level -/

def cntN : List String → (NEnv → Bool) → NEnv → Nat
  | [], G, η => if G η then 1 else 0
  | n :: ns, G, η => cntN ns G (setN η n true) + cntN ns G (setN η n false)

theorem satSet_card : ∀ (names : List String) (G : NEnv → Bool) (η0 : NEnv), names.Nodup →
    (SatSet names G η0).Finite ∧ (SatSet names G η0).ncard = cntN names G η0 := by
  intro names
  induction names with
  | nil =>
    intro G η0 _
    by_cases h : G η0 = true
    · have : SatSet [] G η0 = {η0} := by
        ext η
        simp only [SatSet, List.not_mem_nil, not_false_eq_true, true_implies, Set.mem_setOf_eq,
          Set.mem_singleton_iff]
        constructor
        · rintro ⟨h1, _⟩; exact funext h1
        · rintro rfl; exact ⟨fun _ => rfl, h⟩
      rw [this]
      exact ⟨Set.finite_singleton _, by simp [cntN, h]⟩
    · have : SatSet [] G η0 = ∅ := by
        ext η
        simp only [SatSet, List.not_mem_nil, not_false_eq_true, true_implies, Set.mem_setOf_eq,
          Set.mem_empty_iff_false, iff_false]
        rintro ⟨h1, h2⟩
        rw [funext h1] at h2; exact h h2
      rw [this]
      exact ⟨Set.finite_empty, by simp [cntN, h]⟩
  | cons n ns ih =>
    intro G η0 hnd
    rw [List.nodup_cons] at hnd
    have hU : SatSet (n :: ns) G η0 = SatSet ns G (setN η0 n true) ∪ SatSet ns G (setN η0 n false) := by
      ext η
      simp only [SatSet, List.mem_cons, not_or, Set.mem_setOf_eq, Set.mem_union]
      constructor
      · rintro ⟨h1, h2⟩
        have aux : ∀ m, m ∉ ns → η m = setN η0 n (η n) m := by
          intro m hm
          unfold setN
          split
          · next h => rw [h]
          · next h => exact h1 m ⟨h, hm⟩
        cases hb : η n
        · rw [hb] at aux; exact Or.inr ⟨aux, h2⟩
        · rw [hb] at aux; exact Or.inl ⟨aux, h2⟩
      · rintro (⟨h1, h2⟩ | ⟨h1, h2⟩) <;>
        · refine ⟨fun m hm => ?_, h2⟩
          rw [h1 m hm.2]; simp [setN, hm.1]
    obtain ⟨f1, c1⟩ := ih G (setN η0 n true) hnd.2
    obtain ⟨f2, c2⟩ := ih G (setN η0 n false) hnd.2
    have hdis : Disjoint (SatSet ns G (setN η0 n true)) (SatSet ns G (setN η0 n false)) := by
      rw [Set.disjoint_left]
      rintro η ⟨h1, _⟩ ⟨h2, _⟩
      have a := h1 n hnd.1
      have b := h2 n hnd.1
      rw [a] at b
      simp [setN] at b
    rw [hU]
    exact ⟨f1.union f2, by rw [Set.ncard_union_eq hdis f1 f2, c1, c2]; rfl⟩

theorem cnt_eq_cntN {s : S} (hI : Inv s) {f : F} {g : BFun} {G : NEnv → Bool} (d : Denotes s f g)
    (h : ∀ η : NEnv, G η = g (fun v => η (s.vname v))) : ∀ (vs : List Nat) (ρ : Env) (η : NEnv),
    (∀ v ∈ vs, v < s.nvars) → (∀ v, v < s.nvars → ρ v = η (s.vname v)) →
    cnt vs g ρ = cntN (vs.map s.vname) G η := by
  intro vs
  induction vs with
  | nil =>
    intro ρ η _ hr
    have : g ρ = G η := by
      rw [h]; apply d.onlyFrom hI.str; intro v hv _; exact hr v hv
    simp [cnt, cntN, this]
  | cons v vs ih =>
    intro ρ η hv hr
    have hvv := hv v (by simp)
    have aux : ∀ b w, w < s.nvars → set1 ρ v b w = setN η (s.vname v) b (s.vname w) := by
      intro b w hw
      rw [setN_vname hI.vars η hvv hw]
      unfold set1
      split
      · rfl
      · exact hr w hw
    simp only [cnt, cntN, List.map_cons]
    rw [ih _ _ (fun w hw => hv w (List.mem_cons_of_mem _ hw)) (aux true),
      ih _ _ (fun w hw => hv w (List.mem_cons_of_mem _ hw)) (aux false)]

theorem varNumbers_spec : ∀ (names : List String) (s : S), Inv s →
    ∃ vs s', varNumbers s names = some (vs, s') ∧ Inv s' ∧ Keeps s s' ∧ (∀ v ∈ vs, v < s'.nvars) ∧
      vs.map s'.vname = names := by
  intro names
  induction names with
  | nil => intro s hI; exact ⟨[], s, rfl, hI, Keeps.refl s, by simp, rfl⟩
  | cons name rest ih =>
    intro s hI
    obtain ⟨f, s1, e1, I1, K1, hl, v, hv, hn, hd⟩ := bVar_spec hI name
    obtain ⟨n, en, hnv⟩ := var_node I1.str hd
    obtain ⟨vs, s2, e2, I2, K2, h2, m2⟩ := ih s1 I1
    refine ⟨v :: vs, s2, ?_, I2, K1.trans K2, ?_, ?_⟩
    · simp only [varNumbers, e1, Option.bind_eq_bind, Option.bind_some, en, e2, hnv]
    · intro w hw
      rcases List.mem_cons.1 hw with rfl | hw
      · exact lt_of_lt_of_le hv K2.nvars
      · exact h2 w hw
    · rw [List.map_cons, m2, K2.vname v hv, hn]

theorem truthCoverOp_spec {s : S} (hI : Inv s) {names : List String} (hnd : names.Nodup) {f : F}
    {G : NEnv → Bool} (h : NDen s f G) :
    ∃ out s', truthCoverOp s names f = some (out, s') ∧ Inv s' ∧ Keeps s s' ∧
      (out = none → ∃ n, NDependsOn G n ∧ n ∉ names) ∧
      (∀ k, out = some k → (∀ n, NDependsOn G n → n ∈ names) ∧
        k = (SatSet names G (fun _ => false)).ncard) := by
  obtain ⟨vs, s1, e1, I1, K1, hlt, hmap⟩ := varNumbers_spec names s hI
  obtain ⟨g, d, hg⟩ := h.keeps hI K1
  simp only [truthCoverOp, e1, Option.bind_eq_bind, Option.bind_some]
  generalize hL : sortBy s1.ord vs = L
  have hperm : L.Perm vs := by rw [← hL]; exact sortBy_perm _ _
  have hvnd : vs.Nodup := by
    rw [← hmap] at hnd; exact List.Nodup.of_map _ hnd
  have hLnd : L.Nodup := hperm.nodup_iff.2 hvnd
  have hsorted : L.Pairwise (fun a b => s1.ord a ≤ s1.ord b) := by
    rw [← hL]; exact sortBy_sorted _ _
  have hstrict : L.Pairwise (fun a b => s1.ord a < s1.ord b) := by
    refine List.Pairwise.imp_of_mem ?_ (List.Pairwise.and hsorted hLnd)
    rintro a b ha hb ⟨h1, h2⟩
    have := I1.str.ord_inj a b (hlt a (hperm.mem_iff.1 ha)) (hlt b (hperm.mem_iff.1 hb))
    omega
  obtain ⟨out, memo, e2, _, hf, ht⟩ := truthCover_spec I1.str hstrict s1.fuel [] L f g d (List.suffix_refl _)
    (by intro e he; simp at he) (by unfold S.fuel; omega)
  simp only [e2, Option.bind_some]
  refine ⟨out, s1, rfl, I1, K1, ?_, ?_⟩
  · intro hn
    obtain ⟨v, hv1, hv2⟩ := hf hn
    have hvlt := denotes_var_lt I1.str d hv1
    refine ⟨s1.vname v, (ndependsOn_iff I1 d hg _).2 ⟨v, hvlt, rfl, hv1⟩, ?_⟩
    rw [← hmap]
    intro hm
    obtain ⟨w, hw, he⟩ := List.mem_map.1 hm
    have := I1.vars.name_inj w v (hlt w hw) hvlt he
    subst this
    exact hv2 (hperm.mem_iff.2 hw)
  · intro k hk
    obtain ⟨h1, h2⟩ := ht k hk
    refine ⟨?_, ?_⟩
    · intro n hn
      obtain ⟨v, hv, rfl, hd⟩ := (ndependsOn_iff I1 d hg _).1 hn
      rw [← hmap]
      exact List.mem_map.2 ⟨v, hperm.mem_iff.1 (h1 v hd), rfl⟩
    · have hset : SatSet names G (fun _ => false) = SatSet (L.map s1.vname) G (fun _ => false) := by
        unfold SatSet
        have : ∀ n, n ∈ names ↔ n ∈ L.map s1.vname := by
          intro n; rw [← hmap]; exact (hperm.map _).mem_iff.symm
        simp only [this]
      rw [hset, (satSet_card _ _ _ (by
        have := (hperm.map s1.vname).nodup_iff
        rw [this, hmap]; exact hnd)).2, h2 (fun v => false)]
      exact cnt_eq_cntN I1 d hg L _ _ (fun v hv => hlt v (hperm.mem_iff.1 hv)) (fun _ _ => rfl)

end Voss.Bdd
