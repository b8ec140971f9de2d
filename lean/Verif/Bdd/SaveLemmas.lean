import Verif.Bdd.NameLemmas
import Mathlib.Data.Fintype.EquivFin
/-
Support listing, saving and loading.
-/
namespace Voss.Bdd

/-! ### Support listing -/

def SeenOK (s : S) (seen : List F) (wid : Nat → Nat) : Prop :=
  ∀ f ∈ seen, ∃ g, Denotes s f g ∧ ∀ v, DependsOn g v → 0 < wid v

theorem dependsOn_pos {s : S} (hs : SInv s) {f : F} {n : Node} {g : BFun} (d : Denotes s f g)
    (e : s.tbl f.idx = some n) :
    ∃ gl gr, Denotes s ⟨false, n.lson⟩ gl ∧ Denotes s ⟨false, n.rson.idx⟩ gr ∧
      ∀ v, DependsOn g v ↔ v = n.var ∨ DependsOn gl v ∨ DependsOn gr v := by
  obtain ⟨gl, gr, dl, dr, hg⟩ := d.split e (idx_ne_zero hs e)
  have hh := dependsOn_node hs e d dl dr hg
  refine ⟨fun ρ => xor (sons f n).1.neg (gl ρ), fun ρ => xor (sons f n).2.neg (gr ρ), ?_, ?_, ?_⟩
  · have := dl.xneg (sons f n).1.neg
    rwa [xneg_self_neg, (sons_idx f n).1] at this
  · have := dr.xneg (sons f n).2.neg
    rwa [xneg_self_neg, (sons_idx f n).2] at this
  · intro v; rw [hh, dependsOn_xor, dependsOn_xor]

theorem bSize_spec {s : S} (hs : SInv s) : ∀ (fuel : Nat) (seen : List F) (wid : Nat → Nat) (f : F) (g : BFun),
    Denotes s f g → SeenOK s seen wid → s.nvars < fuel + lev s f.idx →
    ∃ seen' wid', bSize fuel s (seen, wid) f = some (seen', wid') ∧ SeenOK s seen' wid' ∧
      ∀ v, 0 < wid' v ↔ 0 < wid v ∨ DependsOn g v := by
  intro fuel
  induction fuel with
  | zero => intro seen wid f g _ _ hf; have := lev_le hs f.idx; omega
  | succ fuel ih =>
    intro seen wid f g hd hok hf
    unfold bSize
    by_cases hz : f = ZERO ∨ f = ONE
    · rw [if_pos hz]
      refine ⟨seen, wid, rfl, hok, fun v => ?_⟩
      have : ¬ DependsOn g v := by
        rintro ⟨ρ, h⟩
        rcases hz with rfl | rfl
        · rw [hd.det (denotes_zero s)] at h; exact h rfl
        · rw [hd.det (denotes_one s)] at h; exact h rfl
      tauto
    rw [if_neg hz]
    by_cases hin : f ∈ seen
    · rw [if_pos hin]
      refine ⟨seen, wid, rfl, hok, fun v => ?_⟩
      obtain ⟨g', d', h'⟩ := hok f hin
      rw [← hd.det d'] at h'
      exact ⟨Or.inl, fun h => h.elim id (h' v)⟩
    rw [if_neg hin]
    obtain ⟨n, en⟩ := hd.node_of_ne (idx_ne_of hz)
    obtain ⟨gl, gr, dl, dr, hdep⟩ := dependsOn_pos hs hd en
    have hll := lev_below hs (hs.var_lt _ _ en) (hs.below_l _ _ en)
    have hlr := lev_below hs (hs.var_lt _ _ en) (hs.below_r _ _ en)
    rw [lev_some en] at hf
    obtain ⟨s1, w1, e1, o1, i1⟩ := ih seen wid ⟨false, n.lson⟩ gl dl hok (by simp only; omega)
    obtain ⟨s2, w2, e2, o2, i2⟩ := ih s1 w1 ⟨false, n.rson.idx⟩ gr dr o1 (by simp only; omega)
    simp only [en, e1, e2, Option.bind_eq_bind, Option.bind_some]
    have hw : ∀ v, 0 < upd w2 n.var (w2 n.var + 1) v ↔ 0 < wid v ∨ DependsOn g v := by
      intro v
      by_cases hv : v = n.var
      · subst hv; rw [upd_same, hdep]; constructor
        · intro _; exact Or.inr (Or.inl rfl)
        · intro _; omega
      · rw [upd_ne _ _ hv, i2, i1, hdep]; tauto
    refine ⟨_, _, rfl, ?_, hw⟩
    intro x hx
    rcases List.mem_cons.1 hx with rfl | hx
    · exact ⟨g, hd, fun v h => (hw v).2 (Or.inr h)⟩
    · obtain ⟨gx, dx, hx'⟩ := o2 x hx
      refine ⟨gx, dx, fun v h => ?_⟩
      have := hx' v h
      by_cases hv : v = n.var
      · subst hv; rw [upd_same]; omega
      · rw [upd_ne _ _ hv]; exact this

theorem sizeAll_spec {s : S} (hs : SInv s) : ∀ (fs : List F) (gs : List BFun) (seen : List F) (wid : Nat → Nat),
    List.Forall₂ (Denotes s) fs gs → SeenOK s seen wid →
    ∃ seen' wid', sizeAll s (seen, wid) fs = some (seen', wid') ∧
      ∀ v, 0 < wid' v ↔ 0 < wid v ∨ ∃ g ∈ gs, DependsOn g v := by
  intro fs
  induction fs with
  | nil =>
    intro gs seen wid h hok
    cases h
    exact ⟨seen, wid, rfl, by simp⟩
  | cons f fs ih =>
    intro gs seen wid h hok
    cases h with
    | @cons _ g _ gs' h1 h2 =>
    obtain ⟨s1, w1, e1, o1, i1⟩ := bSize_spec hs s.fuel seen wid f g h1 hok (by unfold S.fuel; omega)
    obtain ⟨s2, w2, e2, i2⟩ := ih gs' s1 w1 h2 o1
    refine ⟨s2, w2, by simp only [sizeAll, e1, e2, Option.bind_eq_bind, Option.bind_some], fun v => ?_⟩
    rw [i2, i1]
    simp only [List.mem_cons, exists_eq_or_imp]
    tauto

theorem ord_surj {s : S} (hs : SInv s) {p : Nat} (hp : p < s.nvars) : ∃ v, v < s.nvars ∧ s.ord v = p := by
  let o : Fin s.nvars → Fin s.nvars := fun v => ⟨s.ord v, hs.ord_lt v v.2⟩
  have hinj : Function.Injective o := by
    intro a b h
    have := congrArg Fin.val h
    exact Fin.ext (hs.ord_inj a b a.2 b.2 this)
  obtain ⟨v, hv⟩ := (Finite.injective_iff_surjective.1 hinj) ⟨p, hp⟩
  exact ⟨v, v.2, congrArg Fin.val hv⟩

theorem atPos_spec {s : S} (hs : SInv s) {p : Nat} (hp : p < s.nvars) :
    ∃ v, atPos s p = some v ∧ v < s.nvars ∧ s.ord v = p := by
  obtain ⟨v, hv, ho⟩ := ord_surj hs hp
  unfold atPos
  cases h : (List.range s.nvars).find? (fun v => decide (s.ord v = p)) with
  | none =>
    rw [List.find?_eq_none] at h
    exact absurd ho (by simpa using h v (List.mem_range.2 hv))
  | some w =>
    have h1 := List.find?_some h
    have h2 := List.mem_of_find?_eq_some h
    exact ⟨w, rfl, List.mem_range.1 h2, by simpa using h1⟩

theorem mapM_atPos {s : S} (hs : SInv s) : ∀ (ps : List Nat), (∀ p ∈ ps, p < s.nvars) →
    ∃ vs, ps.mapM (atPos s) = some vs ∧ vs.map s.ord = ps ∧ ∀ v ∈ vs, v < s.nvars := by
  intro ps
  induction ps with
  | nil => intro _; exact ⟨[], rfl, rfl, by simp⟩
  | cons p ps ih =>
    intro h
    obtain ⟨v, e1, hv, ho⟩ := atPos_spec hs (h p (by simp))
    obtain ⟨vs, e2, h2, h3⟩ := ih fun q hq => h q (List.mem_cons_of_mem _ hq)
    refine ⟨v :: vs, ?_, by simp [ho, h2], ?_⟩
    · simp [List.mapM_cons, e1, e2]
    · intro w hw
      rcases List.mem_cons.1 hw with rfl | hw
      · exact hv
      · exact h3 w hw

theorem usedVars_spec {s : S} (hs : SInv s) (wid : Nat → Nat) :
    ∃ vs, usedVars s wid = some vs ∧ vs.Pairwise (fun a b => s.ord a < s.ord b) ∧
      ∀ v, v ∈ vs ↔ v < s.nvars ∧ 0 < wid v := by
  obtain ⟨vs, e, hmap, hlt⟩ := mapM_atPos hs (List.range s.nvars) (by simp)
  refine ⟨vs.filter (fun v => decide (0 < wid v)), by simp [usedVars, e], ?_, ?_⟩
  · apply List.Pairwise.filter
    have : (vs.map s.ord).Pairwise (· < ·) := by rw [hmap]; exact List.pairwise_lt_range
    rwa [List.pairwise_map] at this
  · intro v
    simp only [List.mem_filter, decide_eq_true_eq]
    refine ⟨fun h => ⟨hlt v h.1, h.2⟩, fun h => ⟨?_, h.2⟩⟩
    have : s.ord v ∈ vs.map s.ord := by rw [hmap]; exact List.mem_range.2 (hs.ord_lt v h.1)
    obtain ⟨w, hw, ho⟩ := List.mem_map.1 this
    rw [← hs.ord_inj w v (hlt w hw) h.1 ho]; exact hw

theorem nden_list {s : S} {fs : List F} {Gs : List (NEnv → Bool)} (h : List.Forall₂ (NDen s) fs Gs) :
    ∃ gs : List BFun, List.Forall₂ (Denotes s) fs gs ∧
      List.Forall₂ (fun g (G : NEnv → Bool) => ∀ η : NEnv, G η = g (fun v => η (s.vname v))) gs Gs := by
  induction h with
  | nil => exact ⟨[], List.Forall₂.nil, List.Forall₂.nil⟩
  | cons h _ ih =>
    obtain ⟨gs, i1, i2⟩ := ih
    obtain ⟨g, d, hg⟩ := h
    exact ⟨g :: gs, List.Forall₂.cons d i1, List.Forall₂.cons hg i2⟩

theorem depends_list {s : S} (hI : Inv s) {fs : List F} {gs : List BFun} {Gs : List (NEnv → Bool)}
    (h1 : List.Forall₂ (Denotes s) fs gs)
    (h2 : List.Forall₂ (fun g (G : NEnv → Bool) => ∀ η : NEnv, G η = g (fun v => η (s.vname v))) gs Gs)
    (name : String) :
    (∃ G ∈ Gs, NDependsOn G name) ↔ ∃ v, v < s.nvars ∧ s.vname v = name ∧ ∃ g ∈ gs, DependsOn g v := by
  induction h1 generalizing Gs with
  | nil => cases h2; simp
  | cons d _ ih =>
    cases h2 with
    | cons hg h2 =>
    simp only [List.mem_cons, exists_eq_or_imp, ih h2, ndependsOn_iff hI d hg]
    constructor
    · rintro (⟨v, a, b, c⟩ | ⟨v, a, b, c⟩)
      · exact ⟨v, a, b, Or.inl c⟩
      · exact ⟨v, a, b, Or.inr c⟩
    · rintro ⟨v, a, b, c | c⟩
      · exact Or.inl ⟨v, a, b, c⟩
      · exact Or.inr ⟨v, a, b, c⟩

theorem depends_spec {s : S} (hI : Inv s) {fs : List F} {Gs : List (NEnv → Bool)}
    (h : List.Forall₂ (NDen s) fs Gs) :
    ∃ names, depends s fs = some names ∧ names.Nodup ∧
      names.Pairwise (fun a b => ∃ v w, v < s.nvars ∧ w < s.nvars ∧ s.vname v = a ∧ s.vname w = b ∧
        s.ord v < s.ord w) ∧
      ∀ name, name ∈ names ↔ ∃ G ∈ Gs, NDependsOn G name := by
  obtain ⟨gs, h1, h2⟩ := nden_list h
  obtain ⟨seen, wid, e1, i1⟩ := sizeAll_spec hI.str fs gs [] (fun _ => 0) h1 (by intro f hf; simp at hf)
  obtain ⟨vs, e2, hp, hm⟩ := usedVars_spec hI.str wid
  refine ⟨vs.map s.vname, by simp [depends, e1, e2], ?_, ?_, ?_⟩
  · rw [List.Nodup, List.pairwise_map]
    refine hp.imp_of_mem ?_
    intro a b ha hb hlt he
    rw [hI.vars.name_inj a b ((hm a).1 ha).1 ((hm b).1 hb).1 he] at hlt
    omega
  · rw [List.pairwise_map]
    refine hp.imp_of_mem ?_
    intro a b ha hb hlt
    exact ⟨a, b, ((hm a).1 ha).1, ((hm b).1 hb).1, rfl, rfl, hlt⟩
  · intro name
    rw [depends_list hI h1 h2]
    constructor
    · intro hmem
      obtain ⟨v, hv, rfl⟩ := List.mem_map.1 hmem
      have := (hm v).1 hv
      exact ⟨v, this.1, rfl, by simpa using (i1 v).1 this.2⟩
    · rintro ⟨v, hv, rfl, hg⟩
      exact List.mem_map.2 ⟨v, (hm v).2 ⟨hv, (i1 v).2 (Or.inr hg)⟩, rfl⟩

/-! ### Saving -/

/-- File index of a node: 0 for the constant, otherwise one more than its position. -/
def fpos (l : List Nat) (j : Nat) : Nat := if j = 0 then 0 else l.idxOf j + 1

/-- The node lines `out` describe the nodes `l`, sons before fathers. -/
inductive Saved (s : S) (vs : List Nat) : List Nat → List Line → Prop
  | nil : Saved s vs [] []
  | snoc {l : List Nat} {out : List Line} {i : Nat} {n : Node} :
      Saved s vs l out → s.tbl i = some n → i ∉ l → n.lson ∈ 0 :: l → n.rson.idx ∈ 0 :: l → n.var ∈ vs →
      Saved s vs (l ++ [i])
        (out ++ [Line.node (vs.idxOf n.var) false (fpos l n.lson) n.rson.neg (fpos l n.rson.idx)])

/-- The table of file indices. -/
def tblOf (l : List Nat) : List (Nat × Nat) := (l.zipIdx 1).reverse

theorem tblOf_snoc (l : List Nat) (i : Nat) : tblOf (l ++ [i]) = (i, l.length + 1) :: tblOf l := by
  simp [tblOf, List.zipIdx_append, Nat.add_comm]

theorem tblOf_length (l : List Nat) : (tblOf l).length = l.length := by simp [tblOf]

theorem tblOf_lookup {s : S} {vs l : List Nat} {out : List Line} (h : Saved s vs l out) (j : Nat) :
    (tblOf l).lookup j = if j ∈ l then some (l.idxOf j + 1) else none := by
  induction h with
  | nil => simp [tblOf]
  | @snoc l out i n _ _ hni _ _ _ ih =>
    rw [tblOf_snoc, List.lookup_cons]
    by_cases hj : j = i
    · subst hj
      simp [List.idxOf_append, hni]
    · have : (j == i) = false := by rw [beq_eq_false_iff_ne]; exact hj
      simp only [this, ih, List.mem_append, List.mem_singleton, hj, or_false]
      by_cases hm : j ∈ l
      · simp [hm, List.idxOf_append]
      · simp [hm]

theorem Saved.zero_notin {s : S} (hs : SInv s) {vs l : List Nat} {out : List Line} (h : Saved s vs l out) :
    0 ∉ l := by
  induction h with
  | nil => simp
  | snoc _ e _ _ _ _ ih =>
    simp only [List.mem_append, List.mem_singleton, not_or]
    exact ⟨ih, (idx_ne_zero hs e).symm⟩

theorem getD_fpos {s : S} (hs : SInv s) {vs l : List Nat} {out : List Line} (h : Saved s vs l out) {j : Nat}
    (hj : j ∈ 0 :: l) : ((tblOf l).lookup j).getD 0 = fpos l j := by
  rw [tblOf_lookup h]
  unfold fpos
  rcases List.mem_cons.1 hj with rfl | hj
  · simp [h.zero_notin hs]
  · have : j ≠ 0 := by rintro rfl; exact h.zero_notin hs hj
    simp [hj, this]

theorem fpos_append {l l' : List Nat} {j : Nat} (hj : j ∈ 0 :: l) : fpos (l ++ l') j = fpos l j := by
  unfold fpos
  by_cases h0 : j = 0
  · simp [h0]
  · have : j ∈ l := by simpa [h0] using hj
    simp [h0, List.idxOf_append, this]

theorem bSave_spec {s : S} (hs : SInv s) {vs : List Nat} : ∀ (fuel : Nat) (l : List Nat) (out : List Line)
    (f : F) (g : BFun), Denotes s f g → (∀ v, DependsOn g v → v ∈ vs) → Saved s vs l out →
    s.nvars < fuel + lev s f.idx →
    ∃ l' out', bSave fuel s vs (tblOf l, out) f = some (tblOf (l ++ l'), out') ∧ Saved s vs (l ++ l') out' ∧
      f.idx ∈ 0 :: (l ++ l') ∧ ∀ i ∈ l', lev s f.idx ≤ lev s i := by
  intro fuel
  induction fuel with
  | zero => intro l out f g _ _ _ hf; have := lev_le hs f.idx; omega
  | succ fuel ih =>
    intro l out f g hd hv hsv hf
    unfold bSave
    by_cases hz : f = ZERO ∨ f = ONE
    · rw [if_pos hz]
      refine ⟨[], out, by simp, by simpa using hsv, ?_, by simp⟩
      rcases hz with rfl | rfl <;> simp [ZERO, ONE]
    rw [if_neg hz]
    have h0 := idx_ne_of hz
    rw [tblOf_lookup hsv]
    by_cases hin : f.idx ∈ l
    · rw [if_pos hin]
      exact ⟨[], out, by simp, by simpa using hsv, by simp [hin], by simp⟩
    rw [if_neg hin]
    obtain ⟨n, en⟩ := hd.node_of_ne h0
    obtain ⟨gl, gr, dl, dr, hdep⟩ := dependsOn_pos hs hd en
    have hll := lev_below hs (hs.var_lt _ _ en) (hs.below_l _ _ en)
    have hlr := lev_below hs (hs.var_lt _ _ en) (hs.below_r _ _ en)
    rw [lev_some en] at hf ⊢
    simp only [en, Option.bind_eq_bind, Option.bind_some]
    obtain ⟨l1, out1, e1, sv1, m1, le1⟩ := ih l out ⟨false, n.lson⟩ gl dl
      (fun v h => hv v ((hdep v).2 (Or.inr (Or.inl h)))) hsv (by simp only; omega)
    obtain ⟨l2, out2, e2, sv2, m2, le2⟩ := ih (l ++ l1) out1 ⟨false, n.rson.idx⟩ gr dr
      (fun v h => hv v ((hdep v).2 (Or.inr (Or.inr h)))) sv1 (by simp only; omega)
    simp only at m1 m2 le1 le2
    simp only [e1, e2, Option.bind_some]
    have hnot : f.idx ∉ (l ++ l1) ++ l2 := by
      simp only [List.mem_append, not_or]
      refine ⟨⟨hin, fun h => ?_⟩, fun h => ?_⟩
      · have := le1 _ h; rw [lev_some en] at this; omega
      · have := le2 _ h; rw [lev_some en] at this; omega
    have m1' : n.lson ∈ 0 :: ((l ++ l1) ++ l2) := by
      rcases List.mem_cons.1 m1 with h | h
      · rw [h]; simp
      · exact List.mem_cons_of_mem _ (List.mem_append_left _ h)
    have hnew := Saved.snoc sv2 en hnot m1' m2 (hv _ ((hdep _).2 (Or.inl rfl)))
    refine ⟨l1 ++ l2 ++ [f.idx], out2 ++ [Line.node (vs.idxOf n.var) false (fpos (l ++ l1 ++ l2) n.lson)
      n.rson.neg (fpos (l ++ l1 ++ l2) n.rson.idx)], ?_, ?_, ?_, ?_⟩
    · rw [getD_fpos hs sv1 m1, getD_fpos hs sv2 m2, ← fpos_append (l' := l2) m1]
      have : l ++ (l1 ++ l2 ++ [f.idx]) = (l ++ l1 ++ l2) ++ [f.idx] := by simp
      rw [this, tblOf_snoc, tblOf_length]
    · have : l ++ (l1 ++ l2 ++ [f.idx]) = (l ++ l1 ++ l2) ++ [f.idx] := by simp
      rw [this]; exact hnew
    · simp
    · intro i hi
      simp only [List.mem_append, List.mem_singleton] at hi
      rcases hi with (h | h) | rfl
      · have := le1 i h; omega
      · have := le2 i h; omega
      · rw [lev_some en]

theorem saveAll_spec {s : S} (hs : SInv s) {vs : List Nat} : ∀ (fs : List F) (gs : List BFun) (l : List Nat)
    (out : List Line), List.Forall₂ (Denotes s) fs gs → (∀ v, (∃ g ∈ gs, DependsOn g v) → v ∈ vs) →
    Saved s vs l out →
    ∃ l' out', saveAll s vs (tblOf l, out) fs = some (tblOf (l ++ l'), out') ∧ Saved s vs (l ++ l') out' ∧
      ∀ f ∈ fs, f.idx ∈ 0 :: (l ++ l') := by
  intro fs
  induction fs with
  | nil => intro gs l out _ _ h; exact ⟨[], out, by simp [saveAll], by simpa using h, by simp⟩
  | cons f fs ih =>
    intro gs l out h hv hsv
    cases h with
    | @cons _ g _ gs' h1 h2 =>
    obtain ⟨l1, out1, e1, sv1, m1, _⟩ := bSave_spec hs s.fuel l out f g h1
      (fun v h => hv v ⟨g, by simp, h⟩) hsv (by unfold S.fuel; omega)
    obtain ⟨l2, out2, e2, sv2, m2⟩ := ih gs' (l ++ l1) out1 h2
      (fun v ⟨g, hg, h⟩ => hv v ⟨g, List.mem_cons_of_mem _ hg, h⟩) sv1
    refine ⟨l1 ++ l2, out2, ?_, ?_, ?_⟩
    · simp only [saveAll, e1, e2, Option.bind_eq_bind, Option.bind_some, List.append_assoc]
    · rw [← List.append_assoc]; exact sv2
    · intro x hx
      rw [← List.append_assoc]
      rcases List.mem_cons.1 hx with rfl | hx
      · rcases List.mem_cons.1 m1 with h | h
        · rw [h]; simp
        · exact List.mem_cons_of_mem _ (List.mem_append_left _ h)
      · exact m2 x hx

/-! ### Operations on named functions -/

theorem NDen.not {s : S} {f : F} {G : NEnv → Bool} (h : NDen s f G) : NDen s f.not (fun η => !(G η)) := by
  obtain ⟨g, d, e⟩ := h
  exact ⟨_, d.not, fun η => by simp only [e]⟩

theorem NDen.xneg {s : S} {f : F} {G : NEnv → Bool} (b : Bool) (h : NDen s f G) :
    NDen s (F.xneg b f) (fun η => xor b (G η)) := by
  obtain ⟨g, d, e⟩ := h
  exact ⟨_, d.xneg b, fun η => by simp only [e]⟩

theorem nIte_spec {s : S} (hI : Inv s) {i t e : F} {Gi Gt Ge : NEnv → Bool} (hi : NDen s i Gi)
    (ht : NDen s t Gt) (he : NDen s e Ge) :
    ∃ r s', bIte s i t e = some (r, s') ∧ Inv s' ∧ Ext s s' ∧
      NDen s' r (fun η => if Gi η then Gt η else Ge η) := by
  obtain ⟨gi, di, hgi⟩ := hi
  obtain ⟨gt, dt, hgt⟩ := ht
  obtain ⟨ge, de, hge⟩ := he
  obtain ⟨r, s', e1, G1, d1⟩ := bIte_spec hI.str hI.cache di dt de
  refine ⟨r, s', e1, hI.good G1, G1.ext, _, d1, fun η => ?_⟩
  simp only [G1.ext.vname, hgi, hgt, hge]

theorem nVar_spec {s : S} (hI : Inv s) (name : String) :
    ∃ f s', bVar s name = some (f, s') ∧ Inv s' ∧ Keeps s s' ∧ NDen s' f (fun η => η name) := by
  obtain ⟨f, s', e, I, K, _, v, _, hn, hd⟩ := bVar_spec hI name
  exact ⟨f, s', e, I, K, _, hd, fun η => by simp only [hn]⟩

theorem nden_zero (s : S) : NDen s ZERO (fun _ => false) := ⟨_, denotes_zero s, fun _ => rfl⟩

theorem nden_node {s : S} (hs : SInv s) {i : Nat} {n : Node} {G : NEnv → Bool} (e : s.tbl i = some n)
    (h : NDen s ⟨false, i⟩ G) : ∃ Gl Gr, NDen s ⟨false, n.lson⟩ Gl ∧ NDen s ⟨false, n.rson.idx⟩ Gr ∧
      ∀ η, G η = if η (s.vname n.var) then Gl η else xor n.rson.neg (Gr η) := by
  obtain ⟨g, d, hg⟩ := h
  obtain ⟨gl, gr, dl, dr, he⟩ := d.split (n := n) e (idx_ne_zero hs e)
  have dr' := dr.xneg n.rson.neg
  have hx : F.xneg n.rson.neg (sons (⟨false, i⟩ : F) n).2 = ⟨false, n.rson.idx⟩ := by
    apply F.ext' <;> simp [sons, F.xneg_neg, F.xneg_idx]
  rw [hx] at dr'
  refine ⟨_, _, ⟨gl, ?_, fun _ => rfl⟩, ⟨_, dr', fun _ => rfl⟩, fun η => ?_⟩
  · have : (sons (⟨false, i⟩ : F) n).1 = ⟨false, n.lson⟩ := by
      apply F.ext' <;> simp [sons, F.xneg_neg, F.xneg_idx]
    rwa [this] at dl
  · rw [hg, he]
    simp only
    cases n.rson.neg <;> simp

/-! ### Loading -/

theorem loadVars_spec (nm : Nat → String) : ∀ (vs : List Nat) (t : S) (acc : List F) (rest : List Line), Inv t →
    (∀ name r, rest ≠ Line.var name :: r) →
    ∃ fs t', loadVars t acc (vs.map (fun v => Line.var (nm v)) ++ rest) = some (acc ++ fs, rest, t') ∧
      Inv t' ∧ Keeps t t' ∧ List.Forall₂ (fun f v => NDen t' f (fun η => η (nm v))) fs vs := by
  intro vs
  induction vs with
  | nil =>
    intro t acc rest hI hr
    refine ⟨[], t, ?_, hI, Keeps.refl t, List.Forall₂.nil⟩
    simp only [List.map_nil, List.nil_append, List.append_nil]
    unfold loadVars
    split
    · next name r => exact absurd rfl (hr name _)
    · rfl
  | cons v vs ih =>
    intro t acc rest hI hr
    obtain ⟨f, t1, e1, I1, K1, d1⟩ := nVar_spec hI (nm v)
    obtain ⟨fs, t2, e2, I2, K2, d2⟩ := ih t1 (acc ++ [f]) rest I1 hr
    refine ⟨f :: fs, t2, ?_, I2, K1.trans K2, List.Forall₂.cons (d1.keeps I1 K2) d2⟩
    simp only [List.map_cons, List.cons_append, loadVars, e1, Option.bind_eq_bind, Option.bind_some, e2]
    simp

theorem loadVars_via : ∀ (names : List String) (t : S) (acc vm : List F) (rest rest' : List Line) (t' : S),
    loadVars t acc (names.map Line.var ++ rest) = some (vm, rest', t') → (∀ name r, rest ≠ Line.var name :: r) →
    Via (fun n => n ∈ names) t t'
  | [], t, acc, vm, rest, rest', t', h, hr => by
    simp only [List.map_nil, List.nil_append] at h
    unfold loadVars at h
    split at h
    · next name r => exact absurd rfl (hr name _)
    · simp only [Option.some.injEq, Prod.mk.injEq] at h
      rw [h.2.2]; exact Via.refl _
  | name :: names, t, acc, vm, rest, rest', t', h, hr => by
    simp only [List.map_cons, List.cons_append, loadVars, Option.bind_eq_bind] at h
    rw [Option.bind_eq_some_iff] at h
    obtain ⟨⟨b, t1⟩, e1, h⟩ := h
    exact Via.var (by simp) e1 ((loadVars_via names t1 _ vm rest rest' t' h hr).mono (fun n hn => by simp [hn]))

theorem loadNodes_spec {s : S} (hs : SInv s) {vs : List Nat} {vm : List F} {t : S} (hI : Inv t)
    (hvm : List.Forall₂ (fun f v => NDen t f (fun η => η (s.vname v))) vm vs) {l : List Nat}
    {out : List Line} (h : Saved s vs l out) :
    ∃ work t', (∀ rest, loadNodes vm t [ZERO] (out ++ rest) = loadNodes vm t' (ZERO :: work) rest) ∧ Inv t' ∧
      Ext t t' ∧ List.Forall₂ (fun f i => ∀ G, NDen s ⟨false, i⟩ G → NDen t' f G) work l := by
  induction h with
  | nil => exact ⟨[], t, fun _ => rfl, hI, Ext.refl t, List.Forall₂.nil⟩
  | @snoc l out i n hsv en hni hl hr hv ih =>
    obtain ⟨work, t1, e1, I1, K1, d1⟩ := ih
    -- the son with file index `fpos l j`
    have son : ∀ j, j ∈ 0 :: l → ∃ f, (ZERO :: work)[fpos l j]? = some f ∧
        ∀ G, NDen s ⟨false, j⟩ G → NDen t1 f G := by
      intro j hj
      unfold fpos
      by_cases hj0 : j = 0
      · subst hj0
        refine ⟨ZERO, by simp, fun G hG => ?_⟩
        rw [nden_det hG (nden_zero s)]; exact nden_zero t1
      · have hjl : j ∈ l := by simpa [hj0] using hj
        have hlt : l.idxOf j < l.length := List.idxOf_lt_length_of_mem hjl
        have hlen := List.Forall₂.length_eq d1
        have := List.Forall₂.get d1 (i := l.idxOf j) (by omega) hlt
        refine ⟨work[l.idxOf j]'(by omega), ?_, ?_⟩
        · rw [if_neg hj0, List.getElem?_cons_succ, List.getElem?_eq_getElem]
        · intro G hG
          simp only [List.get_eq_getElem, List.getElem_idxOf] at this
          exact this G hG
    obtain ⟨fl, el, dl⟩ := son _ hl
    obtain ⟨fr, er, dr⟩ := son _ hr
    have hvlt : vs.idxOf n.var < vs.length := List.idxOf_lt_length_of_mem hv
    have hvlen := List.Forall₂.length_eq hvm
    have ev : vm[vs.idxOf n.var]? = some (vm[vs.idxOf n.var]'(by omega)) := List.getElem?_eq_getElem _
    have dv := List.Forall₂.get hvm (i := vs.idxOf n.var) (by omega) hvlt
    simp only [List.get_eq_getElem, List.getElem_idxOf] at dv
    obtain ⟨G, dG⟩ : ∃ G, NDen s ⟨false, i⟩ G := by
      obtain ⟨g, d⟩ := denotes_exists hs (f := ⟨false, i⟩) (Or.inr ⟨n, en⟩)
      exact ⟨_, g, d, fun _ => rfl⟩
    obtain ⟨Gl, Gr, dGl, dGr, hG⟩ := nden_node hs en dG
    obtain ⟨b, t2, e2, I2, K2, d2⟩ := nIte_spec I1 (dv.keeps hI K1.keeps) ((dl _ dGl).xneg false)
      ((dr _ dGr).xneg n.rson.neg)
    refine ⟨work ++ [b], t2, ?_, I2, K1.trans K2, ?_⟩
    · intro rest
      rw [List.append_assoc, e1]
      simp only [List.cons_append, List.nil_append, loadNodes, ev, el, er, e2, Option.bind_eq_bind,
        Option.bind_some]
    · refine List.rel_append (R := fun f i => ∀ G, NDen s ⟨false, i⟩ G → NDen t2 f G)
        (d1.imp fun f j h G hG => (h G hG).keeps I1 K2.keeps) (List.Forall₂.cons ?_ List.Forall₂.nil)
      intro G' hG'
      rw [nden_det hG' dG]
      convert d2 using 1
      funext η
      rw [hG]; simp

theorem saveLoad_spec {s t : S} (hI : Inv s) (hT : Inv t) {roots : List F} {Gs : List (NEnv → Bool)}
    (h : List.Forall₂ (NDen s) roots Gs) :
    ∃ file, saveBDDs s roots = some file ∧
      ∃ rs t', loadBDDs t file = some (rs, t') ∧ Inv t' ∧ Keeps t t' ∧ List.Forall₂ (NDen t') rs Gs ∧
        Via (fun n => ∃ v, v < s.nvars ∧ s.vname v = n) t t' := by
  obtain ⟨gs, h1, h2⟩ := nden_list h
  obtain ⟨seen, wid, e1, i1⟩ := sizeAll_spec hI.str roots gs [] (fun _ => 0) h1 (by intro f hf; simp at hf)
  obtain ⟨vs, e2, hp, hm⟩ := usedVars_spec hI.str wid
  have hsup : ∀ v, (∃ g ∈ gs, DependsOn g v) → v ∈ vs := by
    rintro v ⟨g, hg, hd⟩
    obtain ⟨f, _, d⟩ := forall₂_mem_right h1 hg
    exact (hm v).2 ⟨denotes_var_lt hI.str d hd, (i1 v).2 (Or.inr ⟨g, hg, hd⟩)⟩
  obtain ⟨l, out, e3, sv, hroots⟩ := saveAll_spec hI.str roots gs [] [] h1 hsup Saved.nil
  simp only [List.nil_append] at e3 sv hroots
  have e3' : saveAll s vs ([], []) roots = some (tblOf l, out) := e3
  refine ⟨_, by simp only [saveBDDs, e1, e2, e3', Option.bind_eq_bind, Option.bind_some]; rfl, ?_⟩
  rw [List.append_assoc]
  have notvar : ∀ name r, out ++ roots.map (fun f => Line.root f.neg (((tblOf l).lookup f.idx).getD 0)) ≠
      Line.var name :: r := by
    intro name r
    have ho : ∀ x ∈ out, ∀ name, x ≠ Line.var name := by
      clear * - sv
      induction sv with
      | nil => simp
      | snoc _ _ _ _ _ _ ih =>
        intro x hx name
        rcases List.mem_append.1 hx with hx | hx
        · exact ih x hx name
        · rw [List.mem_singleton.1 hx]; simp
    cases hout : out with
    | nil => cases roots <;> simp
    | cons x out' =>
      intro he
      rw [List.cons_append, List.cons.injEq] at he
      exact ho x (by rw [hout]; simp) name he.1
  obtain ⟨vm, t1, e4, I1, K1, d1⟩ := loadVars_spec s.vname vs t [] _ hT notvar
  obtain ⟨work, t2, e5, I2, K2, d2⟩ := loadNodes_spec hI.str I1 d1 sv
  have e6 : ∀ w, loadNodes vm t2 w (roots.map (fun f => Line.root f.neg (((tblOf l).lookup f.idx).getD 0))) =
      some (w, roots.map (fun f => Line.root f.neg (((tblOf l).lookup f.idx).getD 0)), t2) := by
    intro w
    cases roots <;> simp [loadNodes]
  have e7 : ∃ rs, loadRoots (ZERO :: work) (roots.map (fun f => Line.root f.neg (((tblOf l).lookup f.idx).getD 0))) =
      some rs ∧ List.Forall₂ (NDen t2) rs Gs := by
    clear e1 i1 hsup e3 e3' notvar e4 e5 e6 h1 h2
    induction h with
    | nil => exact ⟨[], rfl, List.Forall₂.nil⟩
    | @cons f G roots Gs hG _ ih =>
      obtain ⟨rs, q1, q2⟩ := ih (fun f hf => hroots f (List.mem_cons_of_mem _ hf))
      have hf := hroots f (by simp)
      have : ∃ x, (ZERO :: work)[((tblOf l).lookup f.idx).getD 0]? = some x ∧
          ∀ G, NDen s ⟨false, f.idx⟩ G → NDen t2 x G := by
        rw [getD_fpos hI.str sv hf]
        unfold fpos
        by_cases hj0 : f.idx = 0
        · rw [hj0]
          refine ⟨ZERO, by simp, fun G hG => ?_⟩
          rw [nden_det hG (nden_zero s)]; exact nden_zero t2
        · have hjl : f.idx ∈ l := by simpa [hj0] using hf
          have hlt : l.idxOf f.idx < l.length := List.idxOf_lt_length_of_mem hjl
          have hlen := List.Forall₂.length_eq d2
          have := List.Forall₂.get d2 (i := l.idxOf f.idx) (by omega) hlt
          refine ⟨work[l.idxOf f.idx]'(by omega), ?_, ?_⟩
          · rw [if_neg hj0, List.getElem?_cons_succ, List.getElem?_eq_getElem]
          · intro G hG
            simp only [List.get_eq_getElem, List.getElem_idxOf] at this
            exact this G hG
      obtain ⟨x, ex, dx⟩ := this
      refine ⟨F.xneg f.neg x :: rs, ?_, List.Forall₂.cons ?_ q2⟩
      · simp only [List.map_cons, loadRoots, ex, q1, Option.bind_eq_bind, Option.bind_some]
      · have dp : NDen s ⟨false, f.idx⟩ (fun η => xor f.neg (G η)) := by
          have := hG.xneg f.neg
          rwa [xneg_self_neg] at this
        convert (dx _ dp).xneg f.neg using 1
        funext η
        cases f.neg <;> simp
  obtain ⟨rs, e7, d7⟩ := e7
  have via := loadVars_via (vs.map s.vname) t [] vm _ _ t1 (by
    rw [List.map_map]; exact e4) notvar
  refine ⟨rs, t2, ?_, I2, K1.trans K2.keeps, d7, (via.mono ?_).trans (Via.ext K2 (Via.refl _))⟩
  swap
  · intro n hn
    obtain ⟨v, hv, rfl⟩ := List.mem_map.1 hn
    exact ⟨v, ((hm v).1 hv).1, rfl⟩
  simp only [loadBDDs, e4, List.nil_append, Option.bind_eq_bind, Option.bind_some, e5, e6, e7]

end Voss.Bdd
