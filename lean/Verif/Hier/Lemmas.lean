import Verif.Vec.MergeProps
import Verif.Vec.ExtractProps
import Verif.Hier.Spec
import Mathlib.Data.List.Nodup

namespace Voss.Hier
open Vec

/-! ### Writing one name for every range -/

/-- The vectors with one range in each group. -/
def contigVecs : Vec → List Vec
  | [] => [[]]
  | .txt s :: v => (contigVecs v).map (.txt s :: ·)
  | .idx rs :: v => rs.flatMap fun r => (contigVecs v).map (.idx [r] :: ·)

theorem mapM_show : ∀ (rs : List Rng) (ss : List Name), rs.mapM showRng = some ss → ss = rs.map Rng.text
  | [], ss, h => by simpa using h.symm
  | r :: rs, ss, h => by
    rw [List.mapM_cons] at h
    cases h1 : showRng r with
    | none => simp [h1] at h
    | some a =>
      cases h2 : rs.mapM showRng with
      | none => simp [h1, h2] at h
      | some b =>
        simp [h1, h2] at h
        rw [← h, showRng_text h1, mapM_show rs b h2]
        rfl

theorem showContig_eq : ∀ (v : Vec) (l : List Name), showContig v = some l → l = (contigVecs v).map vecText
  | [], l, h => by simp [showContig] at h; subst h; rfl
  | .txt s :: v, l, h => by
    simp only [showContig] at h
    cases h1 : showContig v with
    | none => simp [h1] at h
    | some a =>
      simp only [h1, Option.bind_eq_bind, Option.bind_some, Option.some.injEq] at h
      rw [← h, showContig_eq v a h1]
      simp [contigVecs, vecText_cons, Seg.text, Function.comp_def]
  | .idx rs :: v, l, h => by
    simp only [showContig] at h
    cases h1 : showContig v with
    | none => simp [h1] at h
    | some a =>
      cases h2 : rs.mapM showRng with
      | none => simp [h1, h2] at h
      | some b =>
        simp only [h1, h2, Option.bind_eq_bind, Option.bind_some, Option.some.injEq] at h
        rw [← h, showContig_eq v a h1, mapM_show rs b h2]
        simp [contigVecs, vecText_cons, Seg.text, Function.comp_def, rngsText, List.map_flatMap, List.flatMap_map]

theorem showContigAll_eq : ∀ (vs : List Vec) (l : List Name), showContigAll vs = some l →
    l = (vs.flatMap contigVecs).map vecText
  | [], l, h => by simp [showContigAll] at h; subst h; rfl
  | v :: vs, l, h => by
    simp only [showContigAll] at h
    cases h1 : showContig v with
    | none => simp [h1] at h
    | some a =>
      cases h2 : showContigAll vs with
      | none => simp [h1, h2] at h
      | some b =>
        simp only [h1, h2, Option.bind_eq_bind, Option.bind_some, Option.some.injEq] at h
        rw [← h, showContig_eq v a h1, showContigAll_eq vs b h2]
        simp

theorem contig_shape : ∀ (v w : Vec), w ∈ contigVecs v → shape w = shape v
  | [], w, h => by simp [contigVecs] at h; subst h; rfl
  | .txt s :: v, w, h => by
    simp only [contigVecs, List.mem_map] at h
    obtain ⟨x, hx, rfl⟩ := h
    rw [shape_txt, shape_txt, contig_shape v x hx]
  | .idx rs :: v, w, h => by
    simp only [contigVecs, List.mem_flatMap, List.mem_map] at h
    obtain ⟨r, hr, x, hx, rfl⟩ := h
    rw [shape_idx, shape_idx, contig_shape v x hx]

theorem shape_nil {w : Vec} (h : shape w = []) : w = [] := by
  cases w with
  | nil => rfl
  | cons x w => simp [shape] at h

theorem shape_txt_inv {w v : Vec} {s : List Char} (h : shape w = .txt s :: v) : ∃ w', w = .txt s :: w' ∧ shape w' = v := by
  cases w with
  | nil => simp [shape] at h
  | cons x w =>
    cases x with
    | txt t => rw [shape_txt] at h; simp at h; exact ⟨w, by rw [h.1], h.2⟩
    | idx t => rw [shape_idx] at h; simp at h

theorem shape_idx_inv {w v : Vec} (h : shape w = .idx [] :: v) : ∃ r w', w = .idx r :: w' ∧ shape w' = v := by
  cases w with
  | nil => simp [shape] at h
  | cons x w =>
    cases x with
    | txt t => rw [shape_txt] at h; simp at h
    | idx t => rw [shape_idx] at h; simp at h; exact ⟨t, w, rfl, h⟩

theorem contig_wf : ∀ (v w : Vec), w ∈ contigVecs v → WF v → WF w
  | [], w, h, _ => by simp [contigVecs] at h; subst h; trivial
  | .txt s :: v, w, h, hw => by
    simp only [contigVecs, List.mem_map] at h
    obtain ⟨x, hx, rfl⟩ := h
    have hsh := contig_shape v x hx
    refine ⟨?_, contig_wf v x hx hw.2⟩
    rcases hw.1 with h | ⟨h1, h2⟩
    · exact .inl h
    · refine .inr ⟨h1, ?_⟩
      rcases h2 with rfl | ⟨h3, rs, v', rfl⟩
      · exact .inl (shape_nil hsh)
      · rw [shape_idx] at hsh
        obtain ⟨r, w', rfl, _⟩ := shape_idx_inv hsh
        exact .inr ⟨h3, r, w', rfl⟩
  | .idx rs :: v, w, h, hw => by
    simp only [contigVecs, List.mem_flatMap, List.mem_map] at h
    obtain ⟨r, hr, x, hx, rfl⟩ := h
    have hsh := contig_shape v x hx
    obtain ⟨h1, h2, ⟨t, v', rfl⟩, h4⟩ := hw
    refine ⟨by simp, by simpa using h2 r hr, ?_, contig_wf _ x hx h4⟩
    rw [shape_txt] at hsh
    obtain ⟨w', rfl, _⟩ := shape_txt_inv hsh
    exact ⟨t, w', rfl⟩

theorem contig_inners : ∀ (v w : Vec), w ∈ contigVecs v → Inners v → Inners w
  | [], w, h, _ => by simp [contigVecs] at h; subst h; trivial
  | .txt s :: v, w, h, hw => by
    simp only [contigVecs, List.mem_map] at h
    obtain ⟨x, hx, rfl⟩ := h
    exact contig_inners v x hx hw
  | .idx rs :: v, w, h, hw => by
    simp only [contigVecs, List.mem_flatMap, List.mem_map] at h
    obtain ⟨r, hr, x, hx, rfl⟩ := h
    exact ⟨by simpa using hw.1 r hr, contig_inners v x hx hw.2⟩

theorem contig_oneDim {v w : Vec} (h : w ∈ contigVecs v) (ho : OneDim v) : OneDim w := by
  have hs := contig_shape v w h
  have : ∀ v : Vec, (v.filter Seg.isIdx).length = ((shape v).filter Seg.isIdx).length := by
    intro v
    induction v with
    | nil => rfl
    | cons x v ih =>
      cases x with
      | txt s => rw [shape_txt]; simpa [List.filter_cons, Seg.isIdx] using ih
      | idx rs => rw [shape_idx]; simpa [List.filter_cons, Seg.isIdx] using ih
  unfold OneDim at *
  rw [this w, hs, ← this v]
  exact ho

theorem nostar_shape {v : Vec} : NoStar (shape v) ↔ NoStar v := by
  induction v with
  | nil => exact Iff.rfl
  | cons x v ih =>
    cases x with
    | txt s => rw [shape_txt]; exact and_congr Iff.rfl ih
    | idx rs => rw [shape_idx]; exact ih

theorem contig_good {v w : Vec} (h : w ∈ contigVecs v) (hg : Good v) : Good w := by
  have hs := contig_shape v w h
  refine ⟨contig_wf v w h hg.wf, contig_inners v w h hg.inner,
    nostar_shape.1 (by rw [hs]; exact nostar_shape.2 hg.nostar), ?_⟩
  intro hc
  obtain ⟨s, rfl, h1⟩ := hg.const (by rw [← isConst_shape hs]; exact hc)
  simp [contigVecs] at h
  exact ⟨s, h, h1⟩

theorem expand_noIdx : ∀ v : Vec, (∀ rs, Seg.idx rs ∉ v) → expand v = [v] ∧ contigVecs v = [v]
  | [], _ => ⟨rfl, rfl⟩
  | .txt s :: v, h => by
    obtain ⟨h1, h2⟩ := expand_noIdx v (fun rs hr => h rs (by simp [hr]))
    simp [expand, contigVecs, h1, h2]
  | .idx rs :: v, h => absurd List.mem_cons_self (h rs)

theorem contig_expand : ∀ v : Vec, OneDim v → (contigVecs v).flatMap expand = expand v
  | [], _ => by simp [contigVecs, expand]
  | .txt s :: v, h => by
    have ih := contig_expand v (by unfold OneDim at *; simpa [List.filter_cons, Seg.isIdx] using h)
    simp only [contigVecs, expand, List.flatMap_map]
    rw [← ih, List.map_flatMap]
  | .idx rs :: v, h => by
    have hno : ∀ s, Seg.idx s ∉ v := by
      intro s hs
      unfold OneDim at h
      simp only [List.filter_cons, Seg.isIdx, if_true, List.length_cons] at h
      have : 0 < (v.filter Seg.isIdx).length := List.length_pos_of_mem (List.mem_filter.2 ⟨hs, rfl⟩)
      omega
    obtain ⟨h1, h2⟩ := expand_noIdx v hno
    simp only [contigVecs, expand, h1, h2, List.map_cons, List.map_nil, List.flatMap_assoc, List.flatMap_cons,
      List.flatMap_nil, List.append_nil]

theorem contig_vbits {v : Vec} (ho : OneDim v) (hg : Good v) : (contigVecs v).flatMap vbits = vbits v := by
  cases hc : isConst v with
  | true =>
    obtain ⟨s, rfl, _⟩ := hg.const hc
    simp [contigVecs]
  | false =>
    rw [vbits_nonconst hc, ← contig_expand v ho, List.map_flatMap]
    refine List.flatMap_congr fun w hw => ?_
    exact vbits_nonconst (by rw [isConst_shape (contig_shape v w hw)]; exact hc)

/-- **Merging into ranges keeps the bits in order.** -/
theorem mergeContig_spec {names out : List Name} (h : ∀ s ∈ names, ∃ v, Good v ∧ OneDim v ∧ vecText v = s)
    (hm : mergeContig names = some out) : mdExpandAll out = mdExpandAll names := by
  obtain ⟨vs, h1, h2, h3⟩ := splitAll_good oneDim_norm names h
  obtain ⟨ws, e1, e2, e3⟩ := mergeVecs_spec orderInv h2
  unfold mergeContig at hm
  simp only [h1, e1, Option.bind_eq_bind, Option.bind_some] at hm
  rw [showContigAll_eq ws out hm, h3, mdExpandAll_good]
  · rw [← e3, List.flatMap_assoc]
    congr 1
    exact List.flatMap_congr fun w hw => contig_vbits (e2 w hw).2 (e2 w hw).1
  · intro w hw
    simp only [List.mem_flatMap] at hw
    obtain ⟨v, hv, hw⟩ := hw
    exact contig_good hw (e2 v hv).1

/-! ### Bits -/

/-- The names that merging keeps in order. -/
def Fine (s : Name) : Prop := ∃ v, Good v ∧ OneDim v ∧ vecText v = s

theorem fine_const {s : Name} (h : IsConstant s) : Fine s :=
  proper1_good (.const h)

theorem selects_shape : ∀ {v b : Vec}, Selects v b → shape b = shape v := by
  intro v b h
  induction h with
  | nil => rfl
  | txt s v b _ ih => rw [shape_txt, shape_txt, ih]
  | idx rs v b r i _ _ _ ih => rw [shape_idx, shape_idx, ih]

theorem oneDim_shape {v : Vec} : OneDim (shape v) ↔ OneDim v := by
  have : ∀ v : Vec, (v.filter Seg.isIdx).length = ((shape v).filter Seg.isIdx).length := by
    intro v
    induction v with
    | nil => rfl
    | cons x v ih =>
      cases x with
      | txt s => rw [shape_txt]; simpa [List.filter_cons, Seg.isIdx] using ih
      | idx rs => rw [shape_idx]; simpa [List.filter_cons, Seg.isIdx] using ih
  unfold OneDim
  rw [← this]

theorem selects_inners : ∀ {v b : Vec}, Selects v b → Inners v → Inners b := by
  intro v b h
  induction h with
  | nil => exact id
  | txt s v b _ ih => exact ih
  | idx rs v b r i hr hi _ ih =>
    intro hv
    refine ⟨?_, ih hv.2⟩
    obtain ⟨h1, h2⟩ := hv.1 r hr
    simp only [List.mem_singleton, forall_eq, Inner]
    omega

theorem edge_inners : ∀ v : Vec, Inners v → edge v = false
  | [], _ => rfl
  | .txt s :: v, h => edge_inners v h
  | .idx rs :: v, h => by
    simp only [edge, Bool.or_eq_false_iff]
    refine ⟨?_, edge_inners v h.2⟩
    rw [List.any_eq_false]
    intro r hr
    rw [inner_edge (h.1 r hr)]
    simp

theorem fine_bits {s : Name} (h : Fine s) : ∃ l, mdExpand s = some l ∧ ∀ b ∈ l, Fine b := by
  obtain ⟨v, hg, ho, rfl⟩ := h
  refine ⟨vbits v, good_expand hg, ?_⟩
  intro b hb
  cases hc : isConst v with
  | true =>
    obtain ⟨s, rfl, cs, rfl, h1, h2⟩ := hg.const hc
    simp only [vbits, List.mem_map] at hb
    obtain ⟨c, hc, rfl⟩ := hb
    exact fine_const ⟨[c], rfl, by simp, by simpa using h2 c hc⟩
  | false =>
    rw [vbits_nonconst hc] at hb
    simp only [List.mem_map] at hb
    obtain ⟨w, hw, rfl⟩ := hb
    have hs := (mem_expand v w).1 hw
    have hsh := selects_shape hs
    refine ⟨w, ⟨(selects_bit hs hg.wf (edge_inners v hg.inner)).2, selects_inners hs hg.inner,
      nostar_shape.1 (by rw [hsh]; exact nostar_shape.2 hg.nostar), ?_⟩, oneDim_shape.1 (by
        rw [hsh]; exact oneDim_shape.2 ho), rfl⟩
    intro hcw
    rw [isConst_shape hsh, hc] at hcw
    simp at hcw

end Voss.Hier
