import Verif.Vset.Zip

/-! Lemmas for `vec_zip`: merging consecutive bits of one name gives one name. -/

namespace Voss.Vset

open Vec

theorem mergeLoop_single : ∀ (n : Nat) (a : Vec) (nc alts : Nat) (out : List Vec),
    mergeLoop n [] [a] nc alts = some out → out.length = 1
  | 0, _, _, _, _, h => by simp [mergeLoop] at h
  | n + 1, a, nc, alts, out, h => by
    rw [mergeLoop.eq_def] at h
    simp only [List.length_singleton, if_true, List.nil_append] at h
    split at h
    · simp at h; subst h; rfl
    · split at h
      · exact mergeLoop_single n _ _ _ _ h
      · split at h
        · exact mergeLoop_single n _ _ _ _ h
        · exact mergeLoop_single n _ _ _ _ h
        · exact mergeLoop_single n _ _ _ _ h
        · simp at h

/-- Each vector is joined with what came before. -/
def Chain : Vec → List Vec → Prop
  | _, [] => True
  | a, b :: post => ((isConst a && isConst b) = true ∧ Chain (joinConst a b) post) ∨
      ((isConst a && isConst b) = false ∧ sig a = sig b ∧ ∃ c d, joinVec a b = .join c d ∧ Chain c post)

theorem mergeLoop_chain : ∀ (n : Nat) (a : Vec) (post : List Vec) (alts : Nat) (out : List Vec),
    post.length + 1 ≤ alts → Chain a post → mergeLoop n [] (a :: post) 0 alts = some out → out.length = 1
  | n, a, [], alts, out, _, _, h => mergeLoop_single n a 0 alts out h
  | 0, _, _ :: _, _, _, _, _, h => by simp [mergeLoop] at h
  | n + 1, a, b :: post, alts, out, hl, hc, h => by
    rw [mergeLoop.eq_def] at h
    simp only [List.length_cons] at hl
    have h1 : ¬ ¬ (alts > 1 ∧ 0 < alts) := by omega
    have h2 : ¬ ((a :: b :: post).length = 1) := by simp
    simp only [if_neg h1, if_neg h2] at h
    rcases hc with ⟨e, hc⟩ | ⟨e, hs, c, d, hj, hc⟩
    · rw [if_pos e] at h
      exact mergeLoop_chain n _ post _ out (by omega) hc h
    · rw [if_neg (by simp [e]), if_neg (by simpa using hs), hj] at h
      exact mergeLoop_chain n c post _ out (by split <;> omega) hc h

theorem mergeVecs_chain {a : Vec} {post out : List Vec} (hc : Chain a post) (h : mergeVecs (a :: post) = some out) :
    out.length = 1 :=
  mergeLoop_chain _ a post _ out (Nat.le_refl _) hc h

theorem joinVec_at (p : Vec) {r r' : List Rng} (q : Vec) (h : r ≠ r') :
    joinVec (p ++ .idx r :: q) (p ++ .idx r' :: q) = .join (p ++ .idx (glue r r').1 :: q) (glue r r').2 := by
  induction p with
  | nil => simp [joinVec, h, sameRest_self]
  | cons x p ih => cases x <;> simp [joinVec, ih, Join.cons]

theorem chain_idx (p q : Vec) (hc : ∀ r, isConst (p ++ .idx r :: q) = false) : ∀ (is : List Int) (r : List Rng),
    (r.flatMap Rng.bits ++ is).Nodup → Chain (p ++ .idx r :: q) (is.map fun i => p ++ .idx [⟨i, i⟩] :: q)
  | [], _, _ => trivial
  | i :: is, r, h => by
    refine .inr ⟨by rw [hc r]; rfl, ?_, _, _, joinVec_at p q ?_, chain_idx p q hc is _ ?_⟩
    · rw [← sig_shape, shape_replace p r [⟨i, i⟩] q, sig_shape]
    · rintro rfl
      simp [bits_single] at h
    · rw [glue_bits]
      simpa [bits_single] using h

theorem chain_const : ∀ (cs ds : List Char), Chain [.txt ('0' :: 'b' :: ds)] (cs.map fun c => [.txt ['0', 'b', c]])
  | [], _ => trivial
  | c :: cs, ds => .inl ⟨rfl, by simpa [joinConst] using chain_const cs (ds ++ [c])⟩

theorem oneDim_cases : ∀ v : Vec, OneDim v → (∀ s, Seg.idx s ∉ v) ∨
    ∃ p r q, v = p ++ .idx r :: q ∧ (∀ s, Seg.idx s ∉ p) ∧ ∀ s, Seg.idx s ∉ q
  | [], _ => .inl (by simp)
  | .txt t :: v, h => by
    rcases oneDim_cases v (by simpa [OneDim, List.filter_cons, Seg.isIdx] using h) with e | ⟨p, r, q, rfl, e1, e2⟩
    · exact .inl (by simpa using e)
    · exact .inr ⟨.txt t :: p, r, q, rfl, by simpa using e1, e2⟩
  | .idx r :: v, h => by
    refine .inr ⟨[], r, v, rfl, by simp, ?_⟩
    intro s hs
    have : 0 < (v.filter Seg.isIdx).length := List.length_pos_of_mem (List.mem_filter.2 ⟨hs, rfl⟩)
    simp only [OneDim, List.filter_cons, Seg.isIdx, if_true, List.length_cons] at h
    omega

theorem expand_free : ∀ v : Vec, (∀ s, Seg.idx s ∉ v) → expand v = [v]
  | [], _ => rfl
  | .txt t :: v, h => by simp [expand, expand_free v (fun s hs => h s (by simp [hs]))]
  | .idx r :: v, h => absurd List.mem_cons_self (h r)

theorem expand_one : ∀ (p : Vec) (r : List Rng) (q : Vec), (∀ s, Seg.idx s ∉ p) → (∀ s, Seg.idx s ∉ q) →
    expand (p ++ .idx r :: q) = (r.flatMap Rng.bits).map fun i => p ++ .idx [⟨i, i⟩] :: q
  | [], r, q, _, hq => by
    simp only [List.nil_append, expand, expand_free q hq, List.map_cons, List.map_nil, List.map_flatMap]
    congr 1; funext x
    induction x.bits with
    | nil => rfl
    | cons i l ih => simpa using ih
  | .txt t :: p, r, q, hp, hq => by
    simp only [List.cons_append, expand, expand_one p r q (fun s hs => hp s (by simp [hs])) hq, List.map_map]
    rfl
  | .idx s :: p, r, q, hp, _ => absurd List.mem_cons_self (hp s)

theorem norm_bit {v w : Vec} (h : Selects v w) : norm w = w := by
  induction h with
  | nil => rfl
  | txt s v b _ ih => rw [norm_cons_txt, ih]
  | idx rs v b r i _ _ _ ih => rw [norm_cons_idx, ih]; rfl

theorem splitAll_texts (ws : List Vec) (h : ∀ w ∈ ws, WF w ∧ norm w = w) : splitAll (ws.map vecText) = some ws := by
  induction ws with
  | nil => rfl
  | cons w ws ih =>
    have := h w List.mem_cons_self
    simp [splitAll, split_text this.1, this.2, ih (fun x hx => h x (List.mem_cons_of_mem _ hx))]

theorem mdMerge_one {a : Vec} {post : List Vec} {vs : List (List Char)} (h : ∀ w ∈ a :: post, WF w ∧ norm w = w)
    (hc : Chain a post) (hm : mdMerge ((a :: post).map vecText) = some vs) : vs.length = 1 := by
  unfold mdMerge at hm
  rw [splitAll_texts _ h] at hm
  simp only [Option.bind_eq_bind, Option.bind_some, Option.bind_eq_some_iff] at hm
  obtain ⟨out, h1, h2⟩ := hm
  rw [showAll_text _ _ h2, List.length_map]
  exact mergeVecs_chain hc h1

/-- A part of the bits of a name is merged to one name. -/
theorem merge_part {v : Vec} (hv : Good v) (h1 : OneDim v) (hn : isConst v = true ∨ (vbits v).Nodup)
    {l vs : List (List Char)} (hl : l.Sublist (vbits v)) (hm : mdMerge l = some vs) : vs.length ≤ 1 := by
  cases l with
  | nil => simp [mdMerge, splitAll, mergeVecs, showAll] at hm; subst hm; simp
  | cons b l =>
    refine Nat.le_of_eq ?_
    cases hc : isConst v with
    | true =>
      obtain ⟨s, rfl, cs, rfl, hne, hd⟩ := hv.const hc
      simp only [vbits] at hl
      obtain ⟨ds, hds, e⟩ := List.sublist_map_iff.1 hl
      cases ds with
      | nil => simp at e
      | cons d ds =>
        have e' : b :: l = (([.txt ['0', 'b', d]] : Vec) :: ds.map fun c => [.txt ['0', 'b', c]]).map vecText := by
          rw [e]; simp [vecText, Seg.text]
        rw [e'] at hm
        refine mdMerge_one ?_ (by simpa using chain_const ds [d]) hm
        intro w hw
        have : ∃ c ∈ d :: ds, w = [.txt ['0', 'b', c]] := by
          simp only [List.mem_cons, List.mem_map] at hw
          rcases hw with rfl | ⟨c, hc, rfl⟩
          · exact ⟨d, List.mem_cons_self, rfl⟩
          · exact ⟨c, List.mem_cons_of_mem _ hc, rfl⟩
        obtain ⟨c, hcm, rfl⟩ := this
        exact ⟨(good_const ⟨[c], rfl, by simp, by simpa using hd c (hds.subset hcm)⟩).wf, rfl⟩
    | false =>
      have hn := hn.resolve_left (by simp [hc])
      rw [vbits_nonconst hc] at hl hn
      have hw : ∀ w ∈ expand v, WF w ∧ norm w = w := fun w hw =>
        ⟨(selects_bit ((mem_expand _ _).1 hw) hv.wf (edge_good v hv.inner)).2, norm_bit ((mem_expand _ _).1 hw)⟩
      rcases oneDim_cases v h1 with e | ⟨p, r, q, rfl, hp, hq⟩
      · rw [expand_free v e] at hl hw
        have : b :: l = [v].map vecText := by
          refine hl.eq_of_length ?_
          have := hl.length_le
          simp at this ⊢; exact this
        rw [this] at hm
        exact mdMerge_one hw trivial hm
      · rw [expand_one p r q hp hq] at hl hn hw
        rw [List.map_map] at hl hn
        obtain ⟨is, his, e⟩ := List.sublist_map_iff.1 hl
        have hnd : (r.flatMap Rng.bits).Nodup := (List.pairwise_map.1 hn).imp fun h e => h (by rw [e])
        cases is with
        | nil => simp at e
        | cons i is =>
          have e' : b :: l = ((p ++ .idx [⟨i, i⟩] :: q) :: is.map fun i => p ++ .idx [⟨i, i⟩] :: q).map vecText := by
            rw [e]; simp
          rw [e'] at hm
          refine mdMerge_one ?_ (chain_idx p q ?_ is [⟨i, i⟩] ?_) hm
          · intro w hw'
            rw [← List.map_cons (f := fun i => p ++ .idx [⟨i, i⟩] :: q)] at hw'
            exact hw w ((his.map _).subset hw')
          · intro r'
            rw [← isConst_shape (shape_replace p r r' q)]; exact hc
          · simpa [bits_single] using hnd.sublist his

end Voss.Vset
