import Verif.Vec.ExtractLemmas

/-!
C72: extracting vectors keeps the set of bits.
-/
namespace Voss.Vec

/-- **Extraction keeps the set of bits**, in whatever order equal names are sorted.  Missing: groups of several ranges
that are not written from the highest index down. -/
theorem c72_bits_partial (sort : List Vec → List Vec) (hsort : ∀ l, (sort l).Perm l) {names out : List (List Char)}
    (h : ∀ s ∈ names, ProperE s) (hm : mdExtract sort names = some out) :
    ∃ l l', mdExpandAll names = some l ∧ mdExpandAll out = some l' ∧ ∀ b, b ∈ l' ↔ b ∈ l := by
  obtain ⟨vs, h1, h2, h3⟩ := splitAll_good tidies_norm names (fun s hs => properE_good (h s hs))
  obtain ⟨ws, e1, e2, e3⟩ := extractVecs_spec sort hsort (vs := vs.map canonVec) (by
    intro v hv
    simp only [List.mem_map] at hv
    obtain ⟨w, hw, rfl⟩ := hv
    exact ⟨good_canon (h2 w hw).1 (h2 w hw).2, canon_downs w (h2 w hw).2⟩)
  unfold mdExtract at hm
  simp only [h1, e1, Option.bind_eq_bind, Option.bind_some] at hm
  have ht := showAll_text _ _ hm
  refine ⟨_, _, h3, by rw [ht]; exact mdExpandAll_good ws (fun v hv => (e2 v hv).1), ?_⟩
  intro b
  rw [e3]
  simp only [List.mem_flatMap, List.mem_map]
  constructor
  · rintro ⟨_, ⟨w, hw, rfl⟩, hb⟩
    exact ⟨w, hw, (vbits_canon (h2 w hw).1 (h2 w hw).2 b).1 hb⟩
  · rintro ⟨w, hw, hb⟩
    exact ⟨_, ⟨w, hw, rfl⟩, (vbits_canon (h2 w hw).1 (h2 w hw).2 b).2 hb⟩

/-- **Extraction ends**, and nothing undefined happens before the names are written. -/
theorem c72_total_partial (sort : List Vec → List Vec) (hsort : ∀ l, (sort l).Perm l) {names : List (List Char)}
    (h : ∀ s ∈ names, ProperE s) :
    ∃ vs out, splitAll names = some vs ∧ extractVecs sort (vs.map canonVec) = some out := by
  obtain ⟨vs, h1, h2, h3⟩ := splitAll_good tidies_norm names (fun s hs => properE_good (h s hs))
  obtain ⟨ws, e1, _⟩ := extractVecs_spec sort hsort (vs := vs.map canonVec) (by
    intro v hv
    simp only [List.mem_map] at hv
    obtain ⟨w, hw, rfl⟩ := hv
    exact ⟨good_canon (h2 w hw).1 (h2 w hw).2, canon_downs w (h2 w hw).2⟩)
  exact ⟨vs, ws, h1, e1⟩

/-- Bits appear that were not there: the gap between two ranges written from the lowest index up is filled. -/
theorem c72_gap_violated : mdExtract id ["x[0,2]".toList] = some ["x[2:0]".toList] ∧
    mdExpandAll ["x[0,2]".toList] = some ["x[0]".toList, "x[2]".toList] ∧
    mdExpandAll ["x[2:0]".toList] = some ["x[2]".toList, "x[1]".toList, "x[0]".toList] := by
  decide +kernel

/-- Bits appear twice, even though extraction is there to remove repetitions. -/
theorem c72_repeat_violated : mdExtract id ["a[5:4,2:1]".toList, "a[4:1]".toList] = some ["a[5:1,2:1]".toList] ∧
    mdExtract List.reverse ["a[5:4,2:1]".toList, "a[4:1]".toList] = some ["a[5:1,2:1]".toList] := by
  decide +kernel

/-! ### Examples -/

example : mdExtract id ["x[1][1]".toList, "x[0][1]".toList, "x[1][0]".toList, "x[0][0]".toList, "y".toList] =
    some ["y".toList, "x[1:0][1:0]".toList] := by decide +kernel

example : ProperE "a[5:4,2:1]".toList :=
  .vec [.txt "a[".toList, .idx [⟨5, 4⟩, ⟨2, 1⟩], .txt "]".toList]
    ⟨.inr ⟨base_txt (base := ['a']) ⟨by decide, by decide, by decide, by decide⟩, .inr ⟨⟨['a'], rfl⟩, _, _, rfl⟩⟩,
      by simp, by decide, ⟨[], [], rfl⟩, .inr ⟨close_txt, .inl rfl⟩, trivial⟩
    ⟨by simp [Inner], trivial⟩ ⟨.inr (by simp [Descending]), trivial⟩ (by decide +kernel) (by decide +kernel)
    (by intro cs h; simp at h)

end Voss.Vec
