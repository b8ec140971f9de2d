import Verif.Vec.MergeLemmas

/-!
C71: merging names keeps the bits.
-/
namespace Voss.Vec

/-- **Merging keeps the bits.**  The names that come out have the same bits as the names that went in, each as often,
up to order.  Missing: names with asterisks, names beginning with `0b` that are not constants. -/
theorem c71_bits_partial {names out : List (List Char)} (h : ∀ s ∈ names, Proper s) (hm : mdMerge names = some out) :
    ∃ l l', mdExpandAll names = some l ∧ mdExpandAll out = some l' ∧ l'.Perm l :=
  mdMerge_spec permInv (fun _ h => h)
    (fun s hs => by obtain ⟨v, h1, h2⟩ := proper_good (h s hs); exact ⟨v, h1, trivial, h2⟩) hm

/-- **Merging keeps the order** if no name has more than one index group. -/
theorem c71_order_partial {names out : List (List Char)} (h : ∀ s ∈ names, Proper1 s) (hm : mdMerge names = some out) :
    ∃ l, mdExpandAll names = some l ∧ mdExpandAll out = some l := by
  obtain ⟨l, l', h1, h2, h3⟩ := mdMerge_spec orderInv oneDim_norm (fun s hs => proper1_good (h s hs)) hm
  exact ⟨l, h1, by rw [h2, h3]⟩

/-- **Merging ends**, and nothing undefined happens before the names are written. -/
theorem c71_total_partial {names : List (List Char)} (h : ∀ s ∈ names, Proper s) :
    ∃ vs out, splitAll names = some vs ∧ mergeVecs vs = some out := by
  obtain ⟨vs, h1, h2, _⟩ := splitAll_good (D := fun _ => True) (fun _ h => h) names
    (fun s hs => by obtain ⟨v, h1, h2⟩ := proper_good (h s hs); exact ⟨v, h1, trivial, h2⟩)
  obtain ⟨out, e1, _⟩ := mergeVecs_spec permInv h2
  exact ⟨vs, out, h1, e1⟩

/-- The order is not kept in general: a list of the bits of a matrix, column by column, comes out row by row. -/
theorem c71_order_violated :
    ∃ names out l l', mdMerge names = some out ∧ mdExpandAll names = some l ∧ mdExpandAll out = some l' ∧ l ≠ l' :=
  ⟨["x[1][1]".toList, "x[0][1]".toList, "x[1][0]".toList, "x[0][0]".toList], ["x[1:0][1:0]".toList],
    ["x[1][1]".toList, "x[0][1]".toList, "x[1][0]".toList, "x[0][0]".toList],
    ["x[1][1]".toList, "x[1][0]".toList, "x[0][1]".toList, "x[0][0]".toList],
    by decide +kernel, by decide +kernel, by decide +kernel, by decide⟩

/-- A name with an asterisk is taken for a vector. -/
theorem c71_asterisk_violated : mdMerge ["x[3]".toList, "x[*]".toList] = none := by decide +kernel

/-- Names that begin with `0b` are put together as if they were constants. -/
theorem c71_prefix_violated :
    mdMerge ["0bfoo".toList, "0bbar".toList] = some ["0bfoobar".toList] := by decide +kernel

/-- Two indices of ten digits do not fit into the buffer. -/
theorem c71_buffer_violated : mdMerge ["x[1000000001:1000000000]".toList] = none := by decide +kernel

/-! ### Examples -/

example : mdMerge ["x[1]".toList, "x[0]".toList, "y".toList, "x[7]".toList, "x[3]".toList, "0b1".toList, "0bx".toList,
    "x[8]".toList] =
    some ["x[1:0]".toList, "y".toList, "x[7,3]".toList, "0b1x".toList, "x[8]".toList] := by decide +kernel

example : Proper1 "x[3:0]".toList :=
  .vec [.txt "x[".toList, .idx [⟨3, 0⟩], .txt "]".toList]
    (range_wf (base := ['x']) ⟨by decide, by decide, by decide, by decide⟩ (by unfold Inner; decide))
    ⟨by simp [Inner], trivial⟩ (by unfold OneDim; decide) (by decide +kernel) (by decide +kernel)
    (by intro cs h; simp at h)

example : Proper "0b1x".toList := .const ⟨['1', 'x'], rfl, by decide, by decide⟩

end Voss.Vec
