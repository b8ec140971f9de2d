import Verif.Vset.ZipLemmas

/-!
C109: `vec_zip`.
-/
namespace Voss.Vset

open Vec

theorem expandAll_real (sort : List Vec → List Vec) {ss L : List (List Char)} (h : expandAll (real sort) ss = some L) :
    mdExpandAll ss = some L := by
  induction ss generalizing L with
  | nil => simpa [mdExpandAll, expandAll] using h
  | cons s ss ih =>
    simp only [expandAll, Option.bind_eq_bind, Option.bind_eq_some_iff] at h
    obtain ⟨a, ha, b, hb, h⟩ := h
    simp only [pure, Option.some.injEq] at h
    subst h
    have ha' : mdExpand s = some a := ha
    simp [mdExpandAll, ha', ih hb]

/-- C109: `vec_zip` of constants and names with at most one index group answers only if both lists have the same number
of bits.  The first names of the pairs have bits of the first list, in their order, and the second names bits of the
second list.  If no bit is lost then these are all the bits, and the names of each pair have the same number of bits.
Missing: that no bit is lost, and that there is an answer. -/
theorem c109_zip_partial (sort : List Vec → List Vec) {as bs : List (List Char)} (ha : ∀ s ∈ as, Proper1 s)
    (hb : ∀ s ∈ bs, Proper1 s) {k : Nat} {r : List (List Char × List Char)}
    (e : vecZip (real sort) k as bs = some r) :
    ∃ A B A' B', mdExpandAll as = some A ∧ mdExpandAll bs = some B ∧
      mdExpandAll (r.map Prod.fst) = some A' ∧ mdExpandAll (r.map Prod.snd) = some B' ∧
      A.length = B.length ∧ A'.Sublist A ∧ B'.Sublist B ∧
      (A'.length = A.length → B'.length = B.length → A' = A ∧ B' = B ∧
        ∀ x ∈ r, ∃ l m, mdExpand x.1 = some l ∧ mdExpand x.2 = some m ∧ l.length = m.length) := by
  obtain ⟨A, B, A', B', z⟩ := vecZip_spec (flat_inOrder sort) k as bs r (fun s hs => proper1_good (ha s hs))
    (fun s hs => proper1_good (hb s hs)) e
  exact ⟨A, B, A', B', expandAll_real sort z.first, expandAll_real sort z.second, expandAll_real sort z.first',
    expandAll_real sort z.second', z.len, z.subA, z.subB,
    fun h1 h2 => ⟨z.subA.eq_of_length h1, z.subB.eq_of_length h2, z.sizes h1 h2⟩⟩

example : vecZip (real id) 9 ["x[5:0]".toList] ["a[2:0]".toList, "b".toList, "c[1:0]".toList] =
    some [("x[5:3]".toList, "a[2:0]".toList), ("x[2]".toList, "b".toList), ("x[1:0]".toList, "c[1:0]".toList)] := by
  decide +kernel

example : Proper1 "x[5:0]".toList :=
  .vec [.txt "x[".toList, .idx [⟨5, 0⟩], .txt "]".toList]
    (range_wf (base := ['x']) ⟨by decide, by decide, by decide, by decide⟩ (by unfold Inner; decide))
    ⟨by simp [Inner], trivial⟩ (by unfold OneDim; decide) (by decide +kernel) (by decide +kernel)
    (by intro cs h; simp at h)

end Voss.Vset
