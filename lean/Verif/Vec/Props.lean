import Verif.Vec.NormLemmas

/-!
C70: a vector name stands for the bits that it writes, in the order in which it writes them.
-/
namespace Voss.Vec

/-- **Reading back.**  A vector that has been read is written as a name that is read as the same vector. -/
theorem c70_readback {s s' : List Char} {v : Vec} (h : split s = some v) (hs : showVec v = some s') :
    split s' = some v := by
  have ht := showVec_text v s' hs
  cases hl : splitLoop s.length s with
  | ok v' =>
    unfold split at h
    rw [hl] at h
    simp only [Option.some.injEq] at h
    subst h
    rw [ht, split_text (splitLoop_wf _ _ _ hl), splitLoop_norm _ _ _ hl]
  | bad =>
    have h0 := h
    unfold split at h
    rw [hl] at h
    simp only [Option.some.injEq] at h
    have : s' = s := by rw [ht, ← h]; simp [vecText, Seg.text]
    rw [this]
    exact h0
  | ub =>
    unfold split at h
    rw [hl] at h
    simp at h

/-- **The bits.**  The name of a vector expands to the names of the bits got by choosing one index in each group: to
all of them, and to nothing else. -/
theorem c70_bits {v : Vec} (hw : WF v) (hi : Inners v) (hc : expandConstant (vecText v) = none) :
    ∃ l : List Vec, mdExpand (vecText v) = some (l.map vecText) ∧ ∀ b, b ∈ l ↔ Selects v b := by
  exact ⟨expand v, mdExpand_text hw hi hc, mem_expand v⟩

/-- **The order.**  `base[h:l]` expands to `base[h]`, ..., `base[l]`: the indices go from the first one written to the
last one written, one at a time. -/
theorem c70_order {base : List Char} (hb : Plain base) {h l : Int} (hr : Inner ⟨h, l⟩) :
    ∃ names, mdExpand (base ++ '[' :: (Rng.mk h l).text ++ [']']) = some names ∧
      names.length = (h - l).natAbs + 1 ∧
      ∀ k, k ≤ (h - l).natAbs →
        names[k]? = some (base ++ '[' :: decimal (if l ≤ h then h - (k : Int) else h + (k : Int)) ++ [']']) := by
  have e : vecText [.txt (base ++ ['[']), .idx [⟨h, l⟩], .txt [']']] = base ++ '[' :: (Rng.mk h l).text ++ [']'] := by
    simp [vecText, Seg.text, rngsText]
  have hcl : ']' ∈ base ++ '[' :: (Rng.mk h l).text ++ [']'] := by simp
  have hx := mdExpand_text (range_wf hb hr) (v := [.txt (base ++ ['[']), .idx [⟨h, l⟩], .txt [']']])
    (by exact ⟨by simpa using hr, trivial⟩) (by rw [e]; exact close_not_const hcl)
  rw [e] at hx
  refine ⟨_, hx, ?_, ?_⟩
  · rw [List.length_map, expand_length]
    simp [size]
  · intro k hk
    have e2 : expand [.txt (base ++ ['[']), .idx [⟨h, l⟩], .txt [']']] =
        (Rng.bits ⟨h, l⟩).map fun i => [.txt (base ++ ['[']), .idx [⟨i, i⟩], .txt [']']] := by
      simp only [expand, List.flatMap_cons, List.flatMap_nil, List.append_nil, List.map_cons, List.map_nil]
      induction Rng.bits ⟨h, l⟩ with
      | nil => rfl
      | cons a as ih => simpa using ih
    have e3 : (Rng.bits ⟨h, l⟩)[k]? = some (if l ≤ h then h - (k : Int) else h + (k : Int)) := by
      unfold Rng.bits
      simp only [ge_iff_le]
      split
      · rw [List.getElem?_map, List.getElem?_range (by omega)]
        rfl
      · rw [List.getElem?_map, List.getElem?_range (by omega)]
        rfl
    rw [e2]
    simp only [List.map_map, List.getElem?_map, e3, Option.map_some, Option.some.injEq, Function.comp]
    simp [vecText, Seg.text, rngsText, Rng.text]

/-- **Rows first.**  A name with several index groups expands to the expansions of the names in which the first group
is replaced by each of its indices, in the order in which the group writes them. -/
theorem c70_rows {s : List Char} {rs : List Rng} {v : Vec} (hw : WF (.txt s :: .idx rs :: v))
    (hi : Inners (.txt s :: .idx rs :: v)) :
    ∃ l, mdExpand (vecText (.txt s :: .idx rs :: v)) = some l ∧
      mdExpandAll ((written rs).map fun i => vecText (.txt s :: .idx [⟨i, i⟩] :: v)) = some l := by
  have hm : Seg.idx rs ∈ Seg.txt s :: .idx rs :: v := by simp
  refine ⟨_, mdExpand_text hw hi (close_not_const (wf_close _ hw rs hm)), ?_⟩
  obtain ⟨hw1, hw2, hw3, hw4, hw5⟩ := hw
  obtain ⟨hi1, hi2⟩ := hi
  have hin : ∀ i ∈ rs.flatMap Rng.bits, Inner ⟨i, i⟩ := by
    intro i hmem
    simp only [List.mem_flatMap] at hmem
    obtain ⟨r, hr, hri⟩ := hmem
    obtain ⟨h1, h2⟩ := hi1 r hr
    have := (mem_bits r i).1 hri
    refine ⟨?_, ?_⟩ <;> simp only <;> omega
  have hone : ∀ i ∈ rs.flatMap Rng.bits, mdExpand (vecText (.txt s :: .idx [⟨i, i⟩] :: v)) =
      some ((expand (.txt s :: .idx [⟨i, i⟩] :: v)).map vecText) := by
    intro i hmem
    have hint := hin i hmem
    have hii : isInt i = true := by
      obtain ⟨h1, _⟩ := hint
      simp only [isInt, decide_eq_true_eq] at *
      omega
    have hwi : WF (.txt s :: .idx [⟨i, i⟩] :: v) := by
      refine ⟨?_, by simp, by simpa using hii, hw4, hw5⟩
      rcases hw1 with h | ⟨h, h'⟩
      · exact .inl h
      · rcases h' with h' | ⟨h', _⟩
        · simp at h'
        · exact .inr ⟨h, .inr ⟨h', _, _, rfl⟩⟩
    exact mdExpand_text hwi ⟨by simpa using hint, hi2⟩
      (close_not_const (wf_close _ hwi [⟨i, i⟩] (by simp)))
  rw [written_eq]
  have e : expand (.txt s :: .idx rs :: v) =
      (rs.flatMap Rng.bits).flatMap fun i => expand (.txt s :: .idx [⟨i, i⟩] :: v) := by
    rw [expand, expand_idx, List.map_flatMap]
    congr 1
    funext i
    simp [expand, bits_single]
  rw [e]
  generalize rs.flatMap Rng.bits = is at hone
  induction is with
  | nil => rfl
  | cons i is ih =>
    have ih' := ih (fun j hj => hone j (by simp [hj]))
    simp only [List.map_cons, mdExpandAll, hone i (by simp), ih']
    simp

/-- **Bits are bits.**  The names that an expansion lists expand to themselves, whatever name has been expanded. -/
theorem c70_fixpoint {s : List Char} {l : List (List Char)} (h : mdExpand s = some l) :
    ∀ b ∈ l, mdExpand b = some [b] := by
  intro b hb
  unfold mdExpand at h
  cases hc : expandConstant s with
  | some cl =>
    rw [hc] at h
    have h1 := showAll_text _ _ h
    have h2 : ∃ c, isConstChar c = true ∧ b = ['0', 'b', c] := by
      rw [h1] at hb
      unfold expandConstant at hc
      split at hc
      · split at hc
        · rename_i hall
          simp only [Option.some.injEq] at hc
          subst hc
          simp only [List.map_map, List.mem_map, Function.comp] at hb
          obtain ⟨c, hcm, rfl⟩ := hb
          exact ⟨c, List.all_eq_true.1 hall.2 c hcm, rfl⟩
        · simp at hc
      · simp at hc
    obtain ⟨c, h3, rfl⟩ := h2
    simp [mdExpand, expandConstant, h3, showAll, showVec]
  | none =>
    rw [hc] at h
    simp only [Option.bind_eq_bind, Option.bind_eq_some_iff] at h
    obtain ⟨v, hv, h⟩ := h
    split at h
    · simp at h
    · rename_i he
      have he' : edge v = false := by simpa using he
      have h1 := showAll_text _ _ h
      cases hl : splitLoop s.length s with
      | ok v' =>
        have hv0 := hv
        unfold split at hv
        rw [hl] at hv
        simp only [Option.some.injEq] at hv
        subst hv
        have hw := splitLoop_wf _ _ _ hl
        rw [h1] at hb
        simp only [List.mem_map] at hb
        obtain ⟨w, hwm, rfl⟩ := hb
        have hsel := (mem_expand _ _).1 hwm
        obtain ⟨hbit, hwf⟩ := selects_bit hsel hw he'
        have hcn : expandConstant (vecText w) = none := by
          rcases selects_idx hsel with ⟨rs, hr⟩ | ⟨hn, rfl⟩
          · exact close_not_const (wf_close w hwf rs hr)
          · rw [splitLoop_plain _ _ _ hl hn]
            exact hc
        unfold mdExpand
        rw [hcn, split_text hwf, norm_bit w hbit]
        simp only [Option.bind_eq_bind, Option.bind_some, edge_bit w hbit, Bool.false_eq_true, if_false,
          expand_bit w hbit]
        simp [showAll, showVec_bit w hbit]
      | bad =>
        have hv0 := hv
        unfold split at hv
        rw [hl] at hv
        simp only [Option.some.injEq] at hv
        subst hv
        have : b = s := by
          rw [h1] at hb
          simpa [expand, vecText, Seg.text] using hb
        subst this
        unfold mdExpand
        rw [hc, hv0]
        simp [edge, expand, showAll, showVec]
      | ub =>
        unfold split at hv
        rw [hl] at hv
        simp at hv

/-- **Distinct bits.**  If no index occurs twice in a group then the names of the bits are distinct. -/
theorem c70_distinct {s : List Char} {v : Vec} {l : List (List Char)} (hc : expandConstant s = none)
    (hv : split s = some v) (hd : Simple v) (h : mdExpand s = some l) : l.Nodup := by
  unfold mdExpand at h
  rw [hc, hv] at h
  simp only [Option.bind_eq_bind, Option.bind_some] at h
  split at h
  · simp at h
  · rename_i he
    have he' : edge v = false := by simpa using he
    have h1 := showAll_text _ _ h
    have hnd := nodup_expand v hd
    cases hl : splitLoop s.length s with
    | ok v' =>
      unfold split at hv
      rw [hl] at hv
      simp only [Option.some.injEq] at hv
      subst hv
      have hw := splitLoop_wf _ _ _ hl
      rw [h1]
      have hall : ∀ b ∈ expand v', Bit b ∧ WF b := fun b hb => selects_bit ((mem_expand _ _).1 hb) hw he'
      unfold List.Nodup at *
      rw [List.pairwise_map]
      refine List.Pairwise.imp_of_mem ?_ hnd
      intro a b ha hb hne e
      exact hne (vecText_inj (hall a ha) (hall b hb) e)
    | bad =>
      unfold split at hv
      rw [hl] at hv
      simp only [Option.some.injEq] at hv
      subst hv
      rw [h1]
      simp [expand]
    | ub =>
      unfold split at hv
      rw [hl] at hv
      simp at hv

/-- **The size.**  The size of a name is the number of names in its expansion.  Missing: the constant `0b`. -/
theorem c70_size_partial {s : List Char} {l : List (List Char)} {n : Nat} (h0 : s ≠ ['0', 'b'])
    (h : mdExpand s = some l) (hn : mdSize s = some n) : n = l.length := by
  unfold mdExpand at h
  unfold mdSize at hn
  cases hc : expandConstant s with
  | some cl =>
    rw [hc] at h
    have h1 := showAll_text _ _ h
    rw [h1, List.length_map]
    unfold expandConstant at hc
    split at hc
    · split at hc
      · rename_i cs hall
        simp only [Option.some.injEq] at hc
        subst hc
        simp only [constSize, hall.2, if_true, Option.some.injEq] at hn
        simp [hn]
      · simp at hc
    · simp at hc
  | none =>
    rw [hc] at h
    have hcs : constSize s = none := by
      unfold expandConstant at hc
      unfold constSize
      split at hc
      · rename_i cs
        split at hc
        · simp at hc
        · rename_i hno
          have : cs ≠ [] := by
            rintro rfl
            exact h0 rfl
          rw [if_neg (fun x => hno ⟨this, x⟩)]
      · rfl
    rw [hcs] at hn
    simp only [Option.bind_eq_bind, Option.bind_eq_some_iff] at h hn
    obtain ⟨v, hv, h⟩ := h
    obtain ⟨v', hv', hn⟩ := hn
    rw [hv, Option.some.injEq] at hv'
    subst hv'
    split at h
    · simp at h
    · rw [showAll_text _ _ h, List.length_map, expand_length]
      split at hn <;> simp_all

/-- The empty constant has size 0 but expands to one name. -/
theorem c70_size_violated : mdSize "0b".toList = some 0 ∧ mdExpand "0b".toList = some ["0b".toList] := by
  decide +kernel

/-- Indices that do not fit into an `int` are undefined behaviour, and so is the least `int` as an index. -/
theorem c70_huge_violated : mdExpand "x[99999999999]".toList = none ∧ mdExpand "x[-2147483648]".toList = none := by
  decide +kernel

/-! ### Examples -/

example : mdExpand "a[2:1].b[-1:0,7]".toList = some
    ["a[2].b[-1]".toList, "a[2].b[0]".toList, "a[2].b[7]".toList,
     "a[1].b[-1]".toList, "a[1].b[0]".toList, "a[1].b[7]".toList] := by decide +kernel
example : mdSize "a[2:1].b[-1:0,7]".toList = some 6 := by decide +kernel
example : mdExpand "\\we[1:0] x[1:0]".toList = some ["\\we[1:0] x[1]".toList, "\\we[1:0] x[0]".toList] := by
  decide +kernel
example : mdExpand "0b1x".toList = some ["0b1".toList, "0bx".toList] := by decide +kernel
example : split "x[3:2,1:0]".toList = some [.txt "x[".toList, .idx [⟨3, 0⟩], .txt "]".toList] := by decide +kernel
example : Plain "foo".toList ∧ Inner ⟨7, 0⟩ := by
  refine ⟨⟨by decide, by decide, by decide, by decide⟩, by unfold Inner; decide⟩
example : Simple [.txt "x[".toList, .idx [⟨3, 0⟩, ⟨5, 5⟩], .txt "]".toList] := by
  refine ⟨by decide +kernel, trivial⟩

end Voss.Vec
