import Verif.Hier.AdjLemmas
import Verif.Hier.Props

namespace Voss.Hier
open Vec

/-! ### C77: adjacencies -/

/-- The keys exist if all names can be read. -/
theorem mkKeys_total (input : Bool) (ss : List Name) (h : ∀ s ∈ ss, ∃ v, split s = some v) :
    ∃ ks, mkKeys input ss = some ks := by
  induction ss with
  | nil => exact ⟨[], rfl⟩
  | cons s ss ih =>
    simp only [List.mem_cons, forall_eq_or_imp] at h
    obtain ⟨⟨v, hv⟩, h⟩ := h
    obtain ⟨ks, hks⟩ := ih h
    exact ⟨⟨s, v, input⟩ :: ks, by simp [mkKeys, hv, hks]⟩

theorem single_split {s : Name} (h : Single s ∨ IsConstant s) : ∃ v, split s = some v := by
  rcases h with h | h
  · obtain ⟨v, hv, _⟩ := single_vec h
    exact ⟨v, hv.split⟩
  · exact ⟨_, (const_vec h).split⟩

theorem adjKeys_total {p : Pex} {ks : List Pex} (hk : p.kids = some ks) (ht : Tame p) :
    ∃ keys, adjKeys p = some keys := by
  have h1 : ∃ a, mkKeys false (p.inps.map Pin.formal) = some a :=
    mkKeys_total _ _ fun s hs => single_split (.inl (ht.drives 0 s (by simpa [drives] using hs)))
  have h2 : ∃ a, mkKeys true (p.outs.map Pin.formal) = some a :=
    mkKeys_total _ _ fun s hs => single_split (ht.reads 0 s (by simpa [reads] using hs))
  have h3 : ∀ l : List Pex, (∀ k ∈ l, ∃ i, kid p (i + 1) = some k) → ∃ a, kidsKeys l = some a := by
    intro l
    induction l with
    | nil => exact fun _ => ⟨[], rfl⟩
    | cons k l ih =>
      intro h
      simp only [List.mem_cons, forall_eq_or_imp] at h
      obtain ⟨⟨i, hi⟩, h⟩ := h
      obtain ⟨r, hr⟩ := ih h
      obtain ⟨a, ha⟩ := mkKeys_total true (k.inps.flatMap Pin.acts)
        fun s hs => single_split (ht.reads (i + 1) s (by simpa [reads, hi] using hs))
      obtain ⟨b, hb⟩ := mkKeys_total false (k.outs.flatMap Pin.acts)
        fun s hs => single_split (.inl (ht.drives (i + 1) s (by simpa [drives, hi] using hs)))
      exact ⟨(a ++ b) :: r, by simp [kidsKeys, kidKeys, ha, hb, hr]⟩
  obtain ⟨a, ha⟩ := h1
  obtain ⟨b, hb⟩ := h2
  obtain ⟨r, hr⟩ := h3 ks (by
    intro k hm
    obtain ⟨i, hi⟩ := List.mem_iff_getElem?.1 hm
    exact ⟨i, by simpa [kid, hk] using hi⟩)
  exact ⟨(a ++ b) :: r, by simp [adjKeys, hk, ha, hb, hr]⟩

/-- **Adjacent instances are those connected by a wire.**  For circuits in which every index group is one range from
the highest index down, the adjacencies exist, and a pair is in them just if the first instance drives a bit that the
second one reads; number 0 stands for the inputs and outputs of the circuit.  Missing: other groups of indices. -/
theorem c77_adjacent_partial {p : Pex} {ks : List Pex} (hk : p.kids = some ks) (ht : Tame p) :
    ∃ l, adjacencies p = some l ∧
      ∀ i j, (i, j) ∈ l ↔ ∃ n ∈ drives p i, ∃ m ∈ reads p j, Share n m := by
  obtain ⟨keys, hkeys⟩ := adjKeys_total hk ht
  refine ⟨_, by simp only [adjacencies, hkeys]; rfl, ?_⟩
  intro i j
  simp only [List.mem_flatMap, List.mem_map]
  constructor
  · rintro ⟨e, he, x, hx, j', hj, heq⟩
    have hx' : x ∈ at' keys e.2 := (mem_zipIdx' keys x e.2).1 ⟨e, he, rfl, hx⟩
    have hmem := ((adjKeys_mem hkeys e.2 x).1 hx').2
    cases hin : x.input with
    | true =>
      rw [hin, if_pos rfl] at hmem
      simp only [hin, if_true, Prod.mk.injEq] at heq
      obtain ⟨rfl, rfl⟩ := heq
      obtain ⟨n, hn, hs⟩ := (hits_input ht hkeys hx' hin _).1 hj
      exact ⟨n, hn, x.name, hmem, hs⟩
    | false =>
      rw [hin] at hmem
      simp only [Bool.false_eq_true, if_false] at hmem
      simp only [hin, Bool.false_eq_true, if_false, Prod.mk.injEq] at heq
      obtain ⟨rfl, rfl⟩ := heq
      obtain ⟨n, hn, hs⟩ := (hits_output ht hkeys hx' hin _).1 hj
      exact ⟨x.name, hmem, n, hn, hs⟩
  · rintro ⟨n, hn, m, hm, hs⟩
    obtain ⟨v, hv, _⟩ := single_vec (ht.drives i n hn)
    have hx : (⟨n, v, false⟩ : Key) ∈ at' keys i := (adjKeys_mem hkeys i _).2 ⟨hv.split, by simpa using hn⟩
    obtain ⟨e, he, rfl, hxe⟩ := (mem_zipIdx' keys _ i).2 hx
    exact ⟨e, he, _, hxe, j, (hits_output ht hkeys hx rfl j).2 ⟨m, hm, hs⟩, by simp⟩

/-- A circuit in which one instance drives a name and another one reads a name. -/
def pair (out inp : String) : Pex :=
  .mk "top".toList [] false [] [] [] (some [prim "a" [] [pin "o" [out]], prim "b" [pin "i" [inp]] []]) 0

/-- Vectors that are written from the lowest index up are never adjacent, not even to themselves. -/
theorem c77_upward_violated : adjacencies (pair "x[0:3]" "x[0:3]") = some [] ∧
    (mdExpand "x[0:3]".toList).map List.length = some 4 := by
  decide +kernel

/-- A list of indices is not adjacent to an index in it. -/
theorem c77_list_violated : adjacencies (pair "x[3,1]" "x[1]") = some [] ∧
    mdExpand "x[3,1]".toList = some ["x[3]".toList, "x[1]".toList] := by
  decide +kernel

/-- An example: every pair comes twice, once from either side. -/
example : adjacencies (pair "x[3:1]" "x[2:0]") = some [(1, 2), (1, 2)] ∧ adjacencies (pair "x[3:2]" "x[1:0]") = some [] := by
  decide +kernel

theorem single_range {base : Name} (hb : Plain base) (hs : '*' ∉ base) (h0 : base.head? ≠ some '0') {h l : Int}
    (hr : Inner ⟨h, l⟩) (hle : l ≤ h) : Single (base ++ '[' :: (Rng.mk h l).text ++ [']']) := by
  refine ⟨[.txt (base ++ ['[']), .idx [⟨h, l⟩], .txt [']']], range_wf hb hr, ⟨by simpa using hr, trivial⟩,
    ⟨⟨_, rfl, hle⟩, trivial⟩, by simp [vecText, Seg.text, rngsText], ?_, ?_⟩
  · simp only [List.append_assoc, List.cons_append, List.mem_append, List.mem_cons, List.not_mem_nil, or_false, not_or]
    refine ⟨hs, by decide, ?_, by decide⟩
    intro hm
    rcases rngText_chars _ _ hm with h | h | h <;> simp at h
  · intro cs hcs
    obtain ⟨hne, _⟩ := hb
    cases base with
    | nil => exact hne rfl
    | cons c b => simp at hcs; simp [hcs.1] at h0

/-- The hypothesis of `c77_adjacent_partial`. -/
example : Tame (pair "x[3:1]" "x[2:0]") := by
  have h1 : Single "x[3:1]".toList :=
    single_range (base := ['x']) ⟨by decide, by decide, by decide, by decide⟩ (by decide) (by decide) (h := 3) (l := 1)
      (by unfold Inner; decide) (by decide)
  have h2 : Single "x[2:0]".toList :=
    single_range (base := ['x']) ⟨by decide, by decide, by decide, by decide⟩ (by decide) (by decide) (h := 2) (l := 0)
      (by unfold Inner; decide) (by decide)
  constructor
  · intro i n hn
    match i with
    | 0 => simp [drives, pair, Pex.inps] at hn
    | 1 => simp [drives, pair, kid, Pex.kids, prim, Pex.outs, pin] at hn; subst hn; exact h1
    | 2 => simp [drives, pair, kid, Pex.kids, prim, Pex.outs, pin] at hn
    | i + 3 => simp [drives, pair, kid, Pex.kids] at hn
  · intro i n hn
    match i with
    | 0 => simp [reads, pair, Pex.outs] at hn
    | 1 => simp [reads, pair, kid, Pex.kids, prim, Pex.inps, pin] at hn
    | 2 => simp [reads, pair, kid, Pex.kids, prim, Pex.inps, pin] at hn; subst hn; exact .inl h2
    | i + 3 => simp [reads, pair, kid, Pex.kids] at hn

end Voss.Hier
