import Verif.Plist.Lemmas

/-!
# C104: the list functions of the preamble
-/

namespace Voss.Plist

variable {α β γ δ ε : Type}

/-- **C104.**  `f upto t` has the numbers from `f` up to `t`, `f downto t` those
from `f` down to `t`; they are empty if there are none.  `f -- t` goes in the
right direction. -/
theorem c104_ranges (f t : Int) :
    upto f t = ((List.range (t + 1 - f).toNat).map fun (i : Nat) => f + (i : Int)) ∧
    downto f t = ((List.range (f + 1 - t).toNat).map fun (i : Nat) => f - (i : Int)) ∧
    (range f t).length = (t - f).natAbs + 1 ∧ (range f t).head? = some f ∧
    (range f t).getLast? = some t := by
  have h1 : upto f t = (List.range (t + 1 - f).toNat).map fun (i : Nat) => f + (i : Int) := by
    unfold upto
    by_cases h : t + 1 - f ≤ 0
    · rw [uptoGen_eq _ _ _ (by omega)]
    · rw [uptoGen_eq _ _ _ (by omega)]
  have h2 : downto f t = (List.range (f + 1 - t).toNat).map fun (i : Nat) => f - (i : Int) := by
    unfold downto
    rw [downtoGen_eq _ _ _ (by omega)]
  refine ⟨h1, h2, ?_⟩
  unfold range
  split
  · obtain ⟨n, hn⟩ : ∃ n, (t + 1 - f).toNat = n + 1 := ⟨(t - f).toNat, by omega⟩
    rw [h1, hn]
    refine ⟨by simp; omega, by simp [List.range_succ_eq_map], ?_⟩
    rw [List.range_succ, List.map_append]
    simp; omega
  · obtain ⟨n, hn⟩ : ∃ n, (f + 1 - t).toNat = n + 1 := ⟨(f - t).toNat, by omega⟩
    rw [h2, hn]
    refine ⟨by simp; omega, by simp [List.range_succ_eq_map], ?_⟩
    rw [List.range_succ, List.map_append]
    simp; omega

example : range 2 5 = [2, 3, 4, 5] ∧ range 3 1 = [3, 2, 1] ∧ range 4 4 = [4] ∧ upto 3 1 = [] := by
  decide +kernel

/-- **C104.**  `zip` pairs lists of the same length, and fails on others;
`unzip` takes them apart again. -/
theorem c104_zip (l1 : List α) (l2 : List β) :
    (l1.length = l2.length → ∃ r, zip l1 l2 = some r ∧ unzip r = (l1, l2) ∧
      ∀ i : Nat, r[i]? = (l1[i]?.bind fun a => l2[i]?.map fun b => (a, b))) ∧
    (l1.length ≠ l2.length → zip l1 l2 = none) := by
  rw [zip_eq]
  refine ⟨fun h => ?_, fun h => if_neg h⟩
  rw [if_pos h]
  refine ⟨_, rfl, ?_, ?_⟩
  · rw [unzip_eq, List.map_fst_zip (by omega), List.map_snd_zip (by omega)]
  · intro i
    rw [List.zip, List.getElem?_zipWith]
    cases l1[i]? <;> cases l2[i]? <;> rfl

theorem c104_unzip (l : List (α × β)) : zip (unzip l).1 (unzip l).2 = some l := by
  rw [unzip_eq, zip_eq, if_pos (by simp)]
  congr 1
  induction l with
  | nil => rfl
  | cons a l ih => simp [ih]

example : zip [1, 2] [3, 4] = some [(1, 3), (2, 4)] ∧ zip [1, 2] [3] = none := by decide +kernel

/-- **C104.**  `map2`, `map3` and `map4` apply the function to the elements at
the same place of lists of the same length, and fail on others. -/
theorem c104_maps (f : α → β → γ) (g : α → β → γ → δ) (h : α → β → γ → δ → ε)
    (l1 : List α) (l2 : List β) (l3 : List γ) (l4 : List δ) :
    map2 f l1 l2 = (if l1.length = l2.length then some (l1.zipWith f l2) else none) ∧
    map3 g l1 l2 l3 = (if l1.length = l2.length ∧ l1.length = l3.length then
      some ((l1.zip (l2.zip l3)).map fun p => g p.1 p.2.1 p.2.2) else none) ∧
    map4 h l1 l2 l3 l4 =
      (if l1.length = l2.length ∧ l1.length = l3.length ∧ l1.length = l4.length then
      some ((l1.zip (l2.zip (l3.zip l4))).map fun p => h p.1 p.2.1 p.2.2.1 p.2.2.2) else none) :=
  ⟨map2_eq f l1 l2, map3_eq g l1 l2 l3, map4_eq h l1 l2 l3 l4⟩

example : map3 (fun a b c => a + b * c) [1, 2] [3, 4] [5, 6] = some [16, 26] ∧
    map2 (fun a b => a + b) [1] [1, 2] = none := by decide +kernel

/-- **C104.**  `map_index` applies the function to each element and its
position, counted from 1. -/
theorem c104_map_index (f : Int → α → β) (l : List α) :
    ∃ r, mapIndex f l = some r ∧ r.length = l.length ∧
      ∀ i : Nat, r[i]? = l[i]?.map fun a => f (i + 1) a := by
  unfold mapIndex
  rw [(c104_ranges 1 l.length).1, map2_eq, if_pos (by simp)]
  refine ⟨_, rfl, by simp, ?_⟩
  intro i
  by_cases hi : i < l.length
  · rw [List.getElem?_eq_getElem (by simp; omega), List.getElem?_eq_getElem hi]
    simp [Int.add_comm]
  · rw [List.getElem?_eq_none (by simp; omega), List.getElem?_eq_none (by omega)]
    rfl

example : mapIndex (fun i a => i * 10 + a) [7, 8] = some [17, 28] := by decide +kernel

/-- **C104.**  `itlist` folds from the right, `rev_itlist` from the left;
`accumulate` folds a list that is not empty from the right with its last
element as the start; `flatmap` and `replicate` are the textbook functions. -/
theorem c104_folds (f : α → β → β) (g : α → List β) (l : List α) (z : β) (h : α → α → α) (a : α)
    (n : Int) :
    itlist f l z = l.foldr f z ∧ revItlist f l z = l.foldl (fun x a => f a x) z ∧
    flatmap g l = (l.map g).flatten ∧
    accumulate h (l ++ [a]) = some (l.foldr h a) ∧ accumulate h [] = none ∧
    replicate n a = if 0 ≤ n then some (List.replicate n.toNat a) else none := by
  refine ⟨itlist_eq f l z, revItlist_eq f l z, by rw [flatmap_eq, List.flatMap_def], ?_, rfl, ?_⟩
  · simp [accumulate, itlist_eq]
  · unfold replicate
    by_cases h : 0 ≤ n
    · rw [if_neg (by omega), if_pos h, replicateGo_eq]
    · rw [if_pos (by omega), if_neg h]

example : accumulate (fun a b => a - b) [10, 3, 1] = some (10 - (3 - 1) : Int) := by decide +kernel

/-- **C104.**  `atmost` gives the list if it is not too long, and else its
first elements with the mark. -/
theorem c104_atmost (cnt : Int) (l trunc : List α) (h : 0 ≤ cnt) :
    atmost cnt l trunc = some (if (l.length : Int) ≤ cnt then l else l.take cnt.toNat ++ trunc) := by
  unfold atmost firstn
  by_cases hc : (l.length : Int) ≤ cnt
  · rw [if_pos hc, if_pos hc]
  · rw [if_neg hc, if_neg hc, if_pos (by omega)]; rfl

example : atmost 2 [1, 2, 3] [0] = some [1, 2, 0] := by decide +kernel

/-- **C104.**  `split_list k l` succeeds exactly for the positions `k` of `l`,
counted from 1, and takes the list apart there. -/
theorem c104_split (k : Int) (l : List α) :
    (∀ a x b, splitList k l = some (a, x, b) ↔ l = a ++ x :: b ∧ (a.length : Int) + 1 = k) ∧
    (splitList k l = none ↔ ¬ (1 ≤ k ∧ k ≤ l.length)) := by
  have key : ∀ a x b, splitList k l = some (a, x, b) ↔ l = a ++ x :: b ∧ (a.length : Int) + 1 = k := by
    intro a x b
    by_cases h : 1 ≤ k ∧ k ≤ l.length
    · obtain ⟨n, rfl⟩ : ∃ n : Nat, k = (n : Int) + 1 := ⟨(k - 1).toNat, by omega⟩
      have hn : n < l.length := by omega
      have e1 : ((n : Int) + 1 - 1).toNat = n := by omega
      have e2 : ((n : Int) + 1).toNat = n + 1 := by omega
      have e3 : ¬ ((n : Int) + 1 ≤ 0) := by omega
      unfold splitList firstn butfirstn el
      rw [e1, e2, if_pos (show n ≤ l.length by omega), if_neg e3,
        if_pos (show n + 1 ≤ l.length by omega), Nat.add_sub_cancel,
        List.getElem?_eq_getElem hn]
      simp only [Option.some.injEq, Prod.mk.injEq]
      constructor
      · rintro ⟨rfl, rfl, rfl⟩
        refine ⟨by simp, ?_⟩
        rw [List.length_take]; omega
      · rintro ⟨rfl, h2⟩
        have : n = a.length := by omega
        subst this
        simp
    · constructor
      · intro hs
        unfold splitList firstn butfirstn el at hs
        split at hs
        · rename_i h1 h2 h3
          exfalso
          split at h2
          · cases h2
          · split at h3
            · omega
            · cases h3
        · cases hs
      · rintro ⟨rfl, h2⟩
        exfalso; apply h
        simp only [List.length_append, List.length_cons]
        omega
  refine ⟨key, ?_⟩
  constructor
  · intro hn h
    have hk : (k - 1).toNat < l.length := by omega
    have := (key (l.take (k - 1).toNat) l[(k - 1).toNat] (l.drop ((k - 1).toNat + 1))).mpr
      ⟨by simp, by rw [List.length_take]; omega⟩
    rw [hn] at this; cases this
  · intro h
    cases hs : splitList k l with
    | none => rfl
    | some p =>
      obtain ⟨a, x, b⟩ := p
      obtain ⟨rfl, h2⟩ := (key a x b).mp hs
      exfalso; apply h
      simp only [List.length_append, List.length_cons]
      omega

example : splitList 2 [7, 8, 9] = some ([7], 8, [9]) ∧ splitList 0 [7] = none := by decide +kernel

/-- **C104.**  `cluster` cuts a list into pieces of the given size, and fails
if that is not possible. -/
theorem c104_cluster (sz : Int) (l : List α) :
    (0 < sz ∧ sz ∣ l.length → ∃ r, cluster sz l = some r ∧ r.flatten = l ∧
      ∀ x ∈ r, (x.length : Int) = sz) ∧
    (¬ (0 < sz ∧ sz ∣ l.length) → cluster sz l = none) := by
  constructor
  · rintro ⟨h0, hd⟩
    obtain ⟨n, rfl⟩ : ∃ n : Nat, sz = n := ⟨sz.toNat, by omega⟩
    obtain ⟨q, hq⟩ := Int.natCast_dvd_natCast.mp hd
    have hn : 0 < n := by omega
    have hle : q ≤ l.length := by rw [hq]; exact Nat.le_mul_of_pos_left q hn
    obtain ⟨r, h1, h2, h3⟩ := clusterGo_ok n hn q (l.length + 1) l (by rw [hq, Nat.mul_comm]) (by omega)
    refine ⟨r, ?_, h2, fun x hx => by rw [h3 x hx]⟩
    unfold cluster
    rw [if_neg (by omega), if_neg (by rw [Int.emod_eq_zero_of_dvd hd]; simp), h1]
  · intro h
    unfold cluster
    split
    · rfl
    · split
      · rfl
      · rename_i h1 h2
        exact absurd ⟨by omega, Int.dvd_of_emod_eq_zero (by simpa using h2)⟩ h

example : cluster 2 [1, 2, 3, 4] = some [[1, 2], [3, 4]] ∧ cluster 3 [1, 2] = none := by
  decide +kernel

/-- **C104.**  `interleave` gives the first elements of the lists, then their
second elements, and so on; lists that are used up are left out. -/
theorem c104_interleave (ll : List (List α)) (n : Nat) (h : ∀ l ∈ ll, l.length ≤ n) :
    interleave ll = (List.range n).flatMap fun j => ll.filterMap fun l => l[j]? :=
  interleaveGo_eq _ n ll (by unfold weight; omega) h

example : interleave [[1, 2, 3], [], [4], [5, 6]] = [1, 4, 5, 2, 6, 3] := by decide +kernel

/-- **C104.**  `transpose` of a matrix with at least one row has the columns as
its rows. -/
theorem c104_transpose_partial (ll : List (List α)) (m : Nat) (h0 : ll ≠ [])
    (h : ∀ l ∈ ll, l.length = m) :
    ∃ r, transpose ll = some r ∧ r.length = m ∧
      ∀ j < m, ∃ c, r[j]? = some c ∧ c.length = ll.length ∧
        ∀ i : Nat, c[i]? = ll[i]?.bind fun l => l[j]? := by
  cases ll with
  | nil => exact absurd rfl h0
  | cons r rs =>
    have hr := h r (by simp)
    refine ⟨_, transposeGo_ok m _ r rs hr (by simp [hr]) fun l hl => by rw [h l (by simp [hl])]; omega,
      by simp, ?_⟩
    intro j hj
    have key : ∀ L : List (List α), (∀ l ∈ L, l.length = m) →
        (L.filterMap fun l => l[j]?).length = L.length ∧
        ∀ i : Nat, (L.filterMap fun l => l[j]?)[i]? = L[i]?.bind fun l => l[j]? := by
      intro L
      induction L with
      | nil => intro _; simp
      | cons x L ih =>
        intro hL
        obtain ⟨g1, g2⟩ := ih fun l hl => hL l (by simp [hl])
        have hx : j < x.length := by rw [hL x (by simp)]; exact hj
        have : ((x :: L).filterMap fun l => l[j]?) = x[j] :: L.filterMap fun l => l[j]? := by
          rw [List.filterMap_cons, List.getElem?_eq_getElem hx]
        rw [this]
        refine ⟨by simp [g1], ?_⟩
        intro i
        cases i with
        | zero => simp [List.getElem?_eq_getElem hx]
        | succ i => simpa using g2 i
    obtain ⟨g1, g2⟩ := key (r :: rs) h
    exact ⟨_, by simp [hj], g1, g2⟩

example : transpose [[1, 2, 3], [4, 5, 6]] = some [[1, 4], [2, 5], [3, 6]] := by decide +kernel

/-- **C104.**  When `transpose` fails, for all lists of lists. -/
theorem c104_transpose_fail (ll : List (List α)) :
    transpose ll = none ↔ ∀ r rs, ll = r :: rs → ∃ l ∈ rs, l.length < r.length := by
  cases ll with
  | nil => simp [transpose, transposeGo]
  | cons r rs =>
    constructor
    · intro h r' rs' he
      cases he
      by_cases hs : ∃ l ∈ rs, l.length < r.length
      · exact hs
      · exfalso
        have : transpose (r :: rs) = _ := transposeGo_ok r.length _ r rs rfl (by simp) fun l hl => by
          by_cases hlt : l.length < r.length
          · exact absurd ⟨l, hl, hlt⟩ hs
          · omega
        rw [h] at this; cases this
    · intro h
      exact transposeGo_fail r.length _ r rs rfl (h r rs rfl)

/-- **C104 (violated).**  `transpose` accepts rows of different lengths if the
first one is the shortest, and drops the elements that do not fit. -/
theorem c104_transpose_violated :
    transpose [[1], [2, 3]] = some [[1, 2]] ∧ transpose [[1, 3], [2]] = none ∧
    transpose ([] : List (List Nat)) = none := by decide +kernel

/-- **C104.**  `list2str` writes the elements with `sep` between them, `pre`
before and `post` after them. -/
theorem c104_list2str (b : Bool) (pre sep post : List Char) (pr : α → List Char) (l : List α) :
    list2str b pre sep post pr l =
      if l = [] ∧ b = false then [] else pre ++ List.intercalate sep (l.map pr) ++ post := by
  have key : ∀ (es : List (List Char)) (e c : List Char),
      list2strDo sep post c (e :: es) = c ++ List.intercalate sep (e :: es) ++ post := by
    intro es
    induction es with
    | nil => intro e c; simp [list2strDo, List.intercalate]
    | cons x es ih =>
      intro e c
      rw [list2strDo, ih x sep]
      simp [List.intercalate, List.intersperse]
  cases l with
  | nil => cases b <;> simp [list2str, List.intercalate]
  | cons a l =>
    rw [if_neg (by simp)]
    unfold list2str
    dsimp only
    rw [List.map_cons, key]

example : list2str true ['('] [','] [')'] (fun c => [c]) ['a', 'b'] = ['(', 'a', ',', 'b', ')'] := by
  decide +kernel

end Voss.Plist
