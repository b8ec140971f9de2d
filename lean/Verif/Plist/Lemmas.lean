import Verif.Plist.Model

/-! # Lemmas on the list functions of the preamble -/

namespace Voss.Plist

variable {α β γ δ ε : Type}

theorem uptoGen_eq (t : Int) : ∀ (k : Nat) (i : Int), (t + 1 - i).toNat < k →
    uptoGen t k i = (List.range (t + 1 - i).toNat).map fun (j : Nat) => i + (j : Int) := by
  intro k
  induction k with
  | zero => intro i h; omega
  | succ k ih =>
    intro i h
    rw [uptoGen]
    split
    · have : (t + 1 - i).toNat = 0 := by omega
      simp [this]
    · have e : (t + 1 - i).toNat = (t + 1 - (i + 1)).toNat + 1 := by omega
      rw [ih (i + 1) (by omega), e, List.range_succ_eq_map]
      simp only [List.map_cons, List.map_map, Int.natCast_zero, Int.add_zero]
      congr 1
      apply List.map_congr_left
      intro j _
      simp only [Function.comp_apply, Nat.succ_eq_add_one, Int.natCast_add, Int.natCast_one]
      omega

theorem downtoGen_eq (t : Int) : ∀ (k : Nat) (i : Int), (i + 1 - t).toNat < k →
    downtoGen t k i = (List.range (i + 1 - t).toNat).map fun (j : Nat) => i - (j : Int) := by
  intro k
  induction k with
  | zero => intro i h; omega
  | succ k ih =>
    intro i h
    rw [downtoGen]
    split
    · have : (i + 1 - t).toNat = 0 := by omega
      simp [this]
    · have e : (i + 1 - t).toNat = (i - 1 + 1 - t).toNat + 1 := by omega
      rw [ih (i - 1) (by omega), e, List.range_succ_eq_map]
      simp only [List.map_cons, List.map_map, Int.natCast_zero, Int.sub_zero]
      congr 1
      apply List.map_congr_left
      intro j _
      simp only [Function.comp_apply, Nat.succ_eq_add_one, Int.natCast_add, Int.natCast_one]
      omega

theorem zip_eq : ∀ (l1 : List α) (l2 : List β),
    zip l1 l2 = if l1.length = l2.length then some (l1.zip l2) else none := by
  intro l1
  induction l1 with
  | nil => intro l2; cases l2 <;> simp [zip]
  | cons a l1 ih =>
    intro l2
    cases l2 with
    | nil => simp [zip]
    | cons b l2 =>
      rw [zip, ih l2]
      by_cases h : l1.length = l2.length <;> simp [h]

theorem map2_eq (f : α → β → γ) : ∀ (l1 : List α) (l2 : List β),
    map2 f l1 l2 = if l1.length = l2.length then some (l1.zipWith f l2) else none := by
  intro l1
  induction l1 with
  | nil => intro l2; cases l2 <;> simp [map2]
  | cons a l1 ih =>
    intro l2
    cases l2 with
    | nil => simp [map2]
    | cons b l2 =>
      rw [map2, ih l2]
      by_cases h : l1.length = l2.length <;> simp [h]

theorem map3_eq (f : α → β → γ → δ) : ∀ (l1 : List α) (l2 : List β) (l3 : List γ),
    map3 f l1 l2 l3 = if l1.length = l2.length ∧ l1.length = l3.length then
      some ((l1.zip (l2.zip l3)).map fun p => f p.1 p.2.1 p.2.2) else none := by
  intro l1
  induction l1 with
  | nil => intro l2 l3; cases l2 <;> cases l3 <;> simp [map3]
  | cons a l1 ih =>
    intro l2 l3
    cases l2 with
    | nil => simp [map3]
    | cons b l2 =>
      cases l3 with
      | nil => simp [map3]
      | cons c l3 =>
        rw [map3, ih l2 l3]
        by_cases h : l1.length = l2.length ∧ l1.length = l3.length
        · rw [if_pos h, if_pos (by simp [h.1, h.2.symm ▸ h.1.symm])]; simp
        · rw [if_neg h, if_neg (by simpa using h)]; rfl

theorem map4_eq (f : α → β → γ → δ → ε) : ∀ (l1 : List α) (l2 : List β) (l3 : List γ) (l4 : List δ),
    map4 f l1 l2 l3 l4 =
      if l1.length = l2.length ∧ l1.length = l3.length ∧ l1.length = l4.length then
      some ((l1.zip (l2.zip (l3.zip l4))).map fun p => f p.1 p.2.1 p.2.2.1 p.2.2.2) else none := by
  intro l1
  induction l1 with
  | nil => intro l2 l3 l4; cases l2 <;> cases l3 <;> cases l4 <;> simp [map4]
  | cons a l1 ih =>
    intro l2 l3 l4
    cases l2 with
    | nil => simp [map4]
    | cons b l2 =>
      cases l3 with
      | nil => simp [map4]
      | cons c l3 =>
        cases l4 with
        | nil => simp [map4]
        | cons d l4 =>
          rw [map4, ih l2 l3 l4]
          simp only [List.length_cons, Nat.add_right_cancel_iff]
          split
          · simp
          · rfl

theorem replicateGo_eq (n : Nat) (x : α) : replicateGo n x = List.replicate n x := by
  induction n with
  | zero => rfl
  | succ n ih => rw [replicateGo, ih, List.replicate_succ]

theorem itlist_eq (f : α → β → β) (l : List α) (x : β) : itlist f l x = l.foldr f x := by
  induction l with
  | nil => rfl
  | cons a l ih => rw [itlist, ih, List.foldr_cons]

theorem revItlist_eq (f : α → β → β) (l : List α) : ∀ x : β,
    revItlist f l x = l.foldl (fun x a => f a x) x := by
  induction l with
  | nil => intro x; rfl
  | cons a l ih => intro x; rw [revItlist, ih, List.foldl_cons]

theorem flatmap_eq (f : α → List β) (l : List α) : flatmap f l = l.flatMap f := by
  induction l with
  | nil => rfl
  | cons a l ih => rw [flatmap, ih, List.flatMap_cons]

theorem unzip_eq (l : List (α × β)) : unzip l = (l.map Prod.fst, l.map Prod.snd) := by
  induction l with
  | nil => rfl
  | cons a l ih => rw [unzip, ih]; rfl

/-! ## `cluster` -/

theorem clusterGo_ok (sz : Nat) (h0 : 0 < sz) : ∀ (q k : Nat) (l : List α), l.length = q * sz → q < k →
    ∃ r, clusterGo (sz : Int) k l = some r ∧ r.flatten = l ∧ ∀ x ∈ r, x.length = sz := by
  intro q
  induction q with
  | zero =>
    intro k l hl hk
    have : l = [] := List.length_eq_zero_iff.mp (by simpa using hl)
    subst this
    cases k with
    | zero => omega
    | succ k => exact ⟨[], rfl, rfl, by simp⟩
  | succ q ih =>
    intro k l hl hk
    cases k with
    | zero => omega
    | succ k =>
      have hlen : sz ≤ l.length := by rw [hl, Nat.succ_mul]; omega
      obtain ⟨r, h1, h2, h3⟩ := ih k (l.drop sz) (by rw [List.length_drop, hl, Nat.succ_mul]; omega)
        (by omega)
      refine ⟨l.take sz :: r, ?_, by simp [h2], ?_⟩
      · cases l with
        | nil => simp at hlen; omega
        | cons a l =>
          rw [clusterGo]
          · simp only [firstn, butfirstn, Int.toNat_natCast, if_pos hlen, h1, Option.map_some]
          · simp
      · intro x hx
        rcases List.mem_cons.mp hx with hx | hx
        · rw [hx, List.length_take]; omega
        · exact h3 x hx

/-! ## `interleave` -/

theorem hdlist_eq (ll : List (List α)) : hdlist ll = ll.filterMap fun l => l[0]? := by
  induction ll with
  | nil => rfl
  | cons h ll ih => cases h <;> simp [hdlist, ih]

theorem rem_eq (ll : List (List α)) (j : Nat) :
    ((rem ll).filterMap fun l => l[j]?) = ll.filterMap fun l => l[j + 1]? := by
  induction ll with
  | nil => rfl
  | cons h ll ih =>
    cases h with
    | nil => simp [rem, ih]
    | cons a h =>
      simp only [rem, List.cons_append, List.nil_append, List.filterMap_cons, ih,
        List.getElem?_cons_succ]

theorem rem_length (ll : List (List α)) (n : Nat) (h : ∀ l ∈ ll, l.length ≤ n + 1) :
    ∀ l ∈ rem ll, l.length ≤ n := by
  induction ll with
  | nil => simp [rem]
  | cons x ll ih =>
    intro l hl
    have ih := ih fun l hl => h l (by simp [hl])
    have hx := h x (by simp)
    cases x with
    | nil => exact ih l (by simpa [rem] using hl)
    | cons a x =>
      simp only [rem, List.cons_append, List.nil_append, List.mem_cons] at hl
      rcases hl with hl | hl
      · rw [hl]; simpa using hx
      · exact ih l hl

theorem rem_empty (ll : List (List α)) (h : ∀ l ∈ ll, l.length ≤ 0) : rem ll = [] := by
  induction ll with
  | nil => rfl
  | cons x ll ih =>
    have hx : x = [] := List.length_eq_zero_iff.mp (Nat.le_zero.mp (h x (by simp)))
    subst hx
    simpa [rem] using ih fun l hl => h l (by simp [hl])

def weight (ll : List (List α)) : Nat := (ll.map List.length).sum + ll.length

theorem rem_weight (ll : List (List α)) : weight (rem ll) + ll.length ≤ weight ll := by
  induction ll with
  | nil => simp [rem, weight]
  | cons x ll ih =>
    cases x with
    | nil => simp [rem, weight] at ih ⊢; omega
    | cons a x => simp [rem, weight] at ih ⊢; omega

theorem interleaveGo_eq : ∀ (k n : Nat) (ll : List (List α)), weight ll < k →
    (∀ l ∈ ll, l.length ≤ n) →
    interleaveGo k ll = (List.range n).flatMap fun j => ll.filterMap fun l => l[j]? := by
  intro k
  induction k with
  | zero => intro n ll h; omega
  | succ k ih =>
    intro n ll hk hn
    cases ll with
    | nil => simp [interleaveGo]
    | cons x ll =>
      have hw := rem_weight (x :: ll)
      have hw' : weight (rem (x :: ll)) < k := by
        simp only [List.length_cons] at hw; omega
      rw [interleaveGo]
      · cases n with
        | zero =>
          rw [rem_empty _ hn, hdlist_eq]
          have : interleaveGo k ([] : List (List α)) = [] := by cases k <;> rfl
          rw [this, List.append_nil, List.range_zero, List.flatMap_nil, List.filterMap_eq_nil_iff]
          intro l hl
          have : l = [] := List.length_eq_zero_iff.mp (Nat.le_zero.mp (hn l hl))
          simp [this]
        | succ n =>
          rw [ih n _ hw' (rem_length _ n hn), hdlist_eq, List.range_succ_eq_map,
            List.flatMap_cons, List.flatMap_map]
          congr 2
          funext j
          exact rem_eq _ j
      · simp

/-! ## `transpose` -/

theorem heads_some (ll : List (List α)) (h : ∀ l ∈ ll, l ≠ []) :
    heads ll = some (ll.filterMap fun l => l[0]?) ∧
      tails ll = some (ll.map List.tail) := by
  induction ll with
  | nil => exact ⟨rfl, rfl⟩
  | cons x ll ih =>
    obtain ⟨h1, h2⟩ := ih fun l hl => h l (by simp [hl])
    cases x with
    | nil => exact absurd rfl (h [] (by simp))
    | cons a x => simp [heads, tails, h1, h2]

theorem heads_none (ll : List (List α)) (h : ∃ l ∈ ll, l = []) : heads ll = none := by
  induction ll with
  | nil => simp at h
  | cons x ll ih =>
    cases x with
    | nil => rfl
    | cons a x =>
      rw [heads, ih (by
        obtain ⟨l, hl, rfl⟩ := h
        rcases List.mem_cons.mp hl with hl | hl
        · cases hl
        · exact ⟨[], hl, rfl⟩)]
      rfl

theorem tails_get (ll : List (List α)) (j : Nat) :
    ((ll.map List.tail).filterMap fun l => l[j]?) = ll.filterMap fun l => l[j + 1]? := by
  rw [List.filterMap_map]
  congr 1
  funext l
  cases l <;> simp

theorem transposeGo_ok : ∀ (n k : Nat) (r : List α) (rs : List (List α)), r.length = n → n < k →
    (∀ l ∈ rs, n ≤ l.length) →
    transposeGo k (r :: rs) =
      some ((List.range n).map fun j => (r :: rs).filterMap fun l => l[j]?) := by
  intro n
  induction n with
  | zero =>
    intro k r rs hr hk _
    have : r = [] := List.length_eq_zero_iff.mp hr
    subst this
    cases k with
    | zero => omega
    | succ k => rfl
  | succ n ih =>
    intro k r rs hr hk hl
    cases k with
    | zero => omega
    | succ k =>
      cases r with
      | nil => simp at hr
      | cons a r =>
        have hne : ∀ l ∈ (a :: r) :: rs, l ≠ [] := by
          intro l hm he
          rcases List.mem_cons.mp hm with h | h
          · rw [he] at h; cases h
          · have := hl l h; rw [he] at this; simp at this
        obtain ⟨h1, h2⟩ := heads_some _ hne
        rw [transposeGo, h1, h2]
        dsimp only
        rw [List.map_cons, List.tail_cons, ih k r (rs.map List.tail) (by simpa using hr) (by omega) (by
          intro l hm
          obtain ⟨l', hm', rfl⟩ := List.mem_map.mp hm
          have := hl l' hm'
          rw [List.length_tail]; omega)]
        rw [Option.map_some, List.range_succ_eq_map, List.map_cons, List.map_map]
        congr 2
        apply List.map_congr_left
        intro j _
        have := tails_get ((a :: r) :: rs) j
        simpa using this

theorem transposeGo_fail : ∀ (n k : Nat) (r : List α) (rs : List (List α)), r.length = n →
    (∃ l ∈ rs, l.length < n) → transposeGo k (r :: rs) = none := by
  intro n
  induction n with
  | zero => rintro k r rs _ ⟨l, _, h⟩; omega
  | succ n ih =>
    intro k r rs hr hs
    cases k with
    | zero => rfl
    | succ k =>
      cases r with
      | nil => simp at hr
      | cons a r =>
        rw [transposeGo]
        by_cases hne : ∃ l ∈ (a :: r) :: rs, l = []
        · rw [heads_none _ hne]
        · have hne' : ∀ l ∈ (a :: r) :: rs, l ≠ [] := fun l hl he => hne ⟨l, hl, he⟩
          obtain ⟨h1, h2⟩ := heads_some _ hne'
          rw [h1, h2]
          dsimp only
          rw [List.map_cons, List.tail_cons, ih k r (rs.map List.tail) (by simpa using hr) (by
            obtain ⟨l, hl, hlt⟩ := hs
            refine ⟨l.tail, List.mem_map_of_mem hl, ?_⟩
            have : l ≠ [] := hne' l (by simp [hl])
            have := List.length_pos_iff.mpr this
            rw [List.length_tail]; omega)]
          rfl

end Voss.Plist
