import Verif.Lst.Lemmas
import Mathlib.Data.List.Sort
/-
Lemmas on `partition`, `separate` and `qsort`.
-/
namespace Voss.Lst

section
variable {α β F : Type}

/-! ### partition -/

theorem classes_length (eq : β → β → Bool) (g : α → β) (l : List α) :
    (classes eq g l).length = (firsts eq (l.map g)).length := by simp [classes]

/-- The table of `partition` after the elements `P`. -/
def PartTbl (eq : β → β → Bool) (g : α → β) (P : List α) (tbl : List (β × Nat)) : Prop :=
  ∀ v, (tbl.find? (fun x => eq v x.1) = none → ¬ In eq v (P.map g)) ∧
    ∀ x, tbl.find? (fun x => eq v x.1) = some x → 1 ≤ x.2 ∧ (firsts eq (P.map g))[x.2 - 1]? = some x.1

theorem partLoop_eq {eq : β → β → Bool} (he : Equiv eq) (f : α → Except String β) (g : α → β) (l : List α)
    (hf : ∀ e ∈ l, f e = .ok (g e)) (post : List α) : ∀ P tbl, PartTbl eq g P tbl →
    ∃ tbl', PartTbl eq g (P ++ l) tbl' ∧
      partLoop eq f (l ++ post) tbl (classes eq g P) = partLoop eq f post tbl' (classes eq g (P ++ l)) := by
  induction l with
  | nil => intro P tbl h; exact ⟨tbl, by simpa using h, by simp⟩
  | cons e t ih =>
    intro P tbl h
    have e1 : P ++ e :: t = (P ++ [e]) ++ t := by simp
    have hin : ∀ (v : β) (L : List β), In eq v L ↔ In eq v (firsts eq L) := fun v L => (in_firsts he L v).symm
    rw [List.cons_append, partLoop, hf e (by simp), e1]
    simp only
    have hfirst : firsts eq ((P ++ [e]).map g) =
        if (P.map g).any (fun y => eq (g e) y) then firsts eq (P.map g) else firsts eq (P.map g) ++ [g e] := by
      rw [List.map_append, List.map_cons, List.map_nil, firsts_append he]
    cases hfnd : tbl.find? (fun x => eq (g e) x.1) with
    | none =>
      have hno := (h (g e)).1 hfnd
      have hV : firsts eq ((P ++ [e]).map g) = firsts eq (P.map g) ++ [g e] := by
        rw [hfirst, if_neg (fun hh => hno ((any_iff _ _).1 hh))]
      have hcl : classes eq g P ++ [[e]] = classes eq g (P ++ [e]) := by
        unfold classes
        rw [hV, List.map_append]
        congr 1
        · apply List.map_congr_left
          intro v hv
          rw [List.filter_append, List.filter_cons_of_neg, List.filter_nil, List.append_nil]
          intro hve
          exact hno ((hin _ _).2 ⟨v, hv, he.symm _ _ hve⟩)
        · rw [List.map_cons, List.map_nil, List.filter_append, List.filter_cons_of_pos (by exact he.refl _), List.filter_nil]
          have : P.filter (fun x => eq (g e) (g x)) = [] := by
            rw [List.filter_eq_nil_iff]
            intro x hx hxe
            exact hno ⟨g x, List.mem_map_of_mem hx, hxe⟩
          rw [this]; rfl
      have htbl : PartTbl eq g (P ++ [e]) ((g e, (classes eq g P).length + 1) :: tbl) := by
        intro v
        rw [List.find?_cons]
        simp only
        cases hv : eq v (g e) with
        | true =>
          refine ⟨fun hh => by simp at hh, ?_⟩
          intro x hx
          simp only [Option.some.injEq] at hx
          subst hx
          refine ⟨by simp, ?_⟩
          rw [hV, classes_length]
          simp
        | false =>
          refine ⟨?_, ?_⟩
          · intro hn
            have h1 := (h v).1 hn
            rintro ⟨y, hy, hvy⟩
            rw [List.map_append, List.mem_append] at hy
            rcases hy with hy | hy
            · exact h1 ⟨y, hy, hvy⟩
            · simp only [List.map_cons, List.map_nil, List.mem_singleton] at hy
              subst hy
              rw [hv] at hvy; simp at hvy
          · intro x hx
            obtain ⟨h1, h2⟩ := (h v).2 x hx
            refine ⟨h1, ?_⟩
            rw [hV, List.getElem?_append_left (List.getElem?_eq_some_iff.1 h2).1]
            exact h2
      simp only
      rw [hcl]
      exact ih (fun x hx => hf x (by simp [hx])) (P ++ [e]) _ htbl
    | some x =>
      obtain ⟨hx1, hx2⟩ := (h (g e)).2 x hfnd
      have hxe : eq (g e) x.1 = true := by simpa using List.find?_some hfnd
      have hInP : In eq (g e) (P.map g) := (hin _ _).2 ⟨x.1, List.mem_of_getElem? hx2, hxe⟩
      have hV : firsts eq ((P ++ [e]).map g) = firsts eq (P.map g) := by
        rw [hfirst, if_pos ((any_iff _ _).2 hInP)]
      have hget : (classes eq g P)[x.2 - 1]? = some (P.filter (fun y => eq x.1 (g y))) := by
        unfold classes
        rw [List.getElem?_map, hx2]; rfl
      simp only
      rw [hget]
      simp only
      have hcl : (classes eq g P).set (x.2 - 1) (P.filter (fun y => eq x.1 (g y)) ++ [e]) = classes eq g (P ++ [e]) := by
        apply List.ext_getElem?
        intro j
        rw [List.getElem?_set]
        unfold classes
        rw [hV, List.getElem?_map, List.getElem?_map, List.length_map]
        have hlt := (List.getElem?_eq_some_iff.1 hx2).1
        by_cases hj : x.2 - 1 = j
        · subst hj
          rw [if_pos rfl, if_pos hlt, hx2]
          simp only [Option.map_some, Option.some.injEq]
          rw [List.filter_append, List.filter_cons_of_pos (by exact he.symm _ _ hxe), List.filter_nil]
        · rw [if_neg hj]
          cases hvj : (firsts eq (P.map g))[j]? with
          | none => rfl
          | some v =>
            simp only [Option.map_some, Option.some.injEq]
            rw [List.filter_append, List.filter_cons_of_neg, List.filter_nil, List.append_nil]
            intro hve
            -- two equal values among the first ones
            have hnd := firsts_noDup he (P.map g)
            obtain ⟨hjl, hje⟩ := List.getElem?_eq_some_iff.1 hvj
            obtain ⟨hil, hie⟩ := List.getElem?_eq_some_iff.1 hx2
            have hvx : eq v x.1 = true := he.trans _ _ _ hve hxe
            rcases Nat.lt_or_ge (x.2 - 1) j with hlt' | hge
            · have := List.pairwise_iff_getElem.1 hnd _ _ hil hjl hlt'
              rw [hie, hje, he.symm _ _ hvx] at this
              simp at this
            · have := List.pairwise_iff_getElem.1 hnd _ _ hjl hil (by omega)
              rw [hie, hje, hvx] at this
              simp at this
      rw [hcl]
      refine ih (fun y hy => hf y (by simp [hy])) (P ++ [e]) tbl ?_
      intro v
      obtain ⟨h1, h2⟩ := h v
      rw [hV]
      refine ⟨?_, h2⟩
      intro hn hin'
      rw [hin, hV, ← hin] at hin'
      exact h1 hn hin'

/-! ### separate -/

/-- The buffer of `separate` after the positions `Q`. -/
def sepBuf (l : List α) (Q : List Int) : List (Option α) :=
  l.zipIdx.map (fun x => if (x.2 : Int) + 1 ∈ Q then none else some x.1)

theorem sepBuf_get (l : List α) (Q : List Int) (j : Nat) :
    (sepBuf l Q)[j]? = l[j]?.map (fun a => if (j : Int) + 1 ∈ Q then none else some a) := by
  unfold sepBuf
  rw [List.getElem?_map, List.getElem?_zipIdx]
  cases l[j]? with
  | none => rfl
  | some a => simp

theorem sepBuf_set (l : List α) (Q : List Int) (i : Int) (hi : 1 ≤ i) :
    (sepBuf l Q).set (i.toNat - 1) none = sepBuf l (Q ++ [i]) := by
  apply List.ext_getElem?
  intro j
  rw [List.getElem?_set, sepBuf_get, sepBuf_get]
  have hlen : (sepBuf l Q).length = l.length := by simp [sepBuf]
  rw [hlen]
  by_cases hj : i.toNat - 1 = j
  · rw [if_pos hj]
    by_cases hlt : i.toNat - 1 < l.length
    · rw [if_pos hlt, ← hj, List.getElem?_eq_getElem hlt]
      simp only [Option.map_some, Option.some.injEq]
      rw [if_pos]
      rw [List.mem_append]; right
      simp only [List.mem_singleton]
      omega
    · rw [if_neg hlt, List.getElem?_eq_none (by omega)]; rfl
  · rw [if_neg hj]
    congr 1
    funext a
    have : (j : Int) + 1 ∈ Q ↔ (j : Int) + 1 ∈ Q ++ [i] := by
      rw [List.mem_append]
      constructor
      · exact Or.inl
      · rintro (h | h)
        · exact h
        · simp only [List.mem_singleton] at h; omega
    exact if_congr this rfl rfl

theorem eqInt : Equiv (fun a b : Int => a == b) :=
  ⟨fun a => by simp, fun a b h => by simp at h ⊢; exact h.symm, fun a b c h h' => by simp at h h' ⊢; exact h.trans h'⟩

theorem sepLoop_eq (l : List α) (hb : l.length < 2147483648) (is : List Int) (h : ∀ i ∈ is, 1 ≤ i ∧ i ≤ l.length)
    (post : List Int) : ∀ Q : List Int,
    sepLoop (is ++ post) (sepBuf l Q) ((firsts (fun a b : Int => a == b) Q).filterMap (fun i => l[(i - 1).toNat]?)) =
      sepLoop post (sepBuf l (Q ++ is)) ((firsts (fun a b : Int => a == b) (Q ++ is)).filterMap (fun i => l[(i - 1).toNat]?)) := by
  induction is with
  | nil => intro Q; simp
  | cons i t ih =>
    intro Q
    have hi := h i (by simp)
    have hlen : (sepBuf l Q).length = l.length := by simp [sepBuf]
    have e1 : Q ++ i :: t = (Q ++ [i]) ++ t := by simp
    have e2 : (i - 1).toNat = i.toNat - 1 := by omega
    have hlt : i.toNat - 1 < l.length := by omega
    have e3 : ((i.toNat - 1 : Nat) : Int) + 1 = i := by omega
    rw [List.cons_append, sepLoop, getInt_of ⟨by omega, by omega⟩, e1]
    simp only
    rw [toUi_of (by omega) (by omega), hlen, if_neg (by omega), sepBuf_get, List.getElem?_eq_getElem hlt]
    simp only [Option.map_some]
    rw [e3]
    have hany : (Q.any (fun y => i == y)) = true ↔ i ∈ Q := by
      rw [List.any_eq_true]
      constructor
      · rintro ⟨y, hy, hxy⟩; simp only [beq_iff_eq] at hxy; rw [hxy]; exact hy
      · intro hm; exact ⟨i, hm, by simp⟩
    by_cases hQ : i ∈ Q
    · rw [if_pos hQ]
      simp only
      have hb' : sepBuf l Q = sepBuf l (Q ++ [i]) := by
        unfold sepBuf
        apply List.map_congr_left
        intro x _
        refine if_congr ?_ rfl rfl
        rw [List.mem_append]
        constructor
        · exact Or.inl
        · rintro (h | h)
          · exact h
          · simp only [List.mem_singleton] at h; rw [h]; exact hQ
      have hs' : firsts (fun a b : Int => a == b) Q = firsts (fun a b : Int => a == b) (Q ++ [i]) := by
        rw [firsts_append eqInt, if_pos (hany.2 hQ)]
      rw [hb', hs']
      exact ih (fun j hj => h j (by simp [hj])) (Q ++ [i])
    · rw [if_neg hQ]
      simp only
      have hs' : (firsts (fun a b : Int => a == b) Q).filterMap (fun i => l[(i - 1).toNat]?) ++ [l[i.toNat - 1]] =
          (firsts (fun a b : Int => a == b) (Q ++ [i])).filterMap (fun i => l[(i - 1).toNat]?) := by
        rw [firsts_append eqInt, if_neg (fun hh => hQ (hany.1 hh)), List.filterMap_append]
        congr 1
        rw [List.filterMap_cons, e2, List.getElem?_eq_getElem hlt]
        rfl
      rw [sepBuf_set l Q i hi.1, hs']
      exact ih (fun j hj => h j (by simp [hj])) (Q ++ [i])

/-! ### qsort -/

theorem sgn_le (z : Int) : sgn z ≤ 0 ↔ z ≤ 0 := by
  unfold sgn
  split
  · omega
  · split <;> omega

theorem sgn_sgn_neg {a b : Int} (h : sgn a = - sgn b) : (a ≤ 0 ↔ 0 ≤ b) ∧ (0 ≤ a ↔ b ≤ 0) := by
  unfold sgn at h
  split at h <;> split at h <;> (try split at h) <;> (try split at h) <;> omega

/-- The comparison of positions that goes with a comparison of elements. -/
def posCmp (l : List α) (c : α → α → Int) (i j : Nat) : Int :=
  match l[i]?, l[j]? with
  | some a, some b => c a b
  | some _, none => -1
  | none, some _ => 1
  | none, none => 0

theorem posCmp_order {l : List α} {c : α → α → Int} (h : OrderOn l c) : Order (posCmp l c) := by
  constructor
  · intro i j
    unfold posCmp
    cases hi : l[i]? with
    | none =>
      cases hj : l[j]? with
      | none => rfl
      | some b => rfl
    | some a =>
      cases hj : l[j]? with
      | none => rfl
      | some b => exact h.anti a (List.mem_of_getElem? hi) b (List.mem_of_getElem? hj)
  · intro i j k
    unfold posCmp
    cases hi : l[i]? with
    | none =>
      cases hj : l[j]? with
      | none => cases hk : l[k]? <;> simp
      | some b => simp
    | some a =>
      cases hj : l[j]? with
      | none => cases hk : l[k]? <;> simp
      | some b =>
        cases hk : l[k]? with
        | none => simp
        | some d =>
          exact h.trans a (List.mem_of_getElem? hi) b (List.mem_of_getElem? hj) d (List.mem_of_getElem? hk)

theorem runSort_eq (app : F → α → α → Eff F) (l : List α) (f : F) (c : α → α → Int)
    (hc : ∀ a ∈ l, ∀ b ∈ l, app f a b = ⟨.ok (c a b), none⟩) (s : Strat) (hs : s.Within l.length) :
    (runSort app l s ⟨f, true⟩).1 = .ok ((s.eval (posCmp l c)).filterMap (fun i => l[i]?)) := by
  induction s with
  | done out => rfl
  | ask i j k ih =>
    obtain ⟨hi, hj, hk⟩ := hs
    rw [runSort, List.getElem?_eq_getElem hi, List.getElem?_eq_getElem hj]
    simp only
    rw [hc _ (List.getElem_mem hi) _ (List.getElem_mem hj)]
    simp only
    rw [ih _ (hk _), Strat.eval]
    have : posCmp l c i j = c l[i] l[j] := by
      unfold posCmp
      rw [List.getElem?_eq_getElem hi, List.getElem?_eq_getElem hj]
    rw [this]

theorem range_filterMap (l : List α) : (List.range l.length).filterMap (fun i => l[i]?) = l := by
  induction l with
  | nil => rfl
  | cons a t ih =>
    rw [List.length_cons, List.range_succ_eq_map, List.filterMap_cons]
    simp only [List.getElem?_cons_zero]
    rw [List.filterMap_map]
    congr 1

/-! An algorithm that meets the specification of `qsort`: insertion sort. -/

def insTree (i : Nat) : List Nat → (List Nat → Strat) → Strat
  | [], k => k [i]
  | j :: js, k => .ask i j (fun z => if z ≤ 0 then k (i :: j :: js) else insTree i js (fun r => k (j :: r)))

def sortTree : List Nat → (List Nat → Strat) → Strat
  | [], k => k []
  | i :: t, k => sortTree t (fun r => insTree i r k)

def insertion (n : Nat) : Strat := sortTree (List.range n) .done

theorem insTree_eval (c : Nat → Nat → Int) (i : Nat) (l : List Nat) : ∀ k,
    (insTree i l k).eval c = (k (l.orderedInsert (fun a b => c a b ≤ 0) i)).eval c := by
  induction l with
  | nil => intro k; rfl
  | cons j js ih =>
    intro k
    rw [insTree, Strat.eval, List.orderedInsert_cons]
    by_cases h : c i j ≤ 0
    · rw [if_pos ((sgn_le _).2 h), if_pos h]
    · rw [if_neg (fun hh => h ((sgn_le _).1 hh)), if_neg h, ih]

theorem sortTree_eval (c : Nat → Nat → Int) (l : List Nat) : ∀ k,
    (sortTree l k).eval c = (k (l.insertionSort (fun a b => c a b ≤ 0))).eval c := by
  induction l with
  | nil => intro k; rfl
  | cons i t ih => intro k; rw [sortTree, ih, insTree_eval, List.insertionSort_cons]

theorem insTree_within (n i : Nat) (hi : i < n) (l : List Nat) : (∀ j ∈ l, j < n) → ∀ k : List Nat → Strat,
    (∀ r, (∀ j ∈ r, j < n) → (k r).Within n) → (insTree i l k).Within n := by
  induction l with
  | nil => intro _ k hk; exact hk _ (by simpa using hi)
  | cons j js ih =>
    intro hl k hk
    refine ⟨hi, hl j (by simp), fun z => ?_⟩
    show (if z ≤ 0 then _ else _ : Strat).Within n
    split
    · refine hk _ ?_
      intro x hx
      rcases List.mem_cons.1 hx with rfl | hx
      · exact hi
      · exact hl x hx
    · refine ih (fun x hx => hl x (by simp [hx])) _ ?_
      intro r hr
      refine hk _ ?_
      intro x hx
      rcases List.mem_cons.1 hx with rfl | hx
      · exact hl x (by simp)
      · exact hr x hx

theorem sortTree_within (n : Nat) (l : List Nat) : (∀ j ∈ l, j < n) → ∀ k : List Nat → Strat,
    (∀ r, (∀ j ∈ r, j < n) → (k r).Within n) → (sortTree l k).Within n := by
  induction l with
  | nil => intro _ k hk; exact hk _ (by simp)
  | cons i t ih =>
    intro hl k hk
    refine ih (fun x hx => hl x (by simp [hx])) _ ?_
    intro r hr
    exact insTree_within n i (hl i (by simp)) r hr k hk

theorem insertion_ok : SortOk insertion := by
  constructor
  · intro n
    exact sortTree_within n _ (by simp) _ (fun _ _ => trivial)
  · intro n c _
    unfold insertion
    rw [sortTree_eval, Strat.eval]
    exact List.perm_insertionSort _ _
  · intro n c hc
    unfold insertion
    rw [sortTree_eval, Strat.eval]
    have h1 : Std.Total (fun a b : Nat => c a b ≤ 0) := ⟨fun a b => by
      have := sgn_sgn_neg (hc.anti a b)
      omega⟩
    have h2 : IsTrans Nat (fun a b : Nat => c a b ≤ 0) := ⟨fun a b d => hc.trans a b d⟩
    exact List.pairwise_insertionSort _ _

end
end Voss.Lst
