import Verif.Lst.Spec
/-
Lemmas on lists with evaluated spines, predicates and sets.
-/
namespace Voss.Lst

section
variable {α β σ : Type}

theorem getInt_of {z : Int} (h : InInt z) : getInt z = some z := by
  obtain ⟨h1, h2⟩ := h
  unfold getInt
  rw [if_pos (by omega)]
  rw [Int.bmod_eq_of_le] <;> omega

theorem push_all (l : List α) : ∀ b, l.foldl (fun b e => b ++ [e]) b = b ++ l := by
  induction l with
  | nil => intro b; simp
  | cons e t ih => intro b; rw [List.foldl_cons, ih]; simp

theorem rev_eq (l : List α) : rev l = l.reverse := by
  unfold rev
  simp only [push_all, List.nil_append]
  induction l with
  | nil => rfl
  | cons e t ih => rw [List.foldr_cons, ih]; simp

theorem length_eq (l : List α) : ∀ c, length l c = c + l.length := by
  induction l with
  | nil => intro c; simp [length]
  | cons e t ih => intro c; rw [length, ih]; simp; omega

theorem skip_eq (n : Nat) : ∀ l : List α, n ≤ l.length → skip n (some l) = some (some (l.drop n)) := by
  induction n with
  | zero => intro l _; rfl
  | succ n ih =>
    intro l h
    cases l with
    | nil => simp at h
    | cons e t => rw [skip, tlPtr, ih t (by simpa using h)]; simp

theorem skip_none (n : Nat) : skip n (none : Option (List α)) = none ∨ skip n (none : Option (List α)) = some none := by
  cases n with
  | zero => right; rfl
  | succ n => left; rfl

theorem skip_past (n : Nat) : ∀ l : List α, l.length < n → skip n (some l) = none ∨ skip n (some l) = some none := by
  induction n with
  | zero => intro l h; omega
  | succ n ih =>
    intro l h
    cases l with
    | nil => exact skip_none n
    | cons e t => exact ih t (by simpa using h)

theorem copyN_eq (n : Nat) : ∀ (l res : List α), n ≤ l.length → copyN n l res = some (res ++ l.take n) := by
  induction n with
  | zero => intro l res _; simp [copyN]
  | succ n ih =>
    intro l res h
    cases l with
    | nil => simp at h
    | cons e t => rw [copyN, ih t _ (by simpa using h)]; simp

theorem copyN_past (n : Nat) : ∀ (l res : List α), l.length < n → copyN n l res = none := by
  induction n with
  | zero => intro l res h; omega
  | succ n ih =>
    intro l res h
    cases l with
    | nil => rfl
    | cons e t => exact ih t _ (by simpa using h)

theorem butlastLoop_eq (l : List α) : ∀ res, butlastLoop l res = res ++ l.dropLast := by
  induction l with
  | nil => intro res; simp [butlastLoop]
  | cons e t ih =>
    intro res
    cases t with
    | nil => simp [butlastLoop]
    | cons e' t => rw [butlastLoop, ih]; simp

theorem lastLoop_eq (l : List α) : ∀ p, lastLoop l p = if l.isEmpty then p else l.getLast? := by
  induction l with
  | nil => intro p; rfl
  | cons e t ih =>
    intro p
    rw [lastLoop, ih]
    cases t with
    | nil => simp
    | cons e' t => simp [List.getLast?_cons]

theorem copyList_eq (l : List α) : ∀ res, copyList l res = res ++ l := by
  induction l with
  | nil => intro res; simp [copyList]
  | cons e t ih => intro res; rw [copyList, ih]; simp

theorem flatLoop_eq (l : List (List α)) : ∀ res, flatLoop l res = res ++ l.flatten := by
  induction l with
  | nil => intro res; simp [flatLoop]
  | cons e t ih => intro res; rw [flatLoop, ih, copyList_eq]; simp

theorem sitlist_eq (f : α → β → β) (l : List α) (z : β) : sitlist f l z = l.foldr f z := by
  unfold sitlist
  simp only [push_all, List.nil_append, List.foldl_reverse]

/-! ### Positions -/

theorem toUi_of {i : Int} (h1 : 1 ≤ i) (h2 : i < 2147483648) : toUi i = i.toNat := by
  unfold toUi
  rw [Int.emod_eq_of_lt (by omega) (by omega)]

theorem toUi_neg {i : Int} (h1 : i < 0) (h2 : -2147483648 ≤ i) : 2147483648 ≤ toUi i := by
  unfold toUi
  omega

theorem gather_eq (buf : List α) (hb : buf.length < 2147483648) (is : List Int) (h : ∀ i ∈ is, 1 ≤ i ∧ i ≤ buf.length) :
    ∀ res, gatherLoop buf is res = .ok (res ++ is.filterMap (fun i => buf[(i - 1).toNat]?)) := by
  induction is with
  | nil => intro res; simp [gatherLoop]
  | cons i t ih =>
    intro res
    have hi := h i (by simp)
    rw [gatherLoop, getInt_of ⟨by omega, by omega⟩]
    simp only
    rw [toUi_of (by omega) (by omega), if_neg (by omega)]
    have hlt : i.toNat - 1 < buf.length := by omega
    have e1 : (i - 1).toNat = i.toNat - 1 := by omega
    rw [List.getElem?_eq_getElem hlt]
    simp only
    rw [ih (fun j hj => h j (by simp [hj]))]
    rw [List.filterMap_cons, e1, List.getElem?_eq_getElem hlt]
    simp

theorem gather_out (buf : List α) (hb : buf.length < 2147483648) (pre : List Int) (i : Int) (post : List Int)
    (h : ∀ i ∈ pre, 1 ≤ i ∧ i ≤ buf.length) (hi : InInt i) (hbad : i < 1 ∨ (buf.length : Int) < i) :
    ∀ res, gatherLoop buf (pre ++ i :: post) res = .own := by
  induction pre with
  | nil =>
    intro res
    obtain ⟨hi1, hi2⟩ := hi
    rw [List.nil_append, gatherLoop, getInt_of ⟨hi1, hi2⟩]
    simp only
    rw [if_pos]
    by_cases hn : i < 0
    · right
      exact Nat.lt_of_lt_of_le hb (toUi_neg hn hi1)
    · by_cases h0 : i = 0
      · left; subst h0; decide
      · right
        rw [toUi_of (by omega) hi2]
        omega
  | cons j t ih =>
    intro res
    have hj := h j (by simp)
    rw [List.cons_append, gatherLoop, getInt_of ⟨by omega, by omega⟩]
    simp only
    rw [toUi_of (by omega) (by omega), if_neg (by omega)]
    have hlt : j.toNat - 1 < buf.length := by omega
    rw [List.getElem?_eq_getElem hlt]
    exact ih (fun k hk => h k (by simp [hk])) _

/-! ### Predicates -/

theorem filterLoop_eq (p : α → PRes) (l : List α) (h : ∀ e ∈ l, Decided p e) :
    ∀ res post, filterLoop p (l ++ post) res = filterLoop p post (res ++ l.filter (yes p)) := by
  induction l with
  | nil => intro res post; simp
  | cons e t ih =>
    intro res post
    have ih := ih (fun x hx => h x (by simp [hx]))
    rw [List.cons_append, filterLoop]
    rcases h e (by simp) with he | he
    · rw [he, List.filter_cons_of_pos (by simp [yes, he])]
      simp only; rw [ih]; simp
    · rw [he, List.filter_cons_of_neg (by simp [yes, he])]
      simp only; rw [ih]

theorem splitLoop_eq (p : α → PRes) (l : List α) (h : ∀ e ∈ l, Decided p e) :
    ∀ a b post, splitLoop p (l ++ post) a b =
      splitLoop p post (a ++ l.filter (yes p)) (b ++ l.filter (fun e => !yes p e)) := by
  induction l with
  | nil => intro a b post; simp
  | cons e t ih =>
    intro a b post
    have ih := ih (fun x hx => h x (by simp [hx]))
    rw [List.cons_append, splitLoop]
    rcases h e (by simp) with he | he
    · rw [he, List.filter_cons_of_pos (by simp [yes, he]), List.filter_cons_of_neg (by simp [yes, he])]
      simp only; rw [ih]; simp
    · rw [he, List.filter_cons_of_neg (by simp [yes, he]), List.filter_cons_of_pos (by simp [yes, he])]
      simp only; rw [ih]; simp

/-- The positions, from `k + 1` on, of the elements that satisfy the predicate. -/
def positions (p : α → PRes) : Nat → List α → List Int
  | _, [] => []
  | k, e :: t => if yes p e then ((k : Int) + 1) :: positions p (k + 1) t else positions p (k + 1) t

theorem findAllLoop_eq (p : α → PRes) (l : List α) (h : ∀ e ∈ l, Decided p e) :
    ∀ (k : Nat) res post, findAllLoop p (l ++ post) k res = findAllLoop p post ((k + l.length : Nat) : Int) (res ++ positions p k l) := by
  induction l with
  | nil => intro k res post; simp [positions]
  | cons e t ih =>
    intro k res post
    have ih := ih (fun x hx => h x (by simp [hx]))
    have e1 : k + (e :: t).length = k + 1 + t.length := by simp; omega
    have e2 : (k : Int) + 1 = ((k + 1 : Nat) : Int) := by omega
    rw [List.cons_append, findAllLoop, positions, e1]
    rcases h e (by simp) with he | he
    · rw [he, if_pos (by simp [yes, he])]
      simp only; rw [e2, ih]; simp
    · rw [he, if_neg (by simp [yes, he])]
      simp only; rw [e2, ih]

theorem positions_mem (p : α → PRes) (l : List α) : ∀ (k : Nat) (i : Int), i ∈ positions p k l ↔
    ∃ j : Nat, i = k + j + 1 ∧ ∃ e, l[j]? = some e ∧ yes p e = true := by
  induction l with
  | nil => intro k i; simp [positions]
  | cons e t ih =>
    intro k i
    have hcons : (∃ j : Nat, i = k + j + 1 ∧ ∃ x, (e :: t)[j]? = some x ∧ yes p x = true) ↔
        ((i = k + 1 ∧ yes p e = true) ∨ i ∈ positions p (k + 1) t) := by
      rw [ih]
      constructor
      · rintro ⟨j, hj, x, hx, hy⟩
        cases j with
        | zero =>
          left
          simp only [List.getElem?_cons_zero, Option.some.injEq] at hx
          subst hx
          exact ⟨by omega, hy⟩
        | succ j =>
          right
          rw [List.getElem?_cons_succ] at hx
          exact ⟨j, by omega, x, hx, hy⟩
      · rintro (⟨hi, hy⟩ | ⟨j, hj, x, hx, hy⟩)
        · exact ⟨0, by omega, e, by simp, hy⟩
        · exact ⟨j + 1, by omega, x, by simpa using hx, hy⟩
    rw [hcons, positions]
    by_cases hy : yes p e = true
    · rw [if_pos hy, List.mem_cons]; simp [hy]
    · rw [if_neg hy]; simp [hy]

theorem positions_sorted (p : α → PRes) (l : List α) : ∀ k : Nat, (positions p k l).Pairwise (· < ·) := by
  induction l with
  | nil => intro k; simp [positions]
  | cons e t ih =>
    intro k
    rw [positions]
    split
    · rw [List.pairwise_cons]
      refine ⟨?_, ih _⟩
      intro i hi
      obtain ⟨j, hj, -⟩ := (positions_mem p t _ _).1 hi
      omega
    · exact ih _

/-! ### Sets -/

variable {eq : α → α → Bool}

theorem firsts_sub (l : List α) : (firsts eq l).Sublist l := by
  induction l with
  | nil => exact List.Sublist.refl _
  | cons x t ih => exact List.Sublist.cons_cons _ (List.filter_sublist.trans ih)

theorem firsts_append (he : Equiv eq) (l : List α) (x : α) :
    firsts eq (l ++ [x]) = if l.any (fun y => eq x y) then firsts eq l else firsts eq l ++ [x] := by
  induction l with
  | nil => simp [firsts]
  | cons y t ih =>
    rw [List.cons_append, firsts, ih, firsts, List.any_cons]
    by_cases h1 : t.any (fun y => eq x y) = true
    · rw [if_pos h1, if_pos (by simp [h1])]
    · rw [if_neg h1, List.filter_append]
      by_cases h2 : eq x y = true
      · rw [if_pos (by simp [h2])]
        simp [h2]
      · rw [if_neg (by simp only [Bool.or_eq_true, not_or]; exact ⟨h2, h1⟩)]
        simp [h2]

theorem in_firsts (he : Equiv eq) (l : List α) (x : α) : In eq x (firsts eq l) ↔ In eq x l := by
  constructor
  · rintro ⟨y, hy, h⟩
    exact ⟨y, (firsts_sub l).subset hy, h⟩
  · rintro ⟨y, hy, h⟩
    induction l with
    | nil => simp at hy
    | cons z t ih =>
      rw [firsts]
      by_cases hz : eq x z = true
      · exact ⟨z, by simp, hz⟩
      · rcases List.mem_cons.1 hy with rfl | hy
        · exact absurd h hz
        · obtain ⟨w, hw, hxw⟩ := ih hy
          refine ⟨w, List.mem_cons_of_mem _ (List.mem_filter.2 ⟨hw, ?_⟩), hxw⟩
          simp only [Bool.not_eq_true']
          cases hwz : eq w z with
          | false => rfl
          | true => exact absurd (he.trans _ _ _ hxw hwz) hz

theorem firsts_noDup (he : Equiv eq) (l : List α) : NoDup eq (firsts eq l) := by
  induction l with
  | nil => exact List.Pairwise.nil
  | cons x t ih =>
    rw [firsts]
    refine List.pairwise_cons.2 ⟨?_, ih.sublist List.filter_sublist⟩
    intro y hy
    have h1 := (List.mem_filter.1 hy).2
    cases hxy : eq x y with
    | false => rfl
    | true => rw [he.symm _ _ hxy] at h1; simp at h1

theorem firsts_of_noDup (l : List α) (he : Equiv eq) (h : NoDup eq l) : firsts eq l = l := by
  induction l with
  | nil => rfl
  | cons x t ih =>
    obtain ⟨h1, h2⟩ := List.pairwise_cons.1 h
    rw [firsts, ih h2, List.filter_eq_self.2]
    intro y hy
    simp only [Bool.not_eq_true']
    cases hyx : eq y x with
    | false => rfl
    | true => have := h1 y hy; rw [he.symm _ _ hyx] at this; simp at this

theorem has_iff (set : List α) (d : α) : has eq set d = true ↔ In eq d set := by
  unfold has In
  rw [List.find?_isSome]

theorem any_iff (l : List α) (d : α) : l.any (fun y => eq d y) = true ↔ In eq d l := by
  rw [List.any_eq_true]; rfl

theorem in_congr (he : Equiv eq) {x y : α} (h : eq x y = true) (l : List α) : In eq x l ↔ In eq y l :=
  ⟨fun ⟨z, hz, hxz⟩ => ⟨z, hz, he.trans _ _ _ (he.symm _ _ h) hxz⟩, fun ⟨z, hz, hyz⟩ => ⟨z, hz, he.trans _ _ _ h hyz⟩⟩

/-- The invariant of the loop that collects new elements: what has been seen is `P`. -/
theorem addNew_eq (he : Equiv eq) (l : List α) : ∀ P set : List α, (∀ d, In eq d set ↔ In eq d P) →
    (∀ d, In eq d (addNew eq l set (firsts eq P)).1 ↔ In eq d (P ++ l)) ∧
    (addNew eq l set (firsts eq P)).2 = firsts eq (P ++ l) := by
  induction l with
  | nil => intro P set h; simp [addNew, h]
  | cons d t ih =>
    intro P set h
    have e1 : P ++ d :: t = (P ++ [d]) ++ t := by simp
    rw [addNew, e1]
    by_cases hd : has eq set d = true
    · have hP : In eq d P := (h d).1 ((has_iff _ _).1 hd)
      rw [if_pos hd]
      have e2 : firsts eq P = firsts eq (P ++ [d]) := by
        rw [firsts_append he, if_pos ((any_iff _ _).2 hP)]
      rw [e2]
      refine ih (P ++ [d]) set ?_
      intro x
      rw [h]
      constructor
      · rintro ⟨y, hy, hxy⟩; exact ⟨y, by simp [hy], hxy⟩
      · rintro ⟨y, hy, hxy⟩
        rcases List.mem_append.1 hy with hy | hy
        · exact ⟨y, hy, hxy⟩
        · simp only [List.mem_singleton] at hy
          subst hy
          exact (in_congr he hxy _).2 hP
    · have hP : ¬ In eq d P := fun hp => hd ((has_iff _ _).2 ((h d).2 hp))
      rw [if_neg hd]
      have e2 : firsts eq P ++ [d] = firsts eq (P ++ [d]) := by
        rw [firsts_append he, if_neg (fun hh => hP ((any_iff _ _).1 hh))]
      rw [e2]
      refine ih (P ++ [d]) (d :: set) ?_
      intro x
      have hx := h x
      constructor
      · rintro ⟨y, hy, hxy⟩
        rcases List.mem_cons.1 hy with rfl | hy
        · exact ⟨y, by simp, hxy⟩
        · obtain ⟨z, hz, hxz⟩ := hx.1 ⟨y, hy, hxy⟩
          exact ⟨z, by simp [hz], hxz⟩
      · rintro ⟨y, hy, hxy⟩
        rcases List.mem_append.1 hy with hy | hy
        · obtain ⟨z, hz, hxz⟩ := hx.2 ⟨y, hy, hxy⟩
          exact ⟨z, by simp [hz], hxz⟩
        · simp only [List.mem_singleton] at hy
          subst hy
          exact ⟨y, by simp, hxy⟩

theorem setify_eq (he : Equiv eq) (l : List α) : setify eq l = firsts eq l := by
  have h := (addNew_eq he l [] [] (fun d => Iff.rfl)).2
  simpa [setify, firsts] using h

theorem union_eq (he : Equiv eq) (s1 s2 : List α) : union eq s1 s2 =
    if s1.isEmpty then s2 else if s2.isEmpty then s1 else firsts eq (s1 ++ s2) := by
  unfold union
  split
  · rfl
  · split
    · rfl
    · have h1 := addNew_eq he s1 [] [] (fun d => Iff.rfl)
      simp only [firsts, List.nil_append] at h1
      have h2 := addNew_eq he s2 s1 (addNew eq s1 [] []).1 h1.1
      simp only
      rw [h1.2, h2.2]

theorem fill_in (he : Equiv eq) (l : List α) : ∀ set d, In eq d (fill eq l set) ↔ In eq d l ∨ In eq d set := by
  induction l with
  | nil => intro set d; simp [fill, In]
  | cons x t ih =>
    intro set d
    have hcons : ∀ s : List α, In eq d (x :: s) ↔ eq d x = true ∨ In eq d s := by
      intro s
      simp [In]
    rw [fill]
    split
    · rename_i h
      rw [ih, hcons]
      constructor
      · rintro (h1 | h1)
        · exact Or.inl (Or.inr h1)
        · exact Or.inr h1
      · rintro ((h1 | h1) | h1)
        · exact Or.inr ((in_congr he h1 _).2 ((has_iff _ _).1 h))
        · exact Or.inl h1
        · exact Or.inr h1
    · rw [ih, hcons, hcons]
      constructor
      · rintro (h1 | h1 | h1)
        · exact Or.inl (Or.inr h1)
        · exact Or.inl (Or.inl h1)
        · exact Or.inr h1
      · rintro ((h1 | h1) | h1)
        · exact Or.inr (Or.inl h1)
        · exact Or.inl h1
        · exact Or.inr (Or.inr h1)

theorem fill_noDup (he : Equiv eq) (l : List α) : ∀ set, NoDup eq set → NoDup eq (fill eq l set) := by
  induction l with
  | nil => intro set h; exact h
  | cons x t ih =>
    intro set h
    rw [fill]
    split
    · exact ih _ h
    · rename_i hx
      refine ih _ (List.pairwise_cons.2 ⟨?_, h⟩)
      intro y hy
      cases hxy : eq x y with
      | false => rfl
      | true => exact absurd ((has_iff _ _).2 ⟨y, hy, hxy⟩) hx

theorem subLoop_eq (set l : List α) : ∀ res, subLoop eq set l res = res ++ l.filter (fun d => !has eq set d) := by
  induction l with
  | nil => intro res; simp [subLoop]
  | cons d t ih =>
    intro res
    rw [subLoop]
    split
    · rename_i h
      rw [ih, List.filter_cons_of_neg (by simp [h])]
    · rename_i h
      rw [ih, List.filter_cons_of_pos (by simpa using h)]
      simp

theorem overlapLoop_eq (set l : List α) : overlapLoop eq set l = l.any (fun d => has eq set d) := by
  induction l with
  | nil => rfl
  | cons d t ih =>
    rw [overlapLoop, List.any_cons]
    split
    · rename_i h; simp [h]
    · rename_i h; simp only [Bool.not_eq_true] at h; rw [h, ih]; rfl

theorem in_eraseP (he : Equiv eq) (d x : α) (set : List α) (h : NoDup eq set) :
    In eq x (set.eraseP (fun y => eq d y)) ↔ In eq x set ∧ eq d x = false := by
  induction set with
  | nil => simp [In]
  | cons y t ih =>
    obtain ⟨h1, h2⟩ := List.pairwise_cons.1 h
    rw [List.eraseP_cons]
    by_cases hd : eq d y = true
    · rw [hd, cond_true]
      constructor
      · rintro ⟨z, hz, hxz⟩
        refine ⟨⟨z, by simp [hz], hxz⟩, ?_⟩
        cases hdx : eq d x with
        | false => rfl
        | true =>
          have := h1 z hz
          rw [he.trans _ _ _ (he.symm _ _ hd) (he.trans _ _ _ hdx hxz)] at this
          simp at this
      · rintro ⟨⟨z, hz, hxz⟩, hdx⟩
        rcases List.mem_cons.1 hz with rfl | hz
        · rw [he.trans _ _ _ hd (he.symm _ _ hxz)] at hdx; simp at hdx
        · exact ⟨z, hz, hxz⟩
    · simp only [Bool.not_eq_true] at hd
      rw [hd, cond_false]
      have hcons : ∀ s : List α, In eq x (y :: s) ↔ eq x y = true ∨ In eq x s := by
        intro s
        simp [In]
      rw [hcons, hcons, ih h2]
      constructor
      · rintro (h | h)
        · refine ⟨Or.inl h, ?_⟩
          cases hdx : eq d x with
          | false => rfl
          | true => rw [he.trans _ _ _ hdx h] at hd; simp at hd
        · exact ⟨Or.inr h.1, h.2⟩
      · rintro ⟨h | h, h'⟩
        · exact Or.inl h
        · exact Or.inr ⟨h, h'⟩

/-- The invariant of the second loop of `intersect`: `P` has been looked at, the table has what is left. -/
theorem interLoop_eq (he : Equiv eq) (s2 l : List α) : ∀ P set : List α, NoDup eq set →
    (∀ d, In eq d set ↔ In eq d s2 ∧ ¬ In eq d P) →
    interLoop eq l set (firsts eq (P.filter (fun d => has eq s2 d))) =
      firsts eq ((P ++ l).filter (fun d => has eq s2 d)) := by
  induction l with
  | nil => intro P set _ _; simp [interLoop]
  | cons d t ih =>
    intro P set hnd h
    have e1 : P ++ d :: t = (P ++ [d]) ++ t := by simp
    rw [interLoop, e1]
    have hP : ∀ x, In eq x (P ++ [d]) ↔ In eq x P ∨ eq x d = true := by
      intro x
      constructor
      · rintro ⟨y, hy, hxy⟩
        rcases List.mem_append.1 hy with hy | hy
        · exact Or.inl ⟨y, hy, hxy⟩
        · simp only [List.mem_singleton] at hy; subst hy; exact Or.inr hxy
      · rintro (⟨y, hy, hxy⟩ | hx)
        · exact ⟨y, by simp [hy], hxy⟩
        · exact ⟨d, by simp, hx⟩
    have hfilt : In eq d (P.filter (fun d => has eq s2 d)) ↔ In eq d P ∧ In eq d s2 := by
      constructor
      · rintro ⟨y, hy, hdy⟩
        have := List.mem_filter.1 hy
        exact ⟨⟨y, this.1, hdy⟩, (in_congr he hdy _).2 ((has_iff _ _).1 this.2)⟩
      · rintro ⟨⟨y, hy, hdy⟩, hs⟩
        exact ⟨y, List.mem_filter.2 ⟨hy, (has_iff _ _).2 ((in_congr he hdy _).1 hs)⟩, hdy⟩
    by_cases hd : has eq set d = true
    · rw [if_pos hd]
      have hset := (h d).1 ((has_iff _ _).1 hd)
      have e2 : firsts eq (P.filter (fun d => has eq s2 d)) ++ [d] =
          firsts eq ((P ++ [d]).filter (fun d => has eq s2 d)) := by
        rw [List.filter_append, List.filter_cons_of_pos ((has_iff _ _).2 hset.1), List.filter_nil,
          firsts_append he, if_neg]
        intro hh
        exact hset.2 (hfilt.1 ((any_iff _ _).1 hh)).1
      have hset' : ∀ x, In eq x (set.eraseP (fun y => eq d y)) ↔ In eq x s2 ∧ ¬ In eq x (P ++ [d]) := by
        intro x
        rw [in_eraseP he d x set hnd, h, hP]
        constructor
        · rintro ⟨⟨h1, h2⟩, h3⟩
          refine ⟨h1, ?_⟩
          rintro (h4 | h4)
          · exact h2 h4
          · rw [he.symm _ _ h4] at h3; simp at h3
        · rintro ⟨h1, h2⟩
          refine ⟨⟨h1, fun h3 => h2 (Or.inl h3)⟩, ?_⟩
          cases hdx : eq d x with
          | false => rfl
          | true => exact absurd (Or.inr (he.symm _ _ hdx)) h2
      simp only
      rw [e2]
      split
      · rename_i h0
        -- nothing is left: the rest adds nothing
        have hnone : ∀ x, In eq x s2 → In eq x (P ++ [d]) := by
          intro x hx
          by_cases hc : In eq x (P ++ [d])
          · exact hc
          · obtain ⟨y, hy, -⟩ := (hset' x).2 ⟨hx, hc⟩
            rw [List.length_eq_zero_iff.1 h0] at hy
            simp at hy
        clear ih
        have key : ∀ t Q : List α, (∀ x, In eq x s2 → In eq x Q) →
            firsts eq (Q.filter (fun d => has eq s2 d)) = firsts eq ((Q ++ t).filter (fun d => has eq s2 d)) := by
          intro t
          induction t with
          | nil => intro Q _; simp
          | cons z t ih =>
            intro Q hQ
            have e3 : Q ++ z :: t = (Q ++ [z]) ++ t := by simp
            rw [e3, ← ih (Q ++ [z])]
            · rw [List.filter_append]
              by_cases hz : has eq s2 z = true
              · rw [List.filter_cons_of_pos hz, List.filter_nil, firsts_append he, if_pos]
                rw [any_iff]
                obtain ⟨y, hy, hzy⟩ := hQ z ((has_iff _ _).1 hz)
                exact ⟨y, List.mem_filter.2 ⟨hy, (has_iff _ _).2 ((in_congr he hzy _).1 ((has_iff _ _).1 hz))⟩, hzy⟩
              · rw [List.filter_cons_of_neg hz]; simp
            · intro x hx
              obtain ⟨y, hy, hxy⟩ := hQ x hx
              exact ⟨y, by simp [hy], hxy⟩
        exact key t _ hnone
      · exact ih (P ++ [d]) _ (hnd.sublist List.eraseP_sublist) hset'
    · rw [if_neg hd]
      have hnd' : ¬ (In eq d s2 ∧ ¬ In eq d P) := fun hh => hd ((has_iff _ _).2 ((h d).2 hh))
      have e2 : firsts eq (P.filter (fun d => has eq s2 d)) = firsts eq ((P ++ [d]).filter (fun d => has eq s2 d)) := by
        rw [List.filter_append]
        by_cases hs : has eq s2 d = true
        · have hdP : In eq d P := by
            by_cases hc : In eq d P
            · exact hc
            · exact absurd ⟨(has_iff _ _).1 hs, hc⟩ hnd'
          rw [List.filter_cons_of_pos hs, List.filter_nil, firsts_append he, if_pos]
          rw [any_iff]
          exact hfilt.2 ⟨hdP, (has_iff _ _).1 hs⟩
        · rw [List.filter_cons_of_neg hs]; simp
      rw [e2]
      refine ih (P ++ [d]) set hnd ?_
      intro x
      rw [h, hP]
      constructor
      · rintro ⟨h1, h2⟩
        refine ⟨h1, ?_⟩
        rintro (h3 | h3)
        · exact h2 h3
        · have h4 : In eq d s2 := (in_congr he h3 _).1 h1
          exact hnd' ⟨h4, fun h5 => h2 ((in_congr he h3 _).2 h5)⟩
      · rintro ⟨h1, h2⟩
        exact ⟨h1, fun h3 => h2 (Or.inl h3)⟩

theorem intersect_eq (he : Equiv eq) (s1 s2 : List α) :
    intersect eq s1 s2 = firsts eq (s1.filter (fun d => has eq s2 d)) := by
  unfold intersect
  split
  · rename_i h
    rw [List.isEmpty_iff.1 h]; rfl
  · split
    · rename_i h
      rw [List.isEmpty_iff.1 h]
      have : s1.filter (fun d => has eq [] d) = [] := by
        rw [List.filter_eq_nil_iff]; intro a _; simp [has]
      rw [this]; rfl
    · have := interLoop_eq he s2 s1 [] (fill eq s2 []) (fill_noDup he s2 [] List.Pairwise.nil) (by
        intro d
        rw [fill_in he]
        simp [In])
      simpa [firsts] using this

theorem setEqFill_eq (he : Equiv eq) (l : List α) : ∀ tbl,
    (∀ r, setEqFill eq l tbl = some r → NoDup eq l ∧ (∀ x ∈ l, ¬ In eq x tbl) ∧ ∀ d, In eq d r ↔ In eq d l ∨ In eq d tbl) ∧
    (setEqFill eq l tbl = none → ¬ (NoDup eq l ∧ ∀ x ∈ l, ¬ In eq x tbl)) := by
  induction l with
  | nil =>
    intro tbl
    constructor
    · intro r hr
      simp only [setEqFill, Option.some.injEq] at hr
      subst hr
      exact ⟨List.Pairwise.nil, by simp, fun d => by simp [In]⟩
    · intro h; simp [setEqFill] at h
  | cons x t ih =>
    intro tbl
    rw [setEqFill]
    split
    · rename_i h
      refine ⟨fun r hr => by simp at hr, fun _ hh => hh.2 x (by simp) ((has_iff _ _).1 h)⟩
    · rename_i h
      have hx : ¬ In eq x tbl := fun hh => h ((has_iff _ _).2 hh)
      have hcons : ∀ d (s : List α), In eq d (x :: s) ↔ eq d x = true ∨ In eq d s := by
        intro d s
        simp [In]
      constructor
      · intro r hr
        obtain ⟨h1, h2, h3⟩ := (ih (x :: tbl)).1 r hr
        refine ⟨List.pairwise_cons.2 ⟨?_, h1⟩, ?_, ?_⟩
        · intro y hy
          cases hxy : eq x y with
          | false => rfl
          | true => exact absurd ((hcons _ _).2 (Or.inl (he.symm _ _ hxy))) (h2 y hy)
        · intro y hy
          rcases List.mem_cons.1 hy with rfl | hy
          · exact hx
          · exact fun hh => h2 y hy ((hcons _ _).2 (Or.inr hh))
        · intro d
          rw [h3, hcons, hcons]
          constructor
          · rintro (h | h | h)
            · exact Or.inl (Or.inr h)
            · exact Or.inl (Or.inl h)
            · exact Or.inr h
          · rintro ((h | h) | h)
            · exact Or.inr (Or.inl h)
            · exact Or.inl h
            · exact Or.inr (Or.inr h)
      · intro hn hh
        refine (ih (x :: tbl)).2 hn ⟨(List.pairwise_cons.1 hh.1).2, ?_⟩
        intro y hy hin
        rcases (hcons _ _).1 hin with h1 | h1
        · have := (List.pairwise_cons.1 hh.1).1 y hy
          rw [he.symm _ _ h1] at this
          simp at this
        · exact hh.2 y (by simp [hy]) h1

theorem setEqLoop_eq (he : Equiv eq) (tbl1 : List α) (c1 : Nat) (l : List α) : ∀ tbl2 c2,
    (∀ x ∈ l, In eq x tbl1) → NoDup eq l → (∀ x ∈ l, ¬ In eq x tbl2) →
    setEqLoop eq tbl1 c1 l tbl2 c2 = .ok (c1 == c2 + l.length) := by
  induction l with
  | nil => intro tbl2 c2 _ _ _; simp [setEqLoop]
  | cons x t ih =>
    intro tbl2 c2 h1 h2 h3
    rw [setEqLoop]
    rw [if_neg (by simp [(has_iff _ _).2 (h1 x (by simp))]), if_neg (fun hh => h3 x (by simp) ((has_iff _ _).1 hh))]
    rw [ih _ _ (fun y hy => h1 y (by simp [hy])) (List.pairwise_cons.1 h2).2]
    · have : c2 + 1 + t.length = c2 + (x :: t).length := by simp; omega
      rw [this]
    · rintro y hy ⟨z, hz, hyz⟩
      rcases List.mem_cons.1 hz with rfl | hz
      · have := (List.pairwise_cons.1 h2).1 y hy
        rw [he.symm _ _ hyz] at this
        simp at this
      · exact h3 y (by simp [hy]) ⟨z, hz, hyz⟩

theorem setEqLoop_miss (tbl1 : List α) (c1 : Nat) (l : List α) (h : ∃ x ∈ l, ¬ In eq x tbl1)
    (he : Equiv eq) : ∀ tbl2 c2, NoDup eq l → (∀ x ∈ l, ¬ In eq x tbl2) →
    setEqLoop eq tbl1 c1 l tbl2 c2 = .ok false := by
  induction l with
  | nil => obtain ⟨x, hx, -⟩ := h; simp at hx
  | cons y t ih =>
    intro tbl2 c2 h2 h3
    rw [setEqLoop]
    by_cases hy : has eq tbl1 y = true
    · rw [if_neg (by simp [hy]), if_neg (fun hh => h3 y (by simp) ((has_iff _ _).1 hh))]
      have ht : ∃ x ∈ t, ¬ In eq x tbl1 := by
        obtain ⟨x, hx, hn⟩ := h
        rcases List.mem_cons.1 hx with rfl | hx
        · exact absurd ((has_iff _ _).1 hy) hn
        · exact ⟨x, hx, hn⟩
      refine ih ht _ _ (List.pairwise_cons.1 h2).2 ?_
      rintro z hz ⟨w, hw, hzw⟩
      rcases List.mem_cons.1 hw with rfl | hw
      · have := (List.pairwise_cons.1 h2).1 z hz
        rw [he.symm _ _ hzw] at this
        simp at this
      · exact h3 z (by simp [hz]) ⟨w, hw, hzw⟩
    · rw [if_pos (by simp [hy])]

/-- Lists without duplicates: one within the other, and not longer, is the other. -/
theorem noDup_length (he : Equiv eq) (s1 : List α) : ∀ s2 : List α, NoDup eq s1 → (∀ x ∈ s1, In eq x s2) →
    s1.length ≤ s2.length := by
  induction s1 with
  | nil => intro s2 _ _; simp
  | cons x t ih =>
    intro s2 h1 h2
    obtain ⟨y, hy, hxy⟩ := h2 x (by simp)
    have hlen : (s2.eraseP (fun z => eq x z)).length = s2.length - 1 := List.length_eraseP_of_mem hy hxy
    have hpos : 0 < s2.length := List.length_pos_of_mem hy
    have := ih (s2.eraseP (fun z => eq x z)) (List.pairwise_cons.1 h1).2 (by
      intro z hz
      obtain ⟨w, hw, hzw⟩ := h2 z (by simp [hz])
      refine ⟨w, (List.mem_eraseP_of_neg ?_).2 hw, hzw⟩
      intro hxw
      have := (List.pairwise_cons.1 h1).1 z hz
      rw [he.trans _ _ _ hxw (he.symm _ _ hzw)] at this
      simp at this)
    simp only [List.length_cons]
    omega

theorem noDup_same (he : Equiv eq) (s1 s2 : List α) (h1 : NoDup eq s1) (h2 : NoDup eq s2)
    (h : ∀ x ∈ s2, In eq x s1) : s1.length = s2.length ↔ ∀ x ∈ s1, In eq x s2 := by
  constructor
  · intro hl x hx
    by_cases hc : In eq x s2
    · exact hc
    · exfalso
      have := noDup_length he (x :: s2) s1 (List.pairwise_cons.2 ⟨?_, h2⟩) ?_
      · simp at this; omega
      · intro y hy
        cases hxy : eq x y with
        | false => rfl
        | true => exact absurd ⟨y, hy, hxy⟩ hc
      · intro y hy
        rcases List.mem_cons.1 hy with rfl | hy
        · exact ⟨y, hx, he.refl _⟩
        · exact h y hy
  · intro hh
    have a := noDup_length he s1 s2 h1 hh
    have b := noDup_length he s2 s1 h2 h
    omega

end
end Voss.Lst
