import Verif.Lst.Session
import Verif.Lst.Sort
/-
C66: the builtin list functions compute what the textbook functions of these names compute.
-/
namespace Voss.Lst

section
variable {α β σ F : Type}

/-- C66: `rev`, `length`, `append`, `flat`, `sitlist`, `butlast` and `last` are the functions on lists. -/
theorem c66_lists (l k : List α) (ll : List (List α)) (f : α → β → β) (z : β) :
    rev l = l.reverse ∧ length l 0 = l.length ∧ append l k = l ++ k ∧ flat ll = ll.flatten ∧
    sitlist f l z = l.foldr f z ∧
    butlast l = (if l = [] then .own else .ok l.dropLast) ∧
    last l = (match l.getLast? with | some e => .ok e | none => .own) := by
  refine ⟨rev_eq l, ?_, ?_, ?_, sitlist_eq f l z, ?_, ?_⟩
  · rw [length_eq]; simp
  · unfold append
    cases l with
    | nil => rfl
    | cons a t => simp only; rw [copyList_eq]; rfl
  · unfold flat; rw [flatLoop_eq]; rfl
  · unfold butlast
    cases l with
    | nil => rfl
    | cons a t => rw [butlastLoop_eq]; rfl
  · unfold last
    cases l with
    | nil => rfl
    | cons a t => simp only; rw [lastLoop_eq]; simp [List.getLast?_cons]

/-- C66: the last `n` elements and all but the last `n`; a failure if there are fewer. -/
theorem c66_lastn_partial (l : List α) (n : Int) (h0 : 0 ≤ n) (h1 : n < 2147483648) :
    lastn n l = (if n ≤ l.length then .ok (l.drop (l.length - n.toNat)) else .own) ∧
    butlastn n l = (if n ≤ l.length then .ok (l.take (l.length - n.toNat)) else .own) := by
  unfold lastn butlastn
  rw [getInt_of ⟨by omega, h1⟩]
  simp only
  rw [length_eq, Int.zero_add]
  by_cases h : n ≤ l.length
  · have e : ((l.length : Int) - n).toNat = l.length - n.toNat := by omega
    rw [if_neg (by omega), if_pos h, if_neg (by omega), if_pos h, e, skip_eq _ _ (by omega), copyN_eq _ _ _ (by omega)]
    exact ⟨rfl, rfl⟩
  · rw [if_pos (by omega), if_neg h, if_pos (by omega), if_neg h]
    exact ⟨rfl, rfl⟩

example : lastn 2 [1, 2, 3] = .ok [2, 3] ∧ butlastn 2 [1, 2, 3] = .ok [1] ∧ lastn 4 [1, 2, 3] = .own := by decide

/-- C66 is violated: with a negative number both functions run off the end of the list, whatever the list. -/
theorem c66_lastn_violated (l : List α) (n : Int) (h0 : n < 0) (h1 : -2147483648 ≤ n) :
    lastn n l = .ub ∧ butlastn n l = .ub := by
  unfold lastn butlastn
  rw [getInt_of ⟨h1, by omega⟩]
  simp only
  rw [length_eq, Int.zero_add, if_neg (by omega), if_neg (by omega)]
  constructor
  · rcases skip_past ((l.length : Int) - n).toNat l (by omega) with h | h <;> rw [h]
  · rw [copyN_past _ _ _ (by omega)]

example : lastn (-1) ([] : List Nat) = .ub := (c66_lastn_violated [] (-1) (by decide) (by decide)).1

/-- C66 is violated: numbers are cut to 32 bits, and numbers of more than 64 bits are not handled. -/
theorem c66_wide_violated : lastn 4294967297 [1, 2, 3] = .ok [3] ∧ lastn (2 ^ 64) [1, 2, 3] = .ub ∧
    gather [1, 2, 3] [4294967298] = .ok [2] := by decide

/-- C66: `firstn` and `butfirstn` on lists that are evaluated on demand, possibly without end: the elements passed, or
the node reached; a failure if the list is too short; the failure found on the way.  The list may not be a
failure right after the `n` elements. -/
theorem c66_firstn_partial (heap : σ → Cell α σ) (n : Int) (h0 : 0 ≤ n) (h1 : n < 2147483648) {s t : σ} {l : List α}
    (w : Walk heap s l t) :
    ((l.length : Int) = n → (l = [] ∨ Good heap t) → firstn heap n s = .ok l ∧ butfirstn heap n s = .ok t) ∧
    (heap t = .nil → (l.length : Int) < n → firstn heap n s = .own ∧ butfirstn heap n s = .own) ∧
    (∀ m, heap t = .fail m → l ≠ [] → (l.length : Int) < n → firstn heap n s = .fail m ∧ butfirstn heap n s = .fail m) := by
  unfold firstn butfirstn
  rw [getInt_of ⟨by omega, h1⟩]
  simp only
  refine ⟨?_, ?_, ?_⟩
  · intro hl hg
    have e : n.toNat = l.length := by omega
    rw [e, firstnLoop_eq w hg, butfirstnLoop_eq w hg]
    exact ⟨rfl, rfl⟩
  · intro ht hl
    exact ⟨(firstnLoop_bad w _ _).1 ht (by omega), (butfirstnLoop_bad w _).1 ht (by omega)⟩
  · intro m ht hne hl
    exact ⟨(firstnLoop_bad w _ _).2 m ht hne (by omega), (butfirstnLoop_bad w _).2 m ht hne (by omega)⟩

/-- A list without end. -/
example : firstn (fun s : Nat => Cell.cons s (s + 1)) 3 0 = .ok [0, 1, 2] := by decide

/-- C66 is violated: `firstn n` and `el n` look at the list after its `n`-th element and fail if this fails.
Also, `firstn` of a negative number is empty, and `el 1` of a node followed by a failure is the failure. -/
theorem c66_firstn_violated {heap : σ → Cell α σ} {s t : σ} {a : α} {m : String} [DecidableEq σ] (hs : heap s = .cons a t)
    (ht : heap t = .fail m) (eq : α → α → Bool) (pair : α → α × α) (n : Nat) :
    firstn heap 1 s = .fail m ∧ (call eq pair heap (n + 1) Tbls.init (.el 1 s)).2 = .fail m := by
  constructor
  · show firstnLoop heap 1 s [] = _
    rw [firstnLoop, hs]
    simp only
    rw [ht]
  · show ((elLike heap (n + 1) 1 s none).2.map Val.elem : Res (Val α)) = _
    unfold elLike
    simp only [List.find?_nil]
    rw [elLoop, hs]
    simp only
    rw [ht]
    rfl

example : ∃ (heap : Bool → Cell Nat Bool) (m : String), heap true = .cons 1 false ∧ heap false = .fail m :=
  ⟨fun b => if b then .cons 1 false else .fail "no", "no", rfl, rfl⟩

/-- C66: `find` and `find_first0` give the first element that satisfies the predicate, and its position; the position
is 0, and `find` fails, if there is none. -/
theorem c66_find (heap : σ → Cell α σ) (p : α → PRes) {s t : σ} {l : List α} (w : Walk heap s l t)
    (hl : ∀ e ∈ l, p e = .zero) (n : Nat) :
    (∀ e u, heap t = .cons e u → p e = .one →
      find heap p (n + 1 + l.length) s = .ok e ∧ findFirst heap p (n + 1 + l.length) s 0 = .ok (l.length + 1)) ∧
    (heap t = .nil →
      find heap p (n + 1 + l.length) s = .own ∧ findFirst heap p (n + 1 + l.length) s 0 = .ok 0) ∧
    (∀ e u, heap t = .cons e u → p e ≠ .one → p e ≠ .zero →
      find heap p (n + 1 + l.length) s = bad (p e) ∧ findFirst heap p (n + 1 + l.length) s 0 = bad (p e)) := by
  refine ⟨?_, ?_, ?_⟩
  · intro e u ht hp
    have hg : Good heap t := fun m hm => by rw [ht] at hm; cases hm
    rw [find_skip w hl hg, findFirst_skip w hl hg, find, findFirst, ht]
    simp only
    rw [hp]
    simp
  · intro ht
    have hg : Good heap t := fun m hm => by rw [ht] at hm; cases hm
    rw [find_skip w hl hg, findFirst_skip w hl hg, find, findFirst, ht]
    simp
  · intro e u ht h1 h2
    have hg : Good heap t := fun m hm => by rw [ht] at hm; cases hm
    rw [find_skip w hl hg, findFirst_skip w hl hg, find, findFirst, ht]
    simp only
    cases hp : p e with
    | one => exact absurd hp h1
    | zero => exact absurd hp h2
    | sym => exact ⟨rfl, rfl⟩
    | fail m => exact ⟨rfl, rfl⟩

example : find (fun s : Nat => Cell.cons s (s + 1)) (fun e => if e = 3 then .one else .zero) 9 0 = .ok 3 := by decide

/-- C66: `filter`, `split` and `find_all` select the elements for which the predicate says yes, in order.  The first
element for which the predicate fails or is symbolic makes the result a failure. -/
theorem c66_select (p : α → PRes) (l : List α) (hl : ∀ e ∈ l, Decided p e) :
    filter p l = .ok (l.filter (yes p)) ∧
    split p l = .ok (l.filter (yes p), l.filter (fun e => !yes p e)) ∧
    (∃ is, findAll p l = .ok is ∧ is.Pairwise (· < ·) ∧
      ∀ i : Int, i ∈ is ↔ ∃ j : Nat, i = j + 1 ∧ ∃ e, l[j]? = some e ∧ yes p e = true) ∧
    ∀ e post, ¬ Decided p e → filter p (l ++ e :: post) = bad (p e) ∧ split p (l ++ e :: post) = bad (p e) ∧
      findAll p (l ++ e :: post) = bad (p e) := by
  refine ⟨?_, ?_, ⟨positions p 0 l, ?_, positions_sorted p l 0, ?_⟩, ?_⟩
  · have := filterLoop_eq p l hl [] []
    rw [List.append_nil] at this
    unfold filter
    rw [this]; rfl
  · have := splitLoop_eq p l hl [] [] []
    rw [List.append_nil] at this
    unfold split
    rw [this]; rfl
  · have := findAllLoop_eq p l hl 0 [] []
    rw [List.append_nil] at this
    unfold findAll
    rw [Int.natCast_zero] at this
    rw [this]; rfl
  · intro i
    rw [positions_mem]
    simp
  · intro e post he
    have h1 := filterLoop_eq p l hl [] (e :: post)
    have h2 := splitLoop_eq p l hl [] [] (e :: post)
    have h3 := findAllLoop_eq p l hl 0 [] (e :: post)
    rw [Int.natCast_zero] at h3
    unfold filter split findAll
    rw [h1, h2, h3, filterLoop, splitLoop, findAllLoop]
    cases hp : p e with
    | one => exact absurd (Or.inl hp) he
    | zero => exact absurd (Or.inr hp) he
    | sym => exact ⟨rfl, rfl, rfl⟩
    | fail m => exact ⟨rfl, rfl, rfl⟩

example : findAll (fun e : Nat => if e = 2 then .one else .zero) [1, 2, 3, 2] = .ok [2, 4] := by decide

/-- C66: `partition` puts the elements with equal values into classes; classes and elements are in the order of the
list. -/
theorem c66_partition {eq : β → β → Bool} (he : Equiv eq) (f : α → Except String β) (g : α → β) (l : List α)
    (hf : ∀ e ∈ l, f e = .ok (g e)) :
    partition eq f l = .ok (classes eq g l) ∧
    ∀ e m post, f e = .error m → partition eq f (l ++ e :: post) = .fail m := by
  have h0 : PartTbl eq g [] [] := fun v => ⟨fun _ h => by obtain ⟨y, hy, -⟩ := h; simp at hy, fun x hx => by simp at hx⟩
  constructor
  · obtain ⟨tbl, -, h⟩ := partLoop_eq he f g l hf [] [] [] h0
    rw [List.append_nil] at h
    exact h
  · intro e m post hfe
    obtain ⟨tbl, -, h⟩ := partLoop_eq he f g l hf (e :: post) [] [] h0
    unfold partition
    have h' : partLoop eq f (l ++ e :: post) [] [] = partLoop eq f (e :: post) tbl (classes eq g ([] ++ l)) := h
    rw [h', partLoop, hfe]

/-- What this means: the classes together have all elements, no class is empty, and two elements are in one
class exactly if their values are equal. -/
theorem c66_classes {eq : β → β → Bool} (he : Equiv eq) (g : α → β) (l : List α) :
    (∀ e ∈ l, ∃ c ∈ classes eq g l, e ∈ c) ∧ (∀ c ∈ classes eq g l, c ≠ [] ∧ c.Sublist l) ∧
    (∀ c ∈ classes eq g l, ∀ e ∈ c, ∀ e' ∈ l, e' ∈ c ↔ eq (g e) (g e') = true) := by
  refine ⟨?_, ?_, ?_⟩
  · intro e hel
    obtain ⟨v, hv, hev⟩ := (in_firsts he (l.map g) (g e)).2 ⟨g e, List.mem_map_of_mem hel, he.refl _⟩
    exact ⟨_, List.mem_map_of_mem hv, List.mem_filter.2 ⟨hel, he.symm _ _ hev⟩⟩
  · intro c hc
    obtain ⟨v, hv, rfl⟩ := List.mem_map.1 hc
    refine ⟨?_, List.filter_sublist⟩
    obtain ⟨e, hel, rfl⟩ := List.mem_map.1 ((firsts_sub _).subset hv)
    intro h0
    have : e ∈ l.filter (fun x => eq (g e) (g x)) := List.mem_filter.2 ⟨hel, he.refl _⟩
    rw [h0] at this
    simp at this
  · intro c hc e hec e' hel'
    obtain ⟨v, hv, rfl⟩ := List.mem_map.1 hc
    have hve := (List.mem_filter.1 hec).2
    rw [List.mem_filter]
    constructor
    · rintro ⟨-, h⟩
      exact he.trans _ _ _ (he.symm _ _ hve) h
    · intro h
      exact ⟨hel', he.trans _ _ _ hve h⟩

theorem eqNat : Equiv (fun a b : Nat => a == b) :=
  ⟨fun a => by simp, fun a b h => by simp at h ⊢; exact h.symm, fun a b c h h' => by simp at h h' ⊢; exact h.trans h'⟩

example : partition (fun a b : Nat => a == b) (fun e : Nat => .ok (e % 3)) [1, 2, 4, 3, 5] = .ok [[1, 4], [2, 5], [3]] := by
  decide

/-- C66: the set functions.  `setify` keeps the first of equal elements; `union`, `intersect` and `subtract` have
the members of the union, the intersection and the difference, without duplicates if the arguments have none
(the order is that of the arguments, the first one first); `overlap` tells if there is a common member. -/
theorem c66_sets {eq : α → α → Bool} (he : Equiv eq) (s1 s2 : List α) :
    setify eq s1 = firsts eq s1 ∧
    ((∀ x, In eq x (union eq s1 s2) ↔ In eq x s1 ∨ In eq x s2) ∧
      (NoDup eq s1 → NoDup eq s2 → NoDup eq (union eq s1 s2)) ∧ (union eq s1 s2).Sublist (s1 ++ s2)) ∧
    ((∀ x, In eq x (intersect eq s1 s2) ↔ In eq x s1 ∧ In eq x s2) ∧
      NoDup eq (intersect eq s1 s2) ∧ (intersect eq s1 s2).Sublist s1) ∧
    ((∀ x, In eq x (subtract eq s1 s2) ↔ In eq x s1 ∧ ¬ In eq x s2) ∧ (subtract eq s1 s2).Sublist s1 ∧
      ∀ x ∈ s1, x ∈ subtract eq s1 s2 ↔ ¬ In eq x s2) ∧
    (overlap eq s1 s2 = true ↔ ∃ x, In eq x s1 ∧ In eq x s2) := by
  have happ : ∀ x, In eq x (s1 ++ s2) ↔ In eq x s1 ∨ In eq x s2 := by
    intro x
    constructor
    · rintro ⟨y, hy, h⟩
      rcases List.mem_append.1 hy with hy | hy
      · exact Or.inl ⟨y, hy, h⟩
      · exact Or.inr ⟨y, hy, h⟩
    · rintro (⟨y, hy, h⟩ | ⟨y, hy, h⟩)
      · exact ⟨y, by simp [hy], h⟩
      · exact ⟨y, by simp [hy], h⟩
  have hnil : ∀ x, ¬ In eq x ([] : List α) := fun x ⟨y, hy, _⟩ => by simp at hy
  have hfill : ∀ (s : List α) (d : α), has eq (fill eq s []) d = has eq s d := by
    intro s d
    rw [Bool.eq_iff_iff, has_iff, has_iff, fill_in he]
    exact ⟨fun h => h.elim id (fun h => absurd h (hnil d)), Or.inl⟩
  have hsub : subtract eq s1 s2 = s1.filter (fun d => !has eq s2 d) := by
    unfold subtract
    split
    · rename_i h; rw [List.isEmpty_iff.1 h]; rfl
    · split
      · rename_i h
        rw [List.isEmpty_iff.1 h]
        exact (List.filter_eq_self.2 (fun a _ => by simp [has])).symm
      · rw [subLoop_eq]
        simp only [List.nil_append, hfill]
  have hmem : ∀ x ∈ s1, x ∈ subtract eq s1 s2 ↔ ¬ In eq x s2 := by
    intro x hx
    rw [hsub, List.mem_filter]
    constructor
    · rintro ⟨-, h⟩ hin
      rw [(has_iff _ _).2 hin] at h; simp at h
    · intro h
      refine ⟨hx, ?_⟩
      simp only [Bool.not_eq_true']
      cases hh : has eq s2 x with
      | false => rfl
      | true => exact absurd ((has_iff _ _).1 hh) h
  refine ⟨setify_eq he s1, ⟨?_, ?_, ?_⟩, ⟨?_, ?_, ?_⟩, ⟨?_, ?_, hmem⟩, ?_⟩
  · intro x
    rw [union_eq he]
    split
    · rename_i h; rw [List.isEmpty_iff.1 h]
      exact ⟨Or.inr, fun h => h.elim (fun h => absurd h (hnil x)) id⟩
    · split
      · rename_i h; rw [List.isEmpty_iff.1 h]
        exact ⟨Or.inl, fun h => h.elim id (fun h => absurd h (hnil x))⟩
      · rw [in_firsts he, happ]
  · intro h1 h2
    rw [union_eq he]
    split
    · exact h2
    · split
      · exact h1
      · exact firsts_noDup he _
  · rw [union_eq he]
    split
    · exact List.sublist_append_right _ _
    · split
      · exact List.sublist_append_left _ _
      · exact firsts_sub _
  · intro x
    rw [intersect_eq he, in_firsts he]
    constructor
    · rintro ⟨y, hy, h⟩
      have := List.mem_filter.1 hy
      exact ⟨⟨y, this.1, h⟩, (in_congr he h _).2 ((has_iff _ _).1 this.2)⟩
    · rintro ⟨⟨y, hy, h⟩, h2⟩
      exact ⟨y, List.mem_filter.2 ⟨hy, (has_iff _ _).2 ((in_congr he h _).1 h2)⟩, h⟩
  · rw [intersect_eq he]; exact firsts_noDup he _
  · rw [intersect_eq he]; exact (firsts_sub _).trans List.filter_sublist
  · intro x
    constructor
    · rintro ⟨y, hy, h⟩
      have hy1 : y ∈ s1 := by rw [hsub] at hy; exact (List.mem_filter.1 hy).1
      exact ⟨⟨y, hy1, h⟩, fun h2 => (hmem y hy1).1 hy ((in_congr he h _).1 h2)⟩
    · rintro ⟨⟨y, hy, h⟩, h2⟩
      exact ⟨y, (hmem y hy).2 (fun h3 => h2 ((in_congr he h _).2 h3)), h⟩
  · rw [hsub]; exact List.filter_sublist
  · unfold overlap
    split
    · rename_i h; rw [List.isEmpty_iff.1 h]
      exact ⟨fun h => by simp at h, fun ⟨x, hx, _⟩ => absurd hx (hnil x)⟩
    · split
      · rename_i h; rw [List.isEmpty_iff.1 h]
        exact ⟨fun h => by simp at h, fun ⟨x, _, hx⟩ => absurd hx (hnil x)⟩
      · rw [overlapLoop_eq, List.any_eq_true]
        constructor
        · rintro ⟨x, hx, hh⟩
          rw [hfill] at hh
          exact ⟨x, (has_iff _ _).1 hh, ⟨x, hx, he.refl x⟩⟩
        · rintro ⟨x, h1, ⟨y, hy, hxy⟩⟩
          exact ⟨y, hy, by rw [hfill]; exact (has_iff _ _).2 ((in_congr he hxy _).1 h1)⟩

/-- What `setify` means: the members of the argument, each once, in the order of first occurrence. -/
theorem c66_firsts {eq : α → α → Bool} (he : Equiv eq) (l : List α) :
    (∀ x, In eq x (firsts eq l) ↔ In eq x l) ∧ NoDup eq (firsts eq l) ∧ (firsts eq l).Sublist l ∧
    (NoDup eq l → firsts eq l = l) :=
  ⟨fun x => in_firsts he l x, firsts_noDup he l, firsts_sub l, firsts_of_noDup l he⟩

example : union (fun a b : Nat => a == b) [1, 2] [3, 2] = [1, 2, 3] ∧ intersect (fun a b : Nat => a == b) [1, 2] [3, 2] = [2] ∧
    subtract (fun a b : Nat => a == b) [1, 2] [3, 2] = [1] := by decide

/-- C66, a wart: `union` removes duplicates unless one of the sets is empty. -/
theorem c66_union_duplicates : union (fun a b : Nat => a == b) [1, 1] [] = [1, 1] ∧
    union (fun a b : Nat => a == b) [1, 1] [2] = [1, 2] := by decide

/-- C66: `set_eq` of two lists without duplicates tells if they have the same members. -/
theorem c66_set_eq {eq : α → α → Bool} (he : Equiv eq) (s1 s2 : List α) (h1 : NoDup eq s1) (h2 : NoDup eq s2) :
    ∃ b, setEq eq s1 s2 = .ok b ∧ (b = true ↔ ∀ x, In eq x s1 ↔ In eq x s2) := by
  have hnil : ∀ x, ¬ In eq x ([] : List α) := fun x ⟨y, hy, _⟩ => by simp at hy
  have hself : ∀ (s : List α), ∀ x ∈ s, In eq x s := fun s x hx => ⟨x, hx, he.refl x⟩
  unfold setEq
  split
  · rename_i ha
    rw [List.isEmpty_iff.1 ha]
    split
    · rename_i hb
      rw [List.isEmpty_iff.1 hb]
      exact ⟨true, rfl, by simp⟩
    · rename_i hb
      refine ⟨false, rfl, by simp, fun h => ?_⟩
      cases s2 with
      | nil => simp at hb
      | cons y t => exact absurd ((h y).2 (hself _ y (by simp))) (hnil y)
  · rename_i ha
    split
    · rename_i hb
      rw [List.isEmpty_iff.1 hb]
      refine ⟨false, rfl, by simp, fun h => ?_⟩
      cases s1 with
      | nil => simp at ha
      | cons y t => exact absurd ((h y).1 (hself _ y (by simp))) (hnil y)
    · cases hf : setEqFill eq s1 [] with
      | none => exact absurd ⟨h1, fun x _ => hnil x⟩ ((setEqFill_eq he s1 []).2 hf)
      | some tbl =>
        obtain ⟨-, -, ht⟩ := (setEqFill_eq he s1 []).1 tbl hf
        have ht' : ∀ d, In eq d tbl ↔ In eq d s1 := fun d => (ht d).trans ⟨fun h => h.elim id (fun h => absurd h (hnil d)), Or.inl⟩
        simp only
        by_cases hall : ∀ x ∈ s2, In eq x s1
        · rw [setEqLoop_eq he tbl s1.length s2 [] 0 (fun x hx => (ht' x).2 (hall x hx)) h2 (fun x _ => hnil x)]
          refine ⟨_, rfl, ?_⟩
          rw [Nat.zero_add, beq_iff_eq, noDup_same he s1 s2 h1 h2 hall]
          constructor
          · intro h x
            constructor
            · rintro ⟨y, hy, hxy⟩; exact (in_congr he hxy _).2 (h y hy)
            · rintro ⟨y, hy, hxy⟩; exact (in_congr he hxy _).2 (hall y hy)
          · intro h x hx
            exact (h x).1 (hself _ x hx)
        · have : ∃ x ∈ s2, ¬ In eq x tbl := by
            simp only [not_forall] at hall
            obtain ⟨x, hx, hn⟩ := hall
            exact ⟨x, hx, fun h => hn ((ht' x).1 h)⟩
          rw [setEqLoop_miss tbl s1.length s2 this he [] 0 h2 (fun x _ => hnil x)]
          refine ⟨false, rfl, by simp, fun h => absurd (fun x hx => (h x).2 (hself _ x hx)) hall⟩

example : setEq (fun a b : Nat => a == b) [1, 2] [2, 1] = .ok true ∧ setEq (fun a b : Nat => a == b) [1, 2, 1] [2, 1] = .own := by
  decide

/-- C66: `gather` gives the elements at the positions; `separate` gives the elements at the positions, each position
once, and the other elements; a position outside of the list is a failure. -/
theorem c66_positions (l : List α) (hl : l.length < 2147483648) (is : List Int) (h : ∀ i ∈ is, 1 ≤ i ∧ i ≤ l.length) :
    gather l is = .ok (is.filterMap (fun i => l[(i - 1).toNat]?)) ∧
    separate l is = .ok ((firsts (fun a b : Int => a == b) is).filterMap (fun i => l[(i - 1).toNat]?), others l is) ∧
    ∀ i post, InInt i → i < 1 ∨ (l.length : Int) < i →
      gather l (is ++ i :: post) = .own ∧ separate l (is ++ i :: post) = .own := by
  have hbuf : l.map some = sepBuf l [] := by
    apply List.ext_getElem?
    intro j
    rw [sepBuf_get, List.getElem?_map]
    simp
  refine ⟨?_, ?_, ?_⟩
  · unfold gather
    rw [gather_eq l hl is h]
    rfl
  · unfold separate
    have := sepLoop_eq l hl is h [] []
    simp only [firsts, List.filterMap_nil, List.append_nil, List.nil_append] at this
    rw [hbuf, this, sepLoop]
    unfold sepBuf others
    rw [List.filterMap_map]
    rfl
  · intro i post hi hbad
    refine ⟨gather_out l hl is i post h hi hbad [], ?_⟩
    unfold separate
    have := sepLoop_eq l hl is h (i :: post) []
    simp only [firsts, List.filterMap_nil, List.nil_append] at this
    rw [hbuf, this, sepLoop, getInt_of hi]
    simp only
    obtain ⟨hi1, hi2⟩ := hi
    have hlen : (sepBuf l is).length = l.length := by simp [sepBuf]
    rw [hlen, if_pos]
    by_cases hn : i < 0
    · right
      exact Nat.lt_of_lt_of_le hl (toUi_neg hn hi1)
    · by_cases h0 : i = 0
      · left; subst h0; decide
      · right
        rw [toUi_of (by omega) hi2]
        omega

example : separate ['a', 'b', 'c', 'd'] [3, 1, 3] = .ok (['c', 'a'], ['b', 'd']) := by decide

/-- C66: `loop f p x` is the first of `x`, `f x`, `f (f x)`, ... that satisfies the predicate. -/
theorem c66_loop (upd : α → α) (stop : α → PRes) (x : α) (k n : Nat)
    (h : ∀ j, j < k → stop (upd^[j] x) = .zero) (hk : stop (upd^[k] x) = .one) :
    loop (fun a => .ok (upd a)) stop (n + 1 + k) x = .ok (upd^[k] x) := by
  induction k generalizing x with
  | zero =>
    rw [Nat.add_zero, loop]
    have : stop x = .one := hk
    rw [this]
    rfl
  | succ k ih =>
    have h0 : stop x = .zero := h 0 (by omega)
    rw [← Nat.add_assoc, loop, h0]
    simp only
    rw [ih (upd x) (fun j hj => h (j + 1) (by omega)) hk]
    rfl

example : loop (fun a => .ok (a + 1)) (fun a : Nat => if a = 3 then .one else .zero) 9 0 = .ok 3 := by decide

/-- C66: in any session, with any calls of `assoc`, `rev_assoc`, `mem` and `el` on any lists in any order, and
collections after which memory is used for other lists, each call has the result that a plain search of
its list has.  (Keys must be comparable by an equivalence that does not change.) -/
theorem c66_session_partial [DecidableEq σ] {eq : α → α → Bool} (he : Equiv eq) {pair : α → α × α} {n : Nat}
    {heap : σ → Cell α σ} {T : Tbls α σ} {log : List ((σ → Cell α σ) × Call α σ × Res (Val α))}
    (h : Session eq pair n heap T log) : ∀ x ∈ log, Right eq pair x.1 x.2.1 x.2.2 :=
  (session_ok he h).2

/-- Sessions of any length exist, and the results are not undefined. -/
theorem c66_session_goes_on [DecidableEq σ] {eq : α → α → Bool} {pair : α → α × α} {n : Nat}
    {heap : σ → Cell α σ} {T : Tbls α σ} {log : List ((σ → Cell α σ) × Call α σ × Res (Val α))}
    (h : Session eq pair n heap T log) (c : Call α σ) (hc : Sensible heap n c) :
    Session eq pair n heap (call eq pair heap n T c).1 (log ++ [(heap, c, (call eq pair heap n T c).2)]) :=
  .call c h hc

/-- The list 1, 2, 1 at node 0. -/
def demoHeap : Nat → Cell (Nat × Nat) Nat
  | 0 => .cons (1, 7) 1
  | 1 => .cons (2, 8) 2
  | 2 => .cons (1, 9) 3
  | _ => .nil

theorem demo_holds : Holds demoHeap 0 [(1, 7), (2, 8), (1, 9)] :=
  ⟨3, .next rfl (.next rfl (.next rfl (.here 3))), rfl⟩

example : (call (fun a b => a.1 == b.1) (fun e => ((e.1, 0), (e.2, 0))) demoHeap 9 Tbls.init (.assoc (1, 5) 0)).2 = .ok (.elem (7, 0)) ∧
    Sensible demoHeap 9 (.assoc (1, 5) 0) := ⟨by decide, _, demo_holds, by decide⟩

/-- C66 is violated if keys contain reference cells: the comparison changes with their contents.  List: cells 1 and
2 with data 7 and 8, both containing 0 at first, so that only the first one goes into the table. Then cell 1 is set
to 5.  Searching a key that is equal to the contents of cell 2 fails, although an entry with such a key is in
the list. -/
theorem c66_cells_violated :
    let heap : Nat → Cell (Nat × Nat) Nat := fun s => if s = 0 then .cons (1, 7) 1 else if s = 1 then .cons (2, 8) 2 else .nil
    let contents : Nat → Nat → Nat := fun time cell => if cell = 1 ∧ time = 1 then 5 else if cell = 3 then 9 else 0
    let eq : Nat → Nat × Nat → Nat × Nat → Bool := fun time a b => contents time a.1 == contents time b.1
    let pair : Nat × Nat → (Nat × Nat) × (Nat × Nat) := fun e => ((e.1, 0), (e.2, 0))
    let T := (call (eq 0) pair heap 9 Tbls.init (.assoc (3, 0) 0)).1
    (call (eq 1) pair heap 9 T (.assoc (2, 0) 0)).2 = .own ∧
    assocSpec (eq 1) pair (2, 0) [(1, 7), (2, 8)] = .ok (8, 0) := by decide

/-- C66: if the comparison function is consistent on the elements and does not itself sort, `qsort` gives all elements
in ascending order. -/
theorem c66_qsort_partial {alg : Nat → Strat} (ha : SortOk alg) (app : F → α → α → Eff F) (f : F) (c : α → α → Int)
    (l : List α) (hc : ∀ a ∈ l, ∀ b ∈ l, app f a b = ⟨.ok (c a b), none⟩) (ho : OrderOn l c) :
    ∃ r, flQsort alg app f l = .ok r ∧ r.Perm l ∧ r.Pairwise (fun a b => c a b ≤ 0) := by
  refine ⟨_, runSort_eq app l f c hc (alg l.length) (ha.within _), ?_, ?_⟩
  · have h1 := (ha.perm l.length _ (posCmp_order ho)).filterMap (fun i => l[i]?)
    rwa [range_filterMap] at h1
  · rw [List.pairwise_filterMap]
    refine (ha.sorted l.length _ (posCmp_order ho)).imp ?_
    intro i j h a hi b hj
    unfold posCmp at h
    rw [hi, hj] at h
    exact h

example : flQsort insertion (fun (_ : Unit) (a b : Nat) => ⟨.ok ((a : Int) - b), none⟩) () [3, 1, 2] = .ok [1, 2, 3] := by decide +kernel

/-- C66: without sorting inside, a comparison that fails makes `qsort` fail; nothing is undefined. -/
theorem c66_qsort_fail {alg : Nat → Strat} (ha : SortOk alg) (app : F → α → α → Eff F) (f : F) (l : List α)
    (hc : ∀ a ∈ l, ∀ b ∈ l, (app f a b).inner = none) :
    (∃ r, flQsort alg app f l = .ok r) ∨ ∃ m, flQsort alg app f l = .fail m := by
  unfold flQsort
  have h := ha.within l.length
  generalize alg l.length = s at h
  induction s with
  | done out => exact Or.inl ⟨_, rfl⟩
  | ask i j k ih =>
    obtain ⟨hi, hj, hk⟩ := h
    rw [runSort, List.getElem?_eq_getElem hi, List.getElem?_eq_getElem hj]
    simp only
    rw [hc _ (List.getElem_mem hi) _ (List.getElem_mem hj)]
    simp only
    cases (app f l[i] l[j]).val with
    | error m => exact Or.inr ⟨m, rfl⟩
    | ok z => exact ih _ (hk _)

/-- C66 is violated if the comparison function sorts: the sort goes on with the comparison function of the inner
sort.  Here `true` compares upwards and sorts something downwards (`false`) on the way; the result is not in
ascending order.  If the comparison then fails, `longjmp` goes to a frame that does not exist any more. -/
theorem c66_qsort_violated :
    SortOk insertion ∧
    (let app : Bool → Nat → Nat → Eff Bool := fun f a b =>
      if f then ⟨.ok ((a : Int) - b), some false⟩ else ⟨.ok ((b : Int) - a), none⟩
     flQsort insertion app true [1, 2, 3] = .ok [2, 3, 1]) ∧
    (let app : Bool → Nat → Nat → Eff Bool := fun _ _ _ => ⟨.error "no", some false⟩
     flQsort insertion app true [1, 2] = .ub) := by
  refine ⟨insertion_ok, ?_, ?_⟩ <;> decide +kernel

end
end Voss.Lst
