import Verif.Misc.Lemmas
/-
C108: the list functions of the design library (IDVII/src/fl/design/misc.fl).
-/
namespace Voss.Misc
open Voss.Pre (Out)
variable {α β : Type}

/-! ### Parts of lists -/

/-- C108: `split_at n` splits before place `n`, counted from 1; all is in the second part for `n ≤ 1`, and all in the
first one behind the end. -/
theorem c108_split_at (n : Int) (xs : List α) :
    (splitAt n xs).1 ++ (splitAt n xs).2 = xs ∧ ((splitAt n xs).1.length : Int) = max 0 (min (n - 1) xs.length) := by
  rw [splitAt_eq]
  refine ⟨List.take_append_drop _ _, ?_⟩
  simp only [List.length_take]
  omega

example : splitAt 3 [1, 2, 3, 4] = ([1, 2], [3, 4]) := by decide

/-- C108: `chunks n`, for positive `n`, cuts the list into parts with `n` elements, except that the last one may have
fewer, but has at least one. -/
theorem c108_chunks_partial (n : Int) (hn : 0 < n) (xs : List α) (k : Nat) (hk : xs.length ≤ k) :
    ∃ c, chunks k n xs = .ok c ∧ c.flatten = xs ∧ (∀ p ∈ c.dropLast, (p.length : Int) = n) ∧
      ∀ p ∈ c, 0 < p.length ∧ (p.length : Int) ≤ n := by
  obtain ⟨m, rfl⟩ : ∃ m : Nat, n = m := ⟨n.toNat, by omega⟩
  obtain ⟨c, h1, h2, h3, h4⟩ := chunks_spec m (by omega) k xs hk
  exact ⟨c, h1, h2, fun p hp => by rw [h3 p hp], fun p hp => ⟨(h4 p hp).1, by exact_mod_cast (h4 p hp).2⟩⟩

example : chunks 5 2 [1, 2, 3, 4, 5] = .ok [[1, 2], [3, 4], [5]] := by decide

/-- C108: for other `n`, `chunks` of a list that is not empty never ends. -/
theorem c108_chunks_violated (n : Int) (hn : n ≤ 0) (xs : List α) (hx : xs ≠ []) : ∀ k, chunks k n xs = .more
  | 0 => by
    obtain ⟨x, xs, rfl⟩ := List.exists_cons_of_ne_nil hx
    rfl
  | k + 1 => by
    obtain ⟨x, xs, rfl⟩ := List.exists_cons_of_ne_nil hx
    rw [chunks, splitAt_eq, show (n + 1 - 1).toNat = 0 by omega]
    dsimp only
    rw [List.drop_zero, c108_chunks_violated n hn _ hx k]
    rfl

/-- C108: `split_into n` cuts the list into exactly `n` parts; all but the first one have the length divided by `n`, and
the first one has what remains as well.  A list with fewer than `n` elements is refused. -/
theorem c108_split_into (n : Nat) (hn : 0 < n) (xs : List α) (k : Nat) (hk : xs.length ≤ k) :
    (n ≤ xs.length → ∃ p c, splitInto k n xs = .ok (p :: c) ∧ (p :: c).flatten = xs ∧ (p :: c).length = n ∧
      p.length = xs.length / n + xs.length % n ∧ ∀ q ∈ c, q.length = xs.length / n) ∧
    (xs.length < n → splitInto k n xs = .fail) := by
  constructor
  · intro h
    rw [splitInto]
    dsimp only
    rw [if_neg (by omega), if_neg (by omega), splitAt_eq]
    have e1 : ((xs.length : Int).tdiv n) = ((xs.length / n : Nat) : Int) := by simp
    have e2 : ((xs.length : Int).tmod n) = ((xs.length % n : Nat) : Int) := (Int.natCast_mod _ _).symm ▸ Int.tmod_eq_emod_of_nonneg (by omega)
    rw [e1, e2]
    have e3 : (((xs.length / n : Nat) : Int) + ((xs.length % n : Nat) : Int) + 1 - 1).toNat
      = xs.length / n + xs.length % n := by
      generalize xs.length / n = a
      generalize xs.length % n = b
      omega
    rw [e3]
    dsimp only
    have hd : 0 < xs.length / n := Nat.div_pos h hn
    have hm := Nat.div_add_mod xs.length n
    obtain ⟨m, rfl⟩ : ∃ m, n = m + 1 := ⟨n - 1, by omega⟩
    rw [Nat.succ_mul] at hm
    obtain ⟨c, h1, h2, h3, h4⟩ := chunks_exact (xs.length / (m + 1)) hd m k
      (xs.drop (xs.length / (m + 1) + xs.length % (m + 1))) (by rw [List.length_drop]; omega)
      (by rw [List.length_drop]; omega)
    rw [h1]
    refine ⟨_, c, rfl, by rw [List.flatten_cons, h2, List.take_append_drop], by simp [h3], ?_, h4⟩
    rw [List.length_take]
    have : m * (xs.length / (m + 1)) ≥ 0 := Nat.zero_le _
    omega
  · intro h
    rw [splitInto]
    dsimp only
    rw [if_pos (by omega)]

example : splitInto 9 3 [1, 2, 3, 4, 5] = .ok [[1, 2, 3], [4], [5]] ∧ splitInto 9 3 [1, 2] = .fail := by decide

/-- C108: `remove n` removes the element at place `n`, and nothing behind the end; `modify f n` applies `f` to it. -/
theorem c108_remove_partial (f : α → α) (n : Int) (hn : 1 ≤ n) (xs : List α) :
    remove n xs = xs.eraseIdx (n - 1).toNat ∧ modify f n xs = xs.modify (n - 1).toNat f := by
  have _ := hn
  constructor
  · rw [remove_eq, List.eraseIdx_eq_take_drop_succ, List.tail_drop]
  · unfold modify
    rw [splitAt_eq, List.modify_eq_take_drop]
    cases h : xs.drop (n - 1).toNat with
    | nil => simp [List.modifyHead]
    | cons b bs => simp [List.modifyHead]

example : remove 2 [1, 2, 3] = [1, 3] ∧ remove 4 [1, 2, 3] = [1, 2, 3] ∧ modify (· + 7) 2 [1, 2, 3] = [1, 9, 3] := by decide

/-- C108: places before the first one are taken for the first one. -/
theorem c108_remove_violated (f : α → α) (n : Int) (hn : n ≤ 0) (x : α) (xs : List α) :
    remove n (x :: xs) = xs ∧ modify f n (x :: xs) = f x :: xs := by
  have e : (n - 1).toNat = 0 := by omega
  constructor
  · rw [remove_eq, e]; rfl
  · unfold modify; rw [splitAt_eq, e]; rfl

/-! ### Groups -/

/-- The groups that `group p` is to make: no group is empty, in each group the first element is related to the others,
and not to the first element of the next group. -/
def Groups (p : α → α → Bool) : List (List α) → Prop
  | [] => True
  | g :: gs => (∃ x xs, g = x :: xs ∧ (∀ y ∈ xs, p x y = true) ∧
      ∀ y ys rest, gs = (y :: ys) :: rest → p x y = false) ∧ Groups p gs

/-- C108: `group p` cuts the list into such groups, and there is only one way to do this. -/
theorem c108_group (p : α → α → Bool) (l : List α) :
    ∃ g, group p l = .ok g ∧ g.flatten = l ∧ Groups p g := by
  suffices h : ∀ n (l : List α), l.length ≤ n → ∃ g, groupGo p n l = .ok g ∧ g.flatten = l ∧ Groups p g from
    h _ _ (le_refl _)
  intro n
  induction n with
  | zero =>
    intro l h
    have : l = [] := by simpa using h
    subst this
    exact ⟨[], rfl, rfl, trivial⟩
  | succ n ih =>
    intro l h
    cases l with
    | nil => exact ⟨[], rfl, rfl, trivial⟩
    | cons x xs =>
      have hl : (xs.dropWhile (p x)).length ≤ n :=
        le_trans (List.dropWhile_sublist _).length_le (by simpa using h)
      obtain ⟨g, h1, h2, h3⟩ := ih _ hl
      refine ⟨(x :: xs.takeWhile (p x)) :: g, ?_, ?_, ⟨x, _, rfl, fun y hy => List.mem_takeWhile_imp hy, ?_⟩, h3⟩
      · rw [groupGo, span_eq]
        dsimp only
        rw [h1]
        rfl
      · rw [List.flatten_cons, h2, List.cons_append, List.takeWhile_append_dropWhile]
      · intro y ys rest e
        subst e
        have hne : xs.dropWhile (p x) ≠ [] := by rw [← h2]; simp
        have := List.head_dropWhile_not (p x) hne
        have e2 : (xs.dropWhile (p x)).head hne = y := by
          simp only [← h2]; rfl
        rwa [e2] at this

/-- A list can be cut into groups in one way only. -/
theorem c108_group_unique (p : α → α → Bool) : ∀ g g' : List (List α), Groups p g → Groups p g' →
    g.flatten = g'.flatten → g = g'
  | [], [], _, _, _ => rfl
  | [], g' :: gs', _, h', e => by
    obtain ⟨⟨x, xs, rfl, -⟩, -⟩ := h'
    simp at e
  | g :: gs, [], h, _, e => by
    obtain ⟨⟨x, xs, rfl, -⟩, -⟩ := h
    simp at e
  | g :: gs, g' :: gs', h, h', e => by
    obtain ⟨⟨x, xs, rfl, h1, h2⟩, h3⟩ := h
    obtain ⟨⟨x', xs', rfl, h1', h2'⟩, h3'⟩ := h'
    simp only [List.flatten_cons, List.cons_append, List.cons.injEq] at e
    obtain ⟨rfl, e⟩ := e
    have key : ∀ (xs : List α) (gs : List (List α)), Groups p gs → (∀ y ∈ xs, p x y = true) →
        (∀ y ys rest, gs = (y :: ys) :: rest → p x y = false) → (xs ++ gs.flatten).takeWhile (p x) = xs := by
      intro xs gs hg ha hb
      rw [List.takeWhile_append_of_pos ha]
      cases gs with
      | nil => simp
      | cons g gs =>
        obtain ⟨⟨y, ys, rfl, -⟩, -⟩ := hg
        simp [hb y ys gs rfl]
    have k1 := key xs gs h3 h1 h2
    have k2 := key xs' gs' h3' h1' h2'
    rw [e, k2] at k1
    subst k1
    rw [c108_group_unique p gs gs' h3 h3' (List.append_cancel_left e)]

example : group (fun a b => decide (a < b)) [1, 3, 2, 1, 4] = .ok [[1, 3, 2], [1, 4]] := by decide

/-- C108: `hist` gives each element of the list once, with the number of times that it is there; for any order and any
sort that gives the elements in this order. -/
theorem c108_hist [LinearOrder α] (sort : List α → List α) (l : List α)
    (h1 : (sort l).Perm l) (h2 : (sort l).Pairwise (· ≤ ·)) :
    ∃ r, hist sort l = .ok r ∧ (r.map Prod.fst).Pairwise (· < ·) ∧
      (∀ a, a ∈ r.map Prod.fst ↔ a ∈ l) ∧ ∀ q ∈ r, q.2 = l.count q.1 := by
  obtain ⟨g, e, hf, hg⟩ := c108_group (fun a b : α => decide (a = b)) (sort l)
  unfold hist
  rw [e]
  refine ⟨_, rfl, ?_⟩
  suffices H : ∀ (g : List (List α)), Groups (fun a b : α => decide (a = b)) g → g.flatten.Pairwise (· ≤ ·) →
      let r := g.filterMap fun g => g.head?.map fun a => (a, g.length)
      (r.map Prod.fst).Pairwise (· < ·) ∧ (∀ a, a ∈ r.map Prod.fst ↔ a ∈ g.flatten) ∧
        ∀ q ∈ r, q.2 = g.flatten.count q.1 by
    obtain ⟨q1, q2, q3⟩ := H g hg (by rw [hf]; exact h2)
    rw [hf] at q2 q3
    exact ⟨q1, fun a => (q2 a).trans h1.mem_iff, fun q hq => (q3 q hq).trans (h1.count_eq _)⟩
  clear hf hg e
  intro g
  induction g with
  | nil => simp
  | cons g gs ih =>
    rintro ⟨⟨x, xs, rfl, hx, hn⟩, hg⟩ hs
    rw [List.flatten_cons] at hs
    obtain ⟨i1, i2, i3⟩ := ih hg (List.pairwise_append.1 hs).2.1
    have hxs : ∀ y ∈ xs, y = x := fun y hy => by simpa using (of_decide_eq_true (hx y hy)).symm
    have hlt : ∀ y ∈ gs.flatten, x < y := by
      intro y hy
      cases gs with
      | nil => simp at hy
      | cons g' gs =>
        obtain ⟨⟨z, zs, rfl, -⟩, -⟩ := hg
        have hxz : x < z := by
          have a1 : x ≤ z := (List.pairwise_append.1 hs).2.2 x (by simp) z (by simp)
          have a2 : x ≠ z := of_decide_eq_false (hn z zs gs rfl)
          exact lt_of_le_of_ne a1 a2
        have hz : z ≤ y := by
          have := (List.pairwise_append.1 hs).2.1
          rw [List.flatten_cons, List.cons_append, List.pairwise_cons] at this
          rw [List.flatten_cons, List.cons_append, List.mem_cons] at hy
          rcases hy with rfl | hy
          · exact le_refl _
          · exact this.1 y hy
        exact lt_of_lt_of_le hxz hz
    have hr : ((x :: xs) :: gs).filterMap (fun g => g.head?.map fun a => (a, g.length)) =
        (x, xs.length + 1) :: gs.filterMap fun g => g.head?.map fun a => (a, g.length) := by simp
    have hcx : xs.count x = xs.length := List.count_eq_length.2 fun b hb => (hxs b hb).symm
    dsimp only
    rw [hr, List.map_cons, List.flatten_cons]
    refine ⟨List.pairwise_cons.2 ⟨fun y hy => hlt y ((i2 y).1 hy), i1⟩, fun a => ?_, fun q hq => ?_⟩
    · rw [List.mem_cons, i2, List.mem_append, List.mem_cons]
      constructor
      · rintro (h | h)
        · exact Or.inl (Or.inl h)
        · exact Or.inr h
      · rintro ((h | h) | h)
        · exact Or.inl h
        · exact Or.inl (hxs a h)
        · exact Or.inr h
    · rcases List.mem_cons.1 hq with rfl | hq
      · have : gs.flatten.count x = 0 := List.count_eq_zero.2 fun h => lt_irrefl _ (hlt x h)
        rw [List.count_append, this, List.count_cons_self, hcx]
      · have hm : q.1 ∈ gs.flatten := (i2 q.1).1 (List.mem_map.2 ⟨q, hq, rfl⟩)
        have hne : q.1 ≠ x := ne_of_gt (hlt _ hm)
        have : (x :: xs).count q.1 = 0 := List.count_eq_zero.2 fun h => by
          rcases List.mem_cons.1 h with h | h
          · exact hne h
          · exact hne (hxs _ h)
        rw [List.count_append, this, Nat.zero_add]
        exact i3 q hq

example : hist (fun _ => [1, 1, 2, 5, 5, 5]) [5, 1, 5, 2, 1, 5] = .ok [(1, 2), (2, 1), (5, 3)] := by decide

/-! ### Orders of lists -/

/-- C108: `permutations` gives the permutations of a list, all of them, each once if the elements are different; there
are as many as the factorial of the length. -/
theorem c108_permutations (xs : List α) :
    (∀ ys, ys ∈ permutations xs ↔ ys.Perm xs) ∧ (permutations xs).length = xs.length.factorial ∧
    (xs.Nodup → (permutations xs).Nodup) := by
  rw [permutations_eq]
  exact ⟨fun ys => List.mem_permutations, List.length_permutations xs, List.nodup_permutations xs⟩

example : permutations [1, 2, 3] = [[1, 2, 3], [2, 1, 3], [3, 2, 1], [2, 3, 1], [3, 1, 2], [1, 3, 2]] := by
  simp [permutations, perms, interleave, interleave']

/-- C108: `rotations l` gives the list and its first `l - 1` rotations to the left. -/
theorem c108_rotations (l : Int) (xs : List α) (hx : xs ≠ []) :
    rotations l xs = .ok ((List.range l.toNat).map fun i => xs.rotate i) := by
  suffices h : ∀ (n : Nat) (xs : List α), xs ≠ [] → rotGo n xs = .ok ((List.range n).map fun i => xs.rotate i) from
    h _ _ hx
  intro n
  induction n using Nat.twoStepInduction with
  | zero => intro xs _; rfl
  | one => intro xs _; simp [rotGo]
  | more n _ ih =>
    intro xs hx
    obtain ⟨y, ys, rfl⟩ := List.exists_cons_of_ne_nil hx
    rw [rotGo]
    simp only [rotate, Out.bind]
    rw [ih (ys ++ [y]) (by simp), List.range_succ_eq_map (n := n + 1)]
    simp [Function.comp_def]

example : rotations 3 [1, 2, 3, 4] = .ok [[1, 2, 3, 4], [2, 3, 4, 1], [3, 4, 1, 2]] := by decide

/-! ### Searching and numbering -/

theorem findFirst0_spec (p : α → Bool) : ∀ (l : List α) (i : Nat), 0 < i →
    findFirst0 p i l = match l.findIdx? p with
      | some j => j + i
      | none => 0
  | [], i, _ => by simp [findFirst0]
  | x :: xs, i, h => by
    rw [findFirst0]
    by_cases hp : p x = true
    · simp [hp, List.findIdx?_cons]
    · rw [if_neg hp, findFirst0_spec p xs (i + 1) (by omega), List.findIdx?_cons, if_neg hp]
      cases xs.findIdx? p with
      | none => simp
      | some j =>
        simp only [Option.map_some]
        exact (Nat.add_comm i 1 ▸ (Nat.add_assoc j 1 i).symm : j + (i + 1) = j + 1 + i)

/-- C108: `elem` decides membership; `find_maybe` gives the first element that is accepted, or else the default;
`exhaust` gives the first value, `filter_some` all values. -/
theorem c108_find [DecidableEq α] (a : α) (p : α → Bool) (x : α) (xs : List α) (os : List (Option α)) :
    (elem a xs = true ↔ a ∈ xs) ∧ findMaybe p x xs = some ((xs.find? p).getD x) ∧
    exhaust os = (os.filterMap id).head? ∧ filterSome os = os.filterMap id := by
  refine ⟨?_, ?_, ?_, ?_⟩
  · unfold elem
    rw [findFirst0_spec _ _ _ (by omega)]
    cases h : xs.findIdx? (fun x => decide (a = x)) with
    | none =>
      rw [List.findIdx?_eq_none_iff] at h
      simp only [bne_self_eq_false, Bool.false_eq_true, false_iff]
      intro ha
      simpa using h a ha
    | some j =>
      rw [List.findIdx?_eq_some_iff_getElem] at h
      obtain ⟨hj, h1, -⟩ := h
      simp only [decide_eq_true_eq] at h1
      simp [h1]
  · unfold findMaybe
    rw [findFirst0_spec _ _ _ (by omega)]
    cases h : xs.findIdx? p with
    | none =>
      have : xs.find? p = none := by
        rw [List.find?_eq_none]
        rw [List.findIdx?_eq_none_iff] at h
        intro y hy
        simp [h y hy]
      simp [this]
    | some j =>
      rw [List.findIdx?_eq_some_iff_getElem] at h
      obtain ⟨hj, h1, h2⟩ := h
      have : xs.find? p = some xs[j] := by
        rw [List.find?_eq_some_iff_getElem]
        exact ⟨h1, j, hj, rfl, fun i hi => by simpa using h2 i hi⟩
      simp [this, hj]
  · induction os with
    | nil => rfl
    | cons o os ih => cases o <;> simp [exhaust, ih]
  · unfold filterSome
    induction os with
    | nil => rfl
    | cons o os ih => cases o <;> simp_all

/-- C108: `map_some f` gives the values of `f`, in the order of the list. -/
theorem c108_map_some (f : α → Option β) (xs : List α) : mapSome f xs = xs.filterMap f := by
  unfold mapSome filterSome
  induction xs with
  | nil => rfl
  | cons x xs ih => cases h : f x <;> simp_all

example : mapSome (fun n : Nat => if n < 3 then some (n + 5) else none) [1, 4, 2] = [6, 7] := by decide

/-- C108: `ixmap f` applies `f` to each element and its place, counted from 1; `zip_uneven` pairs as long as there are
elements in both lists. -/
theorem c108_index (f : α → Int → β) (xs : List α) (ys : List β) :
    ixmap f xs = xs.mapIdx (fun i x => f x ((i : Int) + 1)) ∧ zipUneven xs ys = xs.zip ys := by
  constructor
  · have key : ∀ (xs : List α) (n : Int),
        xs.foldr (fun x (s : Int × List β) => (s.1 - 1, f x s.1 :: s.2)) (n, []) =
          (n - xs.length, xs.mapIdx fun i x => f x (n - xs.length + 1 + i)) := by
      intro xs
      induction xs with
      | nil => intro n; simp
      | cons x xs ih =>
        intro n
        rw [List.foldr_cons, ih n, List.mapIdx_cons]
        simp only [List.length_cons]
        refine Prod.ext (by push_cast; omega) ?_
        simp only [List.cons.injEq]
        refine ⟨by congr 1; push_cast; omega, ?_⟩
        congr 1
        funext i y
        congr 1
        push_cast
        omega
    unfold ixmap ixlist
    rw [key xs xs.length]
    dsimp only
    congr 1
    funext i y
    congr 1
    omega
  · induction xs generalizing ys with
    | nil => cases ys <;> rfl
    | cons x xs ih =>
      cases ys with
      | nil => rfl
      | cons y ys => rw [zipUneven, ih]; rfl

example : ixmap (fun x i => x * 10 + i) [7, 8, 9] = [71, 82, 93] := by decide

/-! ### Random choices -/

/-- C108: `one_of` gives an element, and can give each place of the list; `split_at_random` can give each way to split
the list and nothing else. -/
theorem c108_one_of (xs : List α) (hx : xs ≠ []) :
    (∀ r, ∃ a ∈ xs, oneOf r xs = .ok a) ∧ (∀ i : Fin xs.length, ∃ r, oneOf r xs = .ok xs[i]) ∧
    (∀ r, ∃ as bs, splitAtRandom r xs = .ok (as, bs) ∧ as ++ bs = xs) ∧
    ∀ as bs, as ++ bs = xs → ∃ r, splitAtRandom r xs = .ok (as, bs) := by
  have hp := List.length_pos_iff.2 hx
  have he : xs.isEmpty = false := by cases xs <;> simp_all
  refine ⟨fun r => ?_, fun i => ⟨i, ?_⟩, fun r => ?_, fun as bs h => ⟨as.length, ?_⟩⟩
  · obtain ⟨i, h1, h2, h3⟩ := random_ok r (lo := 1) (hi := xs.length) (by omega)
    have hi : i.toNat - 1 < xs.length := by omega
    refine ⟨xs[i.toNat - 1], List.getElem_mem _, ?_⟩
    rw [oneOf, he, if_neg (by simp), h1]
    simp only [Out.bind]
    rw [if_neg (by omega), List.getElem?_eq_getElem hi]
    rfl
  · have := random_any (lo := 1) (hi := xs.length) (i := (i : Int) + 1) (by omega) (by have := i.2; omega)
    rw [show ((i : Int) + 1 - 1).toNat = (i : Nat) by omega] at this
    rw [oneOf, he, if_neg (by simp), this]
    simp only [Out.bind]
    rw [if_neg (by omega), show ((i : Int) + 1).toNat - 1 = (i : Nat) by omega, List.getElem?_eq_getElem i.2]
    rfl
  · obtain ⟨i, h1, -⟩ := random_ok r (lo := 1) (hi := xs.length + 1) (by omega)
    refine ⟨_, _, ?_, (c108_split_at i xs).1⟩
    rw [splitAtRandom, he, if_neg (by simp), h1]
    rfl
  · have hl : as.length ≤ xs.length := by rw [← h]; simp
    have := random_any (lo := 1) (hi := xs.length + 1) (i := (as.length : Int) + 1) (by omega) (by omega)
    rw [show ((as.length : Int) + 1 - 1).toNat = as.length by omega] at this
    rw [splitAtRandom, he, if_neg (by simp), this]
    simp only [Out.bind]
    rw [splitAt_eq, show ((as.length : Int) + 1 - 1).toNat = as.length by omega, ← h]
    simp

/-- C108: `one_of_weighted`, for weights that are not negative and not all 0: the number that is drawn is between 1 and
the sum of the weights, and the entries own intervals of these numbers that are as long as their weights. -/
theorem c108_weighted (xs : List (Int × α)) (hw : ∀ p ∈ xs, 0 ≤ p.1) (hs : 0 < (xs.map Prod.fst).sum) :
    (∀ r, ∃ p ∈ xs, 0 < p.1 ∧ oneOfWeighted r xs = .ok p.2) ∧
    ∀ pre k a post, xs = pre ++ (k, a) :: post → ∀ n : Int,
      (pre.map Prod.fst).sum < n → n ≤ (pre.map Prod.fst).sum + k → oneOfWeighted (n - 1).toNat xs = .ok a := by
  have hsum : xs.foldr (fun p s => p.1 + s) 0 = (xs.map Prod.fst).sum := by
    clear hw hs
    induction xs with
    | nil => rfl
    | cons p xs ih => simp [ih]
  have he : xs.isEmpty = false := by cases xs <;> simp_all
  constructor
  · intro r
    obtain ⟨n, h1, h2, h3⟩ := random_ok r (lo := 1) (hi := (xs.map Prod.fst).sum) (by omega)
    obtain ⟨pre, k, a, post, e, q1, q2⟩ := weights_split xs n (by omega) h3 hw
    refine ⟨(k, a), by rw [e]; simp, by dsimp only; omega, ?_⟩
    rw [oneOfWeighted, he, if_neg (by simp), hsum, h1]
    simp only [Out.bind]
    rw [e]
    exact pick_weights pre k a post n (fun p hp => hw p (by rw [e]; simp [hp])) q1 q2
  · intro pre k a post e n q1 q2
    have n1 := sum_nn pre fun p hp => hw p (by rw [e]; simp [hp])
    have n2 := sum_nn post fun p hp => hw p (by rw [e]; simp [hp])
    have hS : (xs.map Prod.fst).sum = (pre.map Prod.fst).sum + (k + (post.map Prod.fst).sum) := by rw [e]; simp
    have := random_any (lo := 1) (hi := (xs.map Prod.fst).sum) (i := n) (by omega) (by omega)
    rw [oneOfWeighted, he, if_neg (by simp), hsum, this]
    simp only [Out.bind]
    rw [e]
    exact pick_weights pre k a post n (fun p hp => hw p (by rw [e]; simp [hp])) q1 q2

example : (List.range 6).map (fun r => oneOfWeighted r [(3, 'a'), (0, 'b'), (1, 'c'), (2, 'd')]) =
    [.ok 'a', .ok 'a', .ok 'a', .ok 'c', .ok 'd', .ok 'd'] := by decide

theorem removeMany_spec (rs : Nat → Nat) : ∀ (n : Nat) (xs : List α), n < xs.length →
    ∃ ys, removeMany rs n xs = .ok ys ∧ ys.Sublist xs ∧ ys.length + n = xs.length
  | 0, xs, _ => ⟨xs, rfl, List.Sublist.refl _, rfl⟩
  | n + 1, xs, h => by
    have hx : xs ≠ [] := by intro e; simp [e] at h
    have he : xs.isEmpty = false := by cases xs <;> simp_all
    obtain ⟨i, h1, h2, h3⟩ := random_ok (rs n) (lo := 1) (hi := xs.length) (by omega)
    have hl := remove_len i xs h3 hx
    obtain ⟨ys, g1, g2, g3⟩ := removeMany_spec rs n (remove i xs) (by omega)
    refine ⟨ys, ?_, g2.trans (remove_sub i xs), by omega⟩
    rw [removeMany, removeOne, he, if_neg (by simp), h1]
    exact g1

theorem removeMany_any : ∀ (n : Nat) (xs ys : List α), ys.Sublist xs → ys.length + n = xs.length →
    ∃ rs, removeMany rs n xs = .ok ys
  | 0, xs, ys, h, hl => ⟨fun _ => 0, by rw [removeMany, h.eq_of_length (by omega)]⟩
  | n + 1, xs, ys, h, hl => by
    have hx : xs ≠ [] := by intro e; simp [e] at hl
    have he : xs.isEmpty = false := by cases xs <;> simp_all
    obtain ⟨i, h1, h2, h3⟩ := sub_remove h (by omega)
    have hlen := remove_len i xs h2 hx
    obtain ⟨rs, e⟩ := removeMany_any n (remove i xs) ys h3 (by omega)
    have same : ∀ (m : Nat) (r : Nat) (l : List α), m ≤ n → 
        removeMany (fun j => if j = n then r else rs j) m l = removeMany rs m l := by
      intro m
      induction m with
      | zero => intros; rfl
      | succ m ih =>
        intro r l hm
        rw [removeMany, removeMany, if_neg (by omega)]
        congr 1
        funext l'
        exact ih r l' (by omega)
    refine ⟨fun j => if j = n then (i - 1).toNat else rs j, ?_⟩
    rw [removeMany, removeOne, he, if_neg (by simp), if_pos rfl, random_any h1 h2]
    simp only [Out.bind]
    rw [same n _ _ (le_refl _), e]

/-- C108: `some_of` gives some of the elements, in their order, at least one if there are any, and every such choice can
come out. -/
theorem c108_some_of (xs : List α) :
    (∀ r rs, ∃ ys, someOf r rs xs = .ok ys ∧ ys.Sublist xs ∧ (xs ≠ [] → ys ≠ [])) ∧
    ∀ ys : List α, ys.Sublist xs → ys ≠ [] → ∃ r rs, someOf r rs xs = .ok ys := by
  match xs with
  | [] =>
    refine ⟨fun r rs => ⟨[], rfl, List.Sublist.refl _, fun h => h⟩, fun ys h hy => ?_⟩
    exact absurd (List.sublist_nil.1 h) hy
  | [x] =>
    refine ⟨fun r rs => ⟨[x], rfl, List.Sublist.refl _, fun _ => by simp⟩, fun ys h hy => ?_⟩
    have := h.eq_of_length_le (by have := List.length_pos_iff.2 hy; simp only [List.length_cons, List.length_nil]; omega)
    exact ⟨0, fun _ => 0, by rw [this]; rfl⟩
  | x :: y :: xs =>
    have e : ∀ r rs, someOf r rs (x :: y :: xs) =
      (random r 0 (((x :: y :: xs).length : Int) - 1)).bind fun n => removeMany rs n.toNat (x :: y :: xs) := fun _ _ => rfl
    constructor
    · intro r rs
      obtain ⟨i, h1, h2, h3⟩ := random_ok r (lo := 0) (hi := ((x :: y :: xs).length : Int) - 1) (by simp; omega)
      have hl : (x :: y :: xs).length = xs.length + 2 := by simp
      obtain ⟨ys, g1, g2, g3⟩ := removeMany_spec rs i.toNat (x :: y :: xs) (by omega)
      refine ⟨ys, by rw [e, h1]; exact g1, g2, fun _ hy => ?_⟩
      rw [hy] at g3
      simp only [List.length_nil] at g3
      omega
    · intro ys h hy
      have hlen := h.length_le
      have hpos := List.length_pos_iff.2 hy
      obtain ⟨rs, g⟩ := removeMany_any ((x :: y :: xs).length - ys.length) _ ys h (by omega)
      refine ⟨((((x :: y :: xs).length - ys.length : Nat) : Int) - 0).toNat, rs, ?_⟩
      rw [e, random_any (by omega) (by omega)]
      simp only [Out.bind]
      rw [Int.toNat_natCast, g]

example : someOf 2 (fun _ => 1) [1, 2, 3, 4] = .ok [1, 4] := by decide

end Voss.Misc
