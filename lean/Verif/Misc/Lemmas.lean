import Verif.Misc.Model
import Mathlib.Data.List.Permutation
import Mathlib.Data.List.Rotate
import Mathlib.Data.List.TakeWhile
/-
Helper lemmas for C108.
-/
namespace Voss.Misc
open Voss.Pre (Out)
variable {α β : Type}

theorem splitGo_eq : ∀ (m : Nat) (xs : List α), splitGo ((m : Int) + 2) xs = (xs.take (m + 1), xs.drop (m + 1))
  | m, [] => by simp [splitGo]
  | 0, y :: ys => by simp [splitGo]
  | m + 1, y :: ys => by
    rw [splitGo, if_neg (by push_cast; omega)]
    have e : ((m + 1 : Nat) : Int) + 2 - 1 = (m : Int) + 2 := by push_cast; omega
    rw [e, splitGo_eq m ys]
    simp

theorem splitAt_eq (n : Int) (xs : List α) : splitAt n xs = (xs.take (n - 1).toNat, xs.drop (n - 1).toNat) := by
  unfold splitAt
  by_cases h : n ≤ 1
  · rw [if_pos h, show (n - 1).toNat = 0 by omega]; simp
  · rw [if_neg h]
    obtain ⟨m, hm⟩ : ∃ m : Nat, n = (m : Int) + 2 := ⟨(n - 2).toNat, by omega⟩
    subst hm
    rw [splitGo_eq, show ((m : Int) + 2 - 1).toNat = m + 1 by omega]

theorem chunks_spec (n : Nat) (hn : 0 < n) : ∀ (k : Nat) (xs : List α), xs.length ≤ k → ∃ c, chunks k n xs = .ok c ∧
    c.flatten = xs ∧ (∀ p ∈ c.dropLast, p.length = n) ∧ ∀ p ∈ c, 0 < p.length ∧ p.length ≤ n
  | k, [], _ => ⟨[], by cases k <;> rfl, rfl, by simp, by simp⟩
  | 0, _ :: _, h => by simp at h
  | k + 1, x :: xs, h => by
    rw [chunks, splitAt_eq]
    have e : ((n : Int) + 1 - 1).toNat = n := by omega
    rw [e]
    dsimp only
    obtain ⟨c, h1, h2, h3, h4⟩ := chunks_spec n hn k ((x :: xs).drop n) (by
      rw [List.length_drop]; simp only [List.length_cons] at h ⊢; omega)
    rw [h1]
    refine ⟨(x :: xs).take n :: c, rfl, by rw [List.flatten_cons, h2, List.take_append_drop], ?_, ?_⟩
    · intro p hp
      cases c with
      | nil => simp at hp
      | cons q c =>
        rw [List.dropLast_cons_of_ne_nil (by simp)] at hp
        rcases List.mem_cons.1 hp with rfl | hp
        · have hq := (h4 q (by simp)).1
          have hl : ((x :: xs).drop n).length ≥ q.length := by
            rw [← h2, List.flatten_cons, List.length_append]; omega
          rw [List.length_drop] at hl
          rw [List.length_take]
          omega
        · exact h3 p hp
    · intro p hp
      rcases List.mem_cons.1 hp with rfl | hp
      · rw [List.length_take]
        simp only [List.length_cons]
        omega
      · exact h4 p hp

theorem chunks_exact (n : Nat) (hn : 0 < n) : ∀ (m k : Nat) (xs : List α), xs.length = m * n → xs.length ≤ k →
    ∃ c, chunks k n xs = .ok c ∧ c.flatten = xs ∧ c.length = m ∧ ∀ p ∈ c, p.length = n
  | 0, k, xs, h, _ => by
    have : xs = [] := by simpa using h
    subst this
    exact ⟨[], by cases k <;> rfl, rfl, rfl, by simp⟩
  | m + 1, k, [], h, _ => by
    rw [Nat.succ_mul] at h
    simp at h
    omega
  | m + 1, 0, _ :: _, _, h => by simp at h
  | m + 1, k + 1, x :: xs, h, hk => by
    rw [chunks, splitAt_eq]
    have e : ((n : Int) + 1 - 1).toNat = n := by omega
    rw [e]
    dsimp only
    rw [Nat.succ_mul] at h
    obtain ⟨c, h1, h2, h3, h4⟩ := chunks_exact n hn m k ((x :: xs).drop n) (by rw [List.length_drop]; omega) (by
      rw [List.length_drop]; omega)
    rw [h1]
    refine ⟨(x :: xs).take n :: c, rfl, by rw [List.flatten_cons, h2, List.take_append_drop], by simp [h3], ?_⟩
    intro p hp
    rcases List.mem_cons.1 hp with rfl | hp
    · rw [List.length_take]; omega
    · exact h4 p hp

theorem span_eq (p : α → Bool) : ∀ l : List α, span p l = (l.takeWhile p, l.dropWhile p)
  | [] => rfl
  | x :: xs => by
    rw [span, span_eq p xs]
    by_cases h : p x = true
    · simp [h]
    · simp [h]

theorem interleave'_eq (t : α) (ts : List α) (r : List (List α)) : ∀ (ys : List α) (f : List α → List α),
    interleave' t ts f ys r = List.permutationsAux2 t ts r ys f
  | [], f => rfl
  | y :: ys, f => by
    rw [interleave', interleave'_eq t ts r ys]
    rfl

theorem perms_eq : ∀ (ts js : List α), perms ts js = List.permutationsAux ts js := by
  intro ts js
  induction ts, js using perms.induct with
  | case1 js => rw [perms, List.permutationsAux_nil]
  | case2 t ts js ih1 ih2 =>
    rw [perms, List.permutationsAux_cons, ih1, ih2]
    show List.foldr _ _ (js :: List.permutationsAux js []) = List.foldr _ _ (List.permutations js)
    congr 1
    funext y r
    rw [interleave, interleave'_eq]

theorem permutations_eq (xs : List α) : permutations xs = List.permutations xs := by
  rw [permutations, perms_eq]
  rfl

theorem random_ok (r : Nat) {lo hi : Int} (h : lo ≤ hi) : ∃ i, random r lo hi = .ok i ∧ lo ≤ i ∧ i ≤ hi := by
  rw [random, if_neg (by omega)]
  have h1 := Int.emod_nonneg (r : Int) (show hi - lo + 1 ≠ 0 by omega)
  have h2 := Int.emod_lt_of_pos (r : Int) (show 0 < hi - lo + 1 by omega)
  exact ⟨_, rfl, by omega, by omega⟩

theorem random_any {lo hi i : Int} (h1 : lo ≤ i) (h2 : i ≤ hi) : random (i - lo).toNat lo hi = .ok i := by
  rw [random, if_neg (by omega), Int.toNat_of_nonneg (by omega), Int.emod_eq_of_lt (by omega) (by omega)]
  congr 1
  omega

theorem remove_eq (n : Int) (xs : List α) : remove n xs = xs.take (n - 1).toNat ++ (xs.drop (n - 1).toNat).tail := by
  unfold remove
  rw [splitAt_eq]
  dsimp only
  split
  · next h =>
    rw [List.isEmpty_iff] at h
    rw [h, List.tail_nil, List.append_nil]
  · rfl

theorem remove_sub (n : Int) (xs : List α) : (remove n xs).Sublist xs := by
  rw [remove_eq]
  conv_rhs => rw [← List.take_append_drop (n - 1).toNat xs]
  exact List.Sublist.append (List.Sublist.refl _) (List.tail_sublist _)

theorem remove_len (n : Int) (xs : List α) (h : n ≤ xs.length) (hx : xs ≠ []) : (remove n xs).length + 1 = xs.length := by
  have := List.length_pos_iff.2 hx
  rw [remove_eq]
  simp only [List.length_append, List.length_take, List.length_tail, List.length_drop]
  omega

/-- A proper sublist can be had by removing one element first. -/
theorem sub_remove {ys xs : List α} (h : ys.Sublist xs) (hl : ys.length < xs.length) :
    ∃ n : Int, 1 ≤ n ∧ n ≤ xs.length ∧ ys.Sublist (remove n xs) := by
  induction h with
  | slnil => simp at hl
  | cons a h ih => exact ⟨1, by omega, by simp, by rw [remove_eq]; simpa using h⟩
  | cons_cons a h ih =>
    obtain ⟨n, h1, h2, h3⟩ := ih (by simpa using hl)
    refine ⟨n + 1, by omega, by simp; omega, ?_⟩
    rw [remove_eq] at h3 ⊢
    have e : (n + 1 - 1).toNat = (n - 1).toNat + 1 := by omega
    rw [e]
    simpa using h3

theorem sum_nn : ∀ (l : List (Int × α)), (∀ p ∈ l, 0 ≤ p.1) → 0 ≤ (l.map Prod.fst).sum
  | [], _ => by simp
  | p :: l, h => by
    have h1 := h p (by simp)
    have h2 := sum_nn l fun q hq => h q (List.mem_cons_of_mem _ hq)
    simp only [List.map_cons, List.sum_cons]
    omega

theorem pick_weights : ∀ (pre : List (Int × α)) (k : Int) (a : α) (post : List (Int × α)) (n : Int),
    (∀ p ∈ pre, 0 ≤ p.1) → (pre.map Prod.fst).sum < n → n ≤ (pre.map Prod.fst).sum + k →
    pick n (pre ++ (k, a) :: post) = .ok a
  | [], k, a, post, n, _, h1, h2 => by
    simp only [List.map_nil, List.sum_nil] at h1 h2
    rw [List.nil_append, pick, if_pos (by omega)]
  | (k', a') :: pre, k, a, post, n, h0, h1, h2 => by
    simp only [List.map_cons, List.sum_cons] at h1 h2
    have hp := sum_nn pre fun p hp => h0 p (List.mem_cons_of_mem _ hp)
    rw [List.cons_append, pick, if_neg (by omega)]
    exact pick_weights pre k a post (n - k') (fun p hp => h0 p (List.mem_cons_of_mem _ hp)) (by omega) (by omega)

theorem weights_split : ∀ (l : List (Int × α)) (n : Int), 0 < n → n ≤ (l.map Prod.fst).sum → (∀ p ∈ l, 0 ≤ p.1) →
    ∃ pre k a post, l = pre ++ (k, a) :: post ∧ (pre.map Prod.fst).sum < n ∧ n ≤ (pre.map Prod.fst).sum + k
  | [], n, h1, h2, _ => by simp at h2; omega
  | (k, a) :: l, n, h1, h2, h0 => by
    by_cases h : n ≤ k
    · exact ⟨[], k, a, l, rfl, by simpa using h1, by simpa using h⟩
    · simp only [List.map_cons, List.sum_cons] at h2
      obtain ⟨pre, k', a', post, e, q1, q2⟩ := weights_split l (n - k) (by omega) (by omega)
        (fun p hp => h0 p (List.mem_cons_of_mem _ hp))
      refine ⟨(k, a) :: pre, k', a', post, by rw [e]; rfl, ?_, ?_⟩ <;> simp only [List.map_cons, List.sum_cons] <;> omega

end Voss.Misc
