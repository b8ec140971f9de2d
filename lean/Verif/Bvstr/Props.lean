import Verif.Bvstr.Lemmas

/-! C110: what a bit-vector is printed as. -/

namespace Voss.Bvstr

open Voss.Bv

variable {α : Type}

/-- A constant vector is printed as its letters followed by its two's complement value, whatever the depth: proved for
vectors that are not empty, not longer than 2000 bits, with at most 30 bits if the sign bit is set and a value below
`2^31` otherwise.  (The bounds are needed: see below.) -/
theorem c110_value_partial (pr : Int → Bit α → List Char) (d : Int) (b : List Bool) (hne : b ≠ [])
    (hlen : b.length ≤ 2000) (hneg : b.headD false = true → b.length ≤ 30) (hval : uv b < 2 ^ 31) :
    list2str pr d (b.map const) = .text (angle (b.map letter) ++ paren (tc b)) := by
  have hr : run 0 b = uv b := by rw [run_eq]; simp
  obtain ⟨s, hs, h1, h2, h3, h4⟩ := loop_const pr d b init rfl (by simp [init]) (by simp [init])
    (by simp only [init, hr]; omega) (by simp [init]; omega)
  have ho := out_const pr d b s hs
  have hv : s.value = uv b := by rw [h2]; simpa [init] using hr
  have hz : s.sz = b.length := by simpa [init] using h3
  have hn : s.negative = b.headD false := by simpa [init] using h4
  have hf : finish s = some (angle (b.map letter) ++ paren (tc b)) ∧ -2147483648 ≤ tc b ∧ tc b ≤ 2147483647 := by
    have hang : s.out ++ ['>'] = angle (b.map letter) := by
      rw [ho]
      cases b with
      | nil => exact absurd rfl hne
      | cons c l => rw [List.map_cons, seps_cons]; rfl
    have htc := tc_eq b hne
    cases hh : b.headD false with
    | false =>
      rw [hh] at hn htc
      simp only [Bool.false_eq_true, if_false, Int.sub_zero] at htc
      refine ⟨?_, by omega, by omega⟩
      simp only [finish, h1, hn, if_true, Bool.false_eq_true, if_false, hang]
      rw [hv, htc]; simp [paren]
    | true =>
      rw [hh] at hn htc
      simp only [if_true] at htc
      have hl := hneg hh
      have hp : (2:Int) ^ b.length ≤ 2 ^ 30 := by
        exact_mod_cast Nat.pow_le_pow_right (n := 2) (by omega) hl
      have hp0 : (0:Int) ≤ 2 ^ b.length := by positivity
      have hp30 : (2:Int) ^ 30 = 1073741824 := by norm_num
      have e1 : shl1 s.sz = some (2 ^ b.length) := by
        rw [hz]; simp only [shl1, Int.toNat_natCast]
        rw [if_pos (by omega)]
        exact int_some (by omega) (by omega)
      have e2 : int (s.value - 2 ^ b.length) = some (tc b) := by
        rw [hv, ← htc]; exact int_some (by omega) (by omega)
      refine ⟨?_, by omega, by omega⟩
      simp only [finish, h1, hn, if_true, e1, Option.bind_eq_bind, Option.bind_some, e2, hang]
      simp [paren]
  obtain ⟨hf, hb1, hb2⟩ := hf
  have hd := decimal_length (tc b) hb1 hb2
  have hc := commas_letters b
  simp only [list2str, hs, Option.bind_some, hf]
  rw [if_pos]
  simp [angle, paren]; omega

example : list2str (α := Unit) (fun _ _ => []) (-1) ([true, false, true].map const) = .text "<T,F,T> (-3)".toList := by
  rw [c110_value_partial _ _ _ (by decide) (by decide) (by decide) (by decide)]; decide

/-- Exactly which constant vectors are printed by a computation C does not define: those of more than 30 bits with the
sign bit set, and those whose bits are a number of `2^31` or more. -/
theorem c110_undefined (pr : Int → Bit α → List Char) (d : Int) (b : List Bool) (hlen : b.length < 2 ^ 31) :
    list2str pr d (b.map const) = .undefined ↔ (b.headD false = true ∧ 31 ≤ b.length) ∨ 2 ^ 31 ≤ uv b := by
  have hr : run 0 b = uv b := by rw [run_eq]; simp
  by_cases hval : 2 ^ 31 ≤ uv b
  · refine ⟨fun _ => .inr hval, fun _ => ?_⟩
    cases hs : loop pr d init (b.map const) with
    | none => simp [list2str, hs]
    | some s =>
      have := (loop_const_range pr d b init s rfl hs (by simp [init])).1
      simp only [init, hr] at this; omega
  · obtain ⟨s, hs, h1, h2, h3, h4⟩ := loop_const pr d b init rfl (by simp [init]) (by simp [init])
      (by simp only [init, hr]; omega) (by simp [init]; omega)
    have hv : s.value = uv b := by rw [h2]; simpa [init] using hr
    have hz : s.sz = b.length := by simpa [init] using h3
    have hn : s.negative = b.headD false := by simpa [init] using h4
    have hu : list2str pr d (b.map const) = .undefined ↔ finish s = none := by
      simp only [list2str, hs, Option.bind_some]
      cases finish s with
      | none => simp
      | some t => simp only [reduceCtorEq, iff_false]; split <;> simp
    rw [hu]
    cases hh : b.headD false with
    | false => rw [hh] at hn; simp [finish, h1, hn]; omega
    | true =>
      rw [hh] at hn
      simp only [true_and, hval, or_false]
      simp only [finish, h1, hn, if_true, hz, shl1, Int.toNat_natCast]
      rw [if_pos (by omega)]
      by_cases hl : 31 ≤ b.length
      · have hp : (2:Int) ^ 31 ≤ 2 ^ b.length := by
          exact_mod_cast Nat.pow_le_pow_right (n := 2) (by omega) hl
        have : int ((2:Int) ^ b.length) = none := by
          unfold int; rw [if_neg]; have : (2:Int) ^ 31 = 2147483648 := by norm_num
          omega
        simp [this, hl]
      · have hp : (2:Int) ^ b.length ≤ 2 ^ 30 := by
          exact_mod_cast Nat.pow_le_pow_right (n := 2) (by omega) (by omega)
        have hp0 : (0:Int) ≤ 2 ^ b.length := by positivity
        have hp30 : (2:Int) ^ 30 = 1073741824 := by norm_num
        rw [int_some (by omega) (by omega)]
        simp only [Option.bind_eq_bind, Option.bind_some]
        rw [int_some (by rw [hv]; omega) (by rw [hv]; omega)]
        simp [hl]

/-- A vector with a symbolic bit is printed as its bits, without a value: constants as letters, the other bits as `S` at
depth 0 and as the printer shows them otherwise.  The constants before the first symbolic bit must not be a number of
`2^31` or more, and the text must fit. -/
theorem c110_symbolic_partial (pr : Int → Bit α → List Char) (d : Int) (h1 : pr d .one = ['T']) (h0 : pr d .zero = ['F'])
    (b : List Bool) (a : α) (l : List (Bit α)) (hlen : b.length < 2 ^ 31) (hval : uv b < 2 ^ 31) :
    list2str pr d (b.map const ++ Bit.sym a :: l) =
      if (angle ((b.map const ++ Bit.sym a :: l).map (shown pr d))).length < 4096
      then .text (angle ((b.map const ++ Bit.sym a :: l).map (shown pr d))) else .tooLong := by
  have hr : run 0 b = uv b := by rw [run_eq]; simp
  obtain ⟨s, hs, _, _, _, _⟩ := loop_const pr d b init rfl (by simp [init]) (by simp [init])
    (by simp only [init, hr]; omega) (by simp [init]; omega)
  have happ : ∀ (m n : List (Bit α)) (t : St), loop pr d t (m ++ n) = (loop pr d t m).bind (fun u => loop pr d u n) := by
    intro m n
    induction m with
    | nil => intro t; simp [loop]
    | cons f m ih =>
      intro t
      simp only [List.cons_append, loop]
      cases step pr d t f with
      | none => rfl
      | some u => simpa using ih u
  have hstep : ∃ t, step pr d s (.sym a) = some t ∧ t.scalar = false := by
    cases hsc : s.scalar <;> simp [step, hsc]
  obtain ⟨t, ht, htf⟩ := hstep
  obtain ⟨u, hu, huf⟩ := loop_off pr d l t htf
  have hall : loop pr d init (b.map const ++ Bit.sym a :: l) = some u := by
    rw [happ, hs]; simp [loop, ht, hu]
  have ho := loop_out pr d h1 h0 _ _ _ hall
  have hang : u.out ++ ['>'] = angle ((b.map const ++ Bit.sym a :: l).map (shown pr d)) := by
    rw [ho]
    generalize hm : (b.map const ++ Bit.sym a :: l).map (shown pr d) = w
    cases w with
    | nil => simp at hm
    | cons c m => simp only [init, List.nil_append]; rw [seps_cons]; rfl
  simp only [list2str, hall, Option.bind_some, finish, huf, Bool.false_eq_true, if_false, hang]

example : list2str (fun _ f => match f with | .one => ['T'] | .zero => ['F'] | .sym a => [a]) (-1)
    [.one, .sym 'x', .zero] = .text "<T,x,F>".toList := by decide

example : list2str (fun _ f => match f with | .one => ['T'] | .zero => ['F'] | .sym a => [a]) 0
    [.one, .sym 'x', .zero] = .text "<T,S,F>".toList := by decide

/-- Negation of "every constant vector is printed with its value": the vector of 31 bits `T` has the value -1, but
printing it computes `1 << 31`; the same holds for every longer vector with the sign bit set, although its value may be
as small. -/
theorem c110_value_violated (pr : Int → Bit α → List Char) (d : Int) (n : Nat) (hn : 31 ≤ n) (hm : n < 2 ^ 31) :
    tc (List.replicate n true) = -1 ∧ list2str pr d ((List.replicate n true).map const) = .undefined := by
  refine ⟨?_, (c110_undefined pr d _ (by simpa using hm)).2 (.inl ⟨?_, by simpa using hn⟩)⟩
  · clear hm
    have : ∀ k, tc (List.replicate (k + 1) true) = -1 := by
      intro k
      induction k with
      | zero => rfl
      | succ k ih => rw [List.replicate_succ, List.replicate_succ, tc_cons_same]; exact ih
    obtain ⟨k, rfl⟩ : ∃ k, n = k + 1 := ⟨n - 1, by omega⟩
    exact this k
  · obtain ⟨k, rfl⟩ : ∃ k, n = k + 1 := ⟨n - 1, by omega⟩
    simp [List.replicate_succ]

/-- The empty vector is printed without its opening bracket. -/
theorem c110_empty_violated (pr : Int → Bit α → List Char) (d : Int) :
    list2str pr d [] = .text "> (0)".toList := by
  simp [list2str, loop, finish, init]; decide

/-- A vector of 2048 or more bits `F` has the value 0, but its text is cut. -/
theorem c110_long_violated (pr : Int → Bit α → List Char) (d : Int) (n : Nat) (hn : 2048 ≤ n) (hm : n < 2 ^ 31) :
    list2str pr d ((List.replicate n false).map const) = .tooLong := by
  have hr : run 0 (List.replicate n false) = 0 := by rw [run_eq, uv_replicate_false]; simp
  obtain ⟨s, hs, h1, h2, h3, h4⟩ := loop_const pr d (List.replicate n false) init rfl (by simp [init]) (by simp [init])
    (by simp only [init, hr]; omega) (by simp [init]; omega)
  have ho := out_const pr d _ s hs
  have hng : s.negative = false := by
    rw [h4]; cases n <;> simp [init, List.replicate_succ]
  have hl : ∀ c k, (seps c ((List.replicate k false).map letter)).length = 2 * k := by
    intro c k
    induction k generalizing c with
    | zero => rfl
    | succ k ih =>
      simp only [List.replicate_succ, List.map_cons, seps, List.length_cons, List.length_append, ih]
      simp [letter]; omega
  simp only [list2str, hs, Option.bind_some, finish, h1, hng, if_true, Bool.false_eq_true, if_false]
  rw [if_neg]
  simp only [ho, List.length_append, hl]; omega

end Voss.Bvstr
