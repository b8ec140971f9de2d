import Verif.Vlib.Unary
import Mathlib.Tactic.Ring
/-
C94: numbers in unary representation.

`bits η l` are the values of the conditions `l`; `hot N v` is the representation of `v` with `N` bits: the bit at
distance `v` from the end.
-/
namespace Voss.Vlib
open Voss.Pre Voss.Pre.Fn
variable {o : Order}

def bits (η : Env) (l : List (Fn o)) : List Bool := l.map fun f => f.ev η

def hot (N v : Nat) : List Bool := List.replicate (N - 1 - v) false ++ true :: List.replicate v false

theorem hot_length {N v : Nat} (h : v < N) : (hot N v).length = N := by simp [hot]; omega

theorem hot_get {N v i : Nat} (h : v < N) (hi : i < N) : (hot N v)[i]? = some (decide (i + v + 1 = N)) := by
  unfold hot
  rw [List.getElem?_append]
  simp only [List.length_replicate, List.getElem?_replicate]
  split
  · next h1 => simp; omega
  · next h1 =>
    rcases Nat.eq_or_lt_of_le (Nat.le_of_not_lt h1) with e | e
    · rw [← e, Nat.sub_self, List.getElem?_cons_zero]
      simp; omega
    · obtain ⟨k, hk⟩ : ∃ k, i - (N - 1 - v) = k + 1 := ⟨i - (N - 1 - v) - 1, by omega⟩
      rw [hk, List.getElem?_cons_succ, List.getElem?_replicate, if_pos (by omega)]
      simp; omega

theorem hot_reverse {N v : Nat} (h : v < N) : (hot N v).reverse = hot N (N - 1 - v) := by
  unfold hot
  rw [show N - 1 - (N - 1 - v) = v by omega]
  simp

theorem bits_length (η : Env) (l : List (Fn o)) : (bits η l).length = l.length := by simp [bits]

theorem rnum2bv_bits (η : Env) : ∀ (s : Nat) (n : Int), bits η (rnum2bv o s n) = (List.range s).map fun i : Nat => decide (n + (i : Int) = s)
  | 0, n => rfl
  | s + 1, n => by
    have ih := rnum2bv_bits η s n
    rw [rnum2bv, bits, List.map_cons, List.range_succ_eq_map, List.map_cons]
    rw [bits] at ih
    rw [ih, List.map_map]
    congr 1
    · by_cases h : n = (s + 1 : Nat)
      · rw [if_pos h]; simp [h]
      · rw [if_neg h]
        simp only [Nat.cast_zero, Int.add_zero, h, decide_false]; rfl
    · refine List.map_congr_left fun i _ => ?_
      simp only [Function.comp_apply, decide_eq_decide]
      push_cast
      omega

theorem pow2_eq (n : Nat) : pow2 n = 2 ^ n := by
  induction n with
  | zero => rfl
  | succ n ih => rw [pow2, ih, pow_succ]; omega

theorem hot_range {N v : Nat} (h : v < N) : hot N v = (List.range N).map fun i => decide (i + v + 1 = N) := by
  refine List.ext_getElem? fun i => ?_
  by_cases hi : i < N
  · rw [hot_get h hi, List.getElem?_map, List.getElem?_range hi]; rfl
  · rw [List.getElem?_eq_none (by rw [hot_length h]; omega), List.getElem?_eq_none (by simp; omega)]

/-- C94: `num2bv` gives the representation with 2^size bits of every number that has one, and refuses numbers that are
too large.  What is missing are negative numbers. -/
theorem c94_num2bv_partial (size : Nat) (n : Nat) (η : Env) :
    (n < 2 ^ size → ∃ l, num2bv o size n = some l ∧ bits η l = hot (2 ^ size) n) ∧ (2 ^ size ≤ n → num2bv o size n = none) := by
  unfold num2bv
  rw [pow2_eq]
  constructor
  · intro h
    rw [if_pos (by exact_mod_cast h)]
    refine ⟨_, rfl, ?_⟩
    rw [rnum2bv_bits, hot_range h]
    refine List.map_congr_left fun i _ => ?_
    simp only [decide_eq_decide]
    omega
  · intro h
    rw [if_neg (by push Not; exact_mod_cast h)]

/-- The missing part: a negative number is accepted and gets a list of which no bit holds. -/
theorem c94_negative_violated (size : Nat) (n : Int) (h : n < 0) (η : Env) :
    ∃ l, num2bv o size n = some l ∧ bits η l = List.replicate (2 ^ size) false := by
  unfold num2bv
  rw [pow2_eq, if_pos (by have : (0 : Int) < ((2 ^ size : Nat) : Int) := by exact_mod_cast Nat.two_pow_pos size
                          omega)]
  refine ⟨_, rfl, ?_⟩
  rw [rnum2bv_bits]
  refine List.ext_getElem (by simp) fun i h1 h2 => ?_
  rw [List.getElem_map, List.getElem_range, List.getElem_replicate, decide_eq_false_iff_not]
  simp at h1
  have : (i : Int) < ((2 ^ size : Nat) : Int) := by exact_mod_cast h1
  omega

/-- The number that bits stand for, most significant first. -/
def binary (bs : List Bool) : Nat := bs.foldl (fun a b => 2 * a + b.toNat) 0

theorem binary_cons (b : Bool) (bs : List Bool) : binary (b :: bs) = b.toNat * 2 ^ bs.length + binary bs := by
  have : ∀ (bs : List Bool) (x : Nat), bs.foldl (fun a b => 2 * a + b.toNat) x = x * 2 ^ bs.length + binary bs := by
    intro bs
    unfold binary
    induction bs with
    | nil => simp
    | cons c bs ih =>
      intro x
      rw [List.foldl_cons, List.foldl_cons, ih, ih (2 * 0 + _), List.length_cons, pow_succ]
      ring
  unfold binary
  rw [List.foldl_cons, this]
  simp [binary]

theorem binary_lt (bs : List Bool) : binary bs < 2 ^ bs.length := by
  induction bs with
  | nil => simp [binary]
  | cons b bs ih =>
    rw [binary_cons, List.length_cons, pow_succ]
    cases b <;> simp <;> omega

/-- C94: `bin2unary` converts every binary number, symbolic or not. -/
theorem c94_bin2unary (bl : List (Fn o)) (η : Env) : bits η (bin2unary bl) = hot (2 ^ bl.length) (binary (bits η bl)) := by
  induction bl with
  | nil => rfl
  | cons b bl ih =>
    have hlt := binary_lt (bits η bl)
    rw [bits_length] at hlt
    have e1 : bits η ((bin2unary bl).map fun x => b.and x) = (bits η (bin2unary bl)).map fun x => b.ev η && x := by
      simp [bits, Function.comp_def]
    have e2 : bits η ((bin2unary bl).map fun x => b.not.and x) = (bits η (bin2unary bl)).map fun x => !b.ev η && x := by
      simp [bits, Function.comp_def]
    have e3 : bits η (bin2unary (b :: bl)) = (bits η (bin2unary bl)).map (fun x => b.ev η && x) ++
        (bits η (bin2unary bl)).map fun x => !b.ev η && x := by
      rw [← e1, ← e2, bin2unary]; simp [bits]
    have e4 : bits η (b :: bl) = b.ev η :: bits η bl := rfl
    rw [e3, ih, e4, binary_cons, bits_length, List.length_cons]
    generalize binary (bits η bl) = v at *
    have hf : (hot (2 ^ bl.length) v).map (fun x => false && x) = List.replicate (2 ^ bl.length) false := by
      simp only [Bool.false_and, List.map_const', hot_length hlt]
    have ht : (hot (2 ^ bl.length) v).map (fun x => true && x) = hot (2 ^ bl.length) v := by
      simp
    cases b.ev η with
    | true =>
      rw [ht, Bool.not_true, hf]
      unfold hot
      rw [List.append_assoc, List.cons_append, List.replicate_append_replicate, pow_succ]
      congr 2
      · simp; omega
      · simp; omega
    | false =>
      rw [hf, Bool.not_false, ht]
      unfold hot
      rw [← List.append_assoc, List.replicate_append_replicate, pow_succ]
      congr 2
      · simp; omega
      · simp

theorem ff_ne_tt : ff o ≠ tt o := by
  intro h
  have := congrArg (fun f : Fn o => f.ev fun _ => false) h
  simp at this

theorem rval_false : ∀ (k : Nat) (l : List (Fn o)) (n res : Int), rval (List.replicate k (ff o) ++ l) n res = rval l (n - k) res
  | 0, l, n, res => by simp
  | k + 1, l, n, res => by
    have hne : ff o ≠ tt o := ff_ne_tt
    rw [List.replicate_succ, List.cons_append, rval, if_neg hne, if_pos rfl, rval_false k]
    congr 1
    push_cast
    omega

/-- C94: `value` gives the number back. -/
theorem c94_value_partial (N v : Nat) (h : v < N) : value ((hot N v).map (const o)) = some (v : Int) := by
  unfold value hot
  have e : (List.replicate (N - 1 - v) false ++ true :: List.replicate v false).map (const o) =
      List.replicate (N - 1 - v) (ff o) ++ (tt o :: List.replicate v (ff o)) := by
    simp [tt, ff]
  rw [e, rval_false, rval, if_pos rfl]
  have := rval_false v ([] : List (Fn o)) ((List.replicate (N - 1 - v) (ff o) ++ (tt o :: List.replicate v (ff o))).length - (N - 1 - v : Nat) - 1)
    ((List.replicate (N - 1 - v) (ff o) ++ (tt o :: List.replicate v (ff o))).length - (N - 1 - v : Nat) - 1)
  rw [List.append_nil] at this
  rw [this, rval]
  simp

/-- It is violated that `value` refuses what is not a number in unary representation: bits of which none holds, as left
by an overflow, are read as 0, of several the lowest counts, and a symbolic last bit is accepted. -/
theorem c94_value_violated : (∀ N, value (List.replicate N (ff o)) = some 0) ∧
    value [tt o, ff o, tt o, ff o] = some 1 ∧ ∀ x : Fn o, value [ff o, x] = some 0 := by
  have hne : ff o ≠ tt o := ff_ne_tt
  refine ⟨fun N => ?_, ?_, fun x => ?_⟩
  · have := rval_false N ([] : List (Fn o)) ((List.replicate N (ff o)).length) 0
    rw [List.append_nil] at this
    unfold value
    rw [this, rval]
  · simp [value, rval, hne]
  · simp only [value, rval, hne, if_false, if_true, List.length_cons, List.length_nil]
    norm_num

theorem iteL_bits (η : Env) (c : Fn o) : ∀ a e : List (Fn o), a.length = e.length →
    ∃ r, iteL c a e = some r ∧ r.length = a.length ∧ ∀ η, bits η r = if c.ev η then bits η a else bits η e
  | [], [], _ => ⟨[], rfl, rfl, fun η => by simp [bits]⟩
  | [], _ :: _, h => by simp at h
  | _ :: _, [], h => by simp at h
  | t :: ts, f :: fs, h => by
    obtain ⟨r, h1, h2, h3⟩ := iteL_bits η c ts fs (by simpa using h)
    refine ⟨_ :: r, by rw [iteL, h1]; rfl, by simp [h2], fun η => ?_⟩
    have := h3 η
    simp only [bits] at this ⊢
    rw [List.map_cons, this]
    cases hc : c.ev η <;> simp [hc]

/-- C94: `ite_l` chooses between lists of the same length, and fails for others. -/
theorem c94_ite (c : Fn o) (a e : List (Fn o)) :
    (a.length = e.length → ∃ r, iteL c a e = some r ∧ ∀ η, bits η r = if c.ev η then bits η a else bits η e) ∧
    (a.length ≠ e.length → iteL c a e = none) := by
  constructor
  · intro h
    obtain ⟨r, h1, _, h3⟩ := iteL_bits (fun _ => false) c a e h
    exact ⟨r, h1, h3⟩
  · induction a generalizing e with
    | nil => cases e with
      | nil => simp
      | cons f e => intro _; rfl
    | cons t a ih => cases e with
      | nil => intro _; rfl
      | cons f e =>
        intro h
        rw [iteL, ih e (by simpa using h)]
        rfl

theorem radd_spec : ∀ (bv av : List (Fn o)), bv.length ≤ av.length → ∃ r, radd av bv = some r ∧ r.length = av.length ∧
    ∀ (η : Env) (b : Nat) (X : List Bool), bits η bv = List.replicate b false ++ true :: X →
      bits η r = (bits η av).drop b ++ List.replicate b false
  | [], av, _ => ⟨av.map fun _ => ff o, by rw [radd], by simp, fun η b X h => by simp [bits] at h⟩
  | c :: bv, [], h => by simp at h
  | c :: bv, a :: av, h => by
    obtain ⟨r, h1, h2, h3⟩ := radd_spec bv ((a :: av).tail ++ [ff o]) (by simpa using Nat.le_of_succ_le h)
    obtain ⟨q, q1, q2, q3⟩ := iteL_bits (fun _ => false) c (a :: av) r (by rw [h2]; simp)
    refine ⟨q, by rw [radd, h1]; exact q1, q2, fun η b X hb => ?_⟩
    rw [q3]
    cases b with
    | zero =>
      simp only [bits, List.map_cons, List.replicate_zero, List.nil_append, List.cons.injEq] at hb
      rw [if_pos hb.1]
      simp
    | succ b =>
      have hb' : bits η (c :: bv) = c.ev η :: bits η bv := rfl
      rw [hb', List.replicate_succ, List.cons_append, List.cons.injEq] at hb
      rw [if_neg (by simp [hb.1]), h3 η b X hb.2]
      have hlen : b < bv.length := by
        have := congrArg List.length hb.2
        rw [bits_length] at this
        simp at this
        omega
      simp only [List.length_cons] at h
      have e : bits η ((a :: av).tail ++ [ff o]) = bits η av ++ [false] := by simp [bits]
      rw [e, List.drop_append_of_le_length (by rw [bits_length]; omega), show bits η (a :: av) = a.ev η :: bits η av from rfl,
        List.drop_succ_cons, List.append_assoc, List.replicate_succ]
      rfl

theorem hot_shift {N a b : Nat} (ha : a < N) (hb : b < N) :
    (hot N a).drop b ++ List.replicate b false = if a + b < N then hot N (a + b) else List.replicate N false := by
  split
  · next h =>
    unfold hot
    rw [List.drop_append_of_le_length (by simp; omega), List.drop_replicate, List.append_assoc, List.cons_append,
      List.replicate_append_replicate]
    congr 2
    omega
  · next h =>
    unfold hot
    rw [List.drop_append, List.drop_eq_nil_of_le (by simp; omega)]
    obtain ⟨k, hk⟩ : ∃ k, b - (List.replicate (N - 1 - a) false).length = k + 1 := ⟨b - (N - 1 - a) - 1, by simp; omega⟩
    rw [hk, List.drop_succ_cons, List.drop_replicate, List.nil_append, List.replicate_append_replicate]
    simp only [List.length_replicate] at hk
    congr 1
    omega

/-- C94: `add` and `subtract` of lists of the same length are sum and difference; if these have no representation, no
bit of the result holds. -/
theorem c94_add (av bv : List (Fn o)) :
    (av.length ≠ bv.length → add1 av bv = none ∧ subtract1 av bv = none) ∧
    (av.length = bv.length → ∃ r s, add1 av bv = some r ∧ subtract1 av bv = some s ∧
      ∀ (η : Env) (a b : Nat), a < av.length → b < av.length → bits η av = hot av.length a → bits η bv = hot av.length b →
        bits η r = (if a + b < av.length then hot av.length (a + b) else List.replicate av.length false) ∧
        bits η s = if b ≤ a then hot av.length (a - b) else List.replicate av.length false) := by
  unfold subtract1 add1
  constructor
  · intro h
    rw [if_pos h, if_pos (by simpa using h)]
    exact ⟨rfl, rfl⟩
  · intro h
    rw [if_neg (not_not.2 h), if_neg (by simpa using h)]
    obtain ⟨r, r1, r2, r3⟩ := radd_spec bv.reverse av (by simp [h])
    obtain ⟨s, s1, s2, s3⟩ := radd_spec bv.reverse av.reverse (by simp [h])
    refine ⟨r, s.reverse, r1, by rw [s1]; rfl, fun η a b ha hb hA hB => ?_⟩
    have hrev : bits η bv.reverse = List.replicate b false ++ true :: List.replicate (av.length - 1 - b) false := by
      have : bits η bv.reverse = (bits η bv).reverse := by simp [bits]
      rw [this, hB]
      simp [hot]
    refine ⟨by rw [r3 η b _ hrev, hA, hot_shift ha hb], ?_⟩
    have e1 : bits η s.reverse = (bits η s).reverse := by simp [bits]
    have e2 : bits η av.reverse = hot av.length (av.length - 1 - a) := by
      have : bits η av.reverse = (bits η av).reverse := by simp [bits]
      rw [this, hA, hot_reverse ha]
    rw [e1, s3 η b _ hrev, e2, hot_shift (by omega) hb]
    by_cases hle : b ≤ a
    · rw [if_pos (by omega), if_pos hle, hot_reverse (by omega)]
      congr 1
      omega
    · rw [if_neg (by omega), if_neg hle, List.reverse_replicate]

/-- C94: `increment` and `decrement`; where the result has no representation, no bit holds. -/
theorem c94_inc (av : List (Fn o)) (h0 : av ≠ []) : ∃ r s, increment av = some r ∧ decrement av = some s ∧
    ∀ (η : Env) (a : Nat), a < av.length → bits η av = hot av.length a →
      bits η r = (if a + 1 < av.length then hot av.length (a + 1) else List.replicate av.length false) ∧
      bits η s = if 0 < a then hot av.length (a - 1) else List.replicate av.length false := by
  unfold increment decrement
  rw [if_neg h0, if_neg h0]
  refine ⟨_, _, rfl, rfl, fun η a ha hA => ⟨?_, ?_⟩⟩
  · have : bits η (av.tail ++ [ff o]) = (bits η av).drop 1 ++ List.replicate 1 false := by simp [bits]
    rw [this, hA]
    by_cases h1 : 1 < av.length
    · rw [hot_shift ha h1]
    · have e : a = 0 := by omega
      have e2 : av.length = 1 := by omega
      rw [e, e2]; rfl
  · have : bits η (ff o :: av.reverse.tail.reverse) = ((bits η av).reverse.drop 1 ++ List.replicate 1 false).reverse := by
      simp [bits]
    rw [this, hA, hot_reverse ha]
    by_cases h1 : 1 < av.length
    · rw [hot_shift (by omega) h1]
      by_cases h2 : 0 < a
      · rw [if_pos (by omega), if_pos h2, hot_reverse (by omega)]
        congr 1
        omega
      · rw [if_neg (by omega), if_neg h2, List.reverse_replicate]
    · have e : a = 0 := by omega
      have e2 : av.length = 1 := by omega
      rw [e, e2]; rfl

theorem greater_ev (av bv : List (Fn o)) (η : Env) :
    ((av.zip bv).foldr (fun p r => (p.1.and p.2.not).or r) (ff o)).ev η = ((bits η av).zip (bits η bv)).any fun p => p.1 && !p.2 := by
  induction av generalizing bv with
  | nil => rfl
  | cons a av ih => cases bv with
    | nil => rfl
    | cons b bv =>
      have := ih bv
      simp only [bits] at this
      simp [bits, this]

theorem equal_ev (av bv : List (Fn o)) (η : Env) :
    ((av.zip bv).foldr (fun p r => (p.1.and p.2).and r) (tt o)).ev η = ((bits η av).zip (bits η bv)).all fun p => p.1 && p.2 := by
  induction av generalizing bv with
  | nil => rfl
  | cons a av ih => cases bv with
    | nil => rfl
    | cons b bv =>
      have := ih bv
      simp only [bits] at this
      simp [bits, this]

theorem hot_greater {N a b : Nat} (ha : a < N) (hb : b < N) : ((hot N a).zip (hot N b)).any (fun p => p.1 && !p.2) = decide (a ≠ b) := by
  rw [Bool.eq_iff_iff, List.any_eq_true, decide_eq_true_iff]
  constructor
  · rintro ⟨⟨x, y⟩, hm, hxy⟩ e
    obtain ⟨i, hi⟩ := List.mem_iff_getElem?.1 hm
    rw [List.getElem?_zip_eq_some] at hi
    rw [e] at hi
    rw [hi.1] at hi
    simp only [Option.some.injEq] at hi
    simp [hi.2] at hxy
  · intro hne
    refine ⟨(true, false), List.mem_iff_getElem?.2 ⟨N - 1 - a, ?_⟩, rfl⟩
    rw [List.getElem?_zip_eq_some, hot_get ha (by omega), hot_get hb (by omega)]
    simp; omega

theorem hot_equal {N a b : Nat} (hN : 2 ≤ N) (ha : a < N) (hb : b < N) : ((hot N a).zip (hot N b)).all (fun p => p.1 && p.2) = false := by
  rw [Bool.eq_false_iff]
  intro h
  rw [List.all_eq_true] at h
  -- a place where the first has no bit
  obtain ⟨i, hi, hne⟩ : ∃ i, i < N ∧ i + a + 1 ≠ N := by
    by_cases h0 : a = N - 1
    · exact ⟨1, by omega, by omega⟩
    · exact ⟨0, by omega, by omega⟩
  have := h (decide (i + a + 1 = N), decide (i + b + 1 = N)) (List.mem_iff_getElem?.2 ⟨i, by
    rw [List.getElem?_zip_eq_some, hot_get ha hi, hot_get hb hi]; exact ⟨rfl, rfl⟩⟩)
  simp [hne] at this

/-- C94 is violated by all comparisons: of numbers with at least two bits, `greater`, `less`, `geq` and `leq` all just
say whether they are different, and `equal` never holds. -/
theorem c94_compare_violated (av bv : List (Fn o)) (h : av.length = bv.length) (hN : 2 ≤ av.length) :
    ∃ gt lt ge le eq, greater av bv = some gt ∧ less av bv = some lt ∧ geq av bv = some ge ∧ leq av bv = some le ∧
      equal av bv = some eq ∧ ∀ (η : Env) (a b : Nat), a < av.length → b < av.length →
        bits η av = hot av.length a → bits η bv = hot av.length b →
        gt.ev η = decide (a ≠ b) ∧ lt.ev η = decide (a ≠ b) ∧ ge.ev η = decide (a ≠ b) ∧ le.ev η = decide (a ≠ b) ∧
          eq.ev η = false := by
  unfold leq geq less greater equal
  simp only [h, ne_eq, not_true_eq_false, if_false, Option.bind_some, Option.map_some]
  refine ⟨_, _, _, _, _, rfl, rfl, rfl, rfl, rfl, fun η a b ha hb hA hB => ?_⟩
  rw [← h] at ha hb hA hB
  have g1 := greater_ev av bv η
  have g2 := greater_ev bv av η
  have g3 := equal_ev av bv η
  rw [hA, hB] at g1 g2 g3
  rw [hot_greater ha hb] at g1
  rw [hot_greater hb ha] at g2
  rw [hot_equal (by omega) ha hb] at g3
  simp only [or_ev, g1, g2, g3, Bool.or_false]
  have : decide (b ≠ a) = decide (a ≠ b) := by simp [eq_comm]
  exact ⟨trivial, this, trivial, this, trivial⟩

/-- What is right: `greater`, `less` when it holds, `geq` and `leq` when it holds strictly; numbers of different length
are refused. -/
theorem c94_compare_partial (av bv : List (Fn o)) (h : av.length ≠ bv.length) :
    greater av bv = none ∧ less av bv = none ∧ geq av bv = none ∧ leq av bv = none ∧ equal av bv = none := by
  unfold leq geq less greater equal
  simp [h, h.symm]

/-- C94: the operations on single bits. -/
theorem c94_bitwise (fn : Fn o → Fn o → Fn o) (g : Bool → Bool → Bool) (hg : ∀ x y η, (fn x y).ev η = g (x.ev η) (y.ev η))
    (av bv : List (Fn o)) : (av.length ≠ bv.length → bitwise fn av bv = none) ∧
    (av.length = bv.length → ∃ r, bitwise fn av bv = some r ∧ ∀ η, bits η r = (bits η av).zipWith g (bits η bv)) := by
  unfold bitwise
  constructor
  · intro h; rw [if_pos h]
  · intro h
    rw [if_neg (not_not.2 h)]
    refine ⟨_, rfl, fun η => ?_⟩
    simp only [bits, List.map_map, List.zipWith_map, Function.comp_def, hg]
    rw [List.zip, List.map_zipWith]

example (x y : Fn o) (η : Env) : (x.and y).ev η = (x.ev η && y.ev η) := and_ev x y η

/-- C94: `list_prefix` and `list_suffix` give the first and the last `n` elements, and fail if there are not so many. -/
theorem c94_parts {α : Type} (n : Nat) (av : List α) :
    (n ≤ av.length → listPrefix n av = some (av.take n) ∧ listSuffix n av = some (av.drop (av.length - n))) ∧
    (av.length < n → listPrefix (n : Int) av = none ∧ listSuffix (n : Int) av = none) := by
  unfold listSuffix listPrefix
  constructor
  · intro h
    rw [if_neg (by omega), if_neg (by omega), if_neg (by omega), if_neg (by simp; omega), if_neg (by omega)]
    refine ⟨rfl, ?_⟩
    simp [List.take_reverse]
  · intro h
    rw [if_pos (by omega), if_pos (by omega)]
    exact ⟨rfl, rfl⟩

/-- A symbolic number, 1 or 2, and the number 1: their sum is 2 or 3. -/
example : let x := var codeOrder "x"
    (add1 [ff _, x, x.not, ff _] [ff _, ff _, tt _, ff _]) = some [x, x.not, ff _, ff _] ∧
    subtract1 [ff _, x, x.not, ff _] [ff _, ff _, tt _, ff _] = some [ff _, ff _, x, x.not] ∧
    bin2unary [x, tt _] = [x, ff _, x.not, ff _] ∧ num2bv codeOrder 2 2 = some [ff _, tt _, ff _, ff _] := by decide +kernel

end Voss.Vlib
