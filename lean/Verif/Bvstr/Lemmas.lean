import Verif.Bvstr.Spec
import Verif.Bv.Lemmas

namespace Voss.Bvstr

open Voss.Bv

variable {α : Type}

/-- The texts, each preceded by its separator. -/
def seps : Char → List (List Char) → List Char
  | _, [] => []
  | c, t :: l => c :: t ++ seps ',' l

theorem seps_cons (c : Char) (t : List Char) (l : List (List Char)) : seps c (t :: l) = c :: commas (t :: l) := by
  induction l generalizing c t with
  | nil => simp [seps, commas]
  | cons u l ih => rw [seps, ih]; simp [commas]

theorem int_some {z : Int} (h1 : -2147483648 ≤ z) (h2 : z ≤ 2147483647) : int z = some z := by
  simp [int, h1, h2]

theorem int_eq {z w : Int} (h : int z = some w) : w = z ∧ -2147483648 ≤ z ∧ z ≤ 2147483647 := by
  unfold int at h
  split at h
  · rename_i hc; simp at h; exact ⟨h.symm, hc⟩
  · simp at h

/-- The text does not depend on where the constants stop. -/
theorem loop_out (pr : Int → Bit α → List Char) (d : Int) (h1 : pr d .one = ['T']) (h0 : pr d .zero = ['F'])
    (l : List (Bit α)) (s s' : St) (h : loop pr d s l = some s') :
    s'.out = s.out ++ seps s.sep (l.map (shown pr d)) := by
  induction l generalizing s with
  | nil => simp [loop] at h; subst h; simp [seps]
  | cons f l ih =>
    simp only [loop, Option.bind_eq_some_iff] at h
    obtain ⟨t, ht, h⟩ := h
    rw [ih t h]
    have : t.out = s.out ++ [s.sep] ++ shown pr d f ∧ t.sep = ',' := by
      revert ht
      cases hs : s.scalar <;> cases f <;> simp only [step, hs, shown] <;> intro ht
      · simp at ht; subst ht; simp [h1]
      · simp at ht; subst ht; simp [h0]
      · simp at ht; subst ht; simp
      · simp only [Option.bind_eq_bind, Option.bind_eq_some_iff] at ht
        obtain ⟨_, _, _, _, _, _, ht⟩ := ht
        simp at ht; subst ht; simp
      · simp only [Option.bind_eq_bind, Option.bind_eq_some_iff] at ht
        obtain ⟨_, _, _, _, ht⟩ := ht
        simp at ht; subst ht; simp
      · simp at ht; subst ht; simp
    rw [this.1, this.2]; simp [seps]

/-- Once a function is symbolic, the loop stays off the numbers. -/
theorem loop_off (pr : Int → Bit α → List Char) (d : Int) (l : List (Bit α)) (s : St) (h : s.scalar = false) :
    ∃ s', loop pr d s l = some s' ∧ s'.scalar = false := by
  induction l generalizing s with
  | nil => exact ⟨s, rfl, h⟩
  | cons f l ih =>
    cases f <;> simp only [loop, step, h, Option.bind_some] <;> exact ih _ rfl

/-- The number after a run of constants. -/
def run : Int → List Bool → Int
  | v, [] => v
  | v, b :: l => run (2 * v + (if b then 1 else 0)) l

theorem run_eq (v : Int) (l : List Bool) : run v l = v * 2 ^ l.length + uv l := by
  induction l generalizing v with
  | nil => simp [run, uv]
  | cons b l ih =>
    rw [run, ih, uv]
    cases b
    · simp [Int.pow_succ]; ring
    · simp [Int.pow_succ]; ring

theorem uv_cast_lt (l : List Bool) : (uv l : Int) < 2 ^ l.length := by
  have := uv_lt l; exact_mod_cast this

theorem run_mono (v : Int) (hv : 0 ≤ v) (l : List Bool) : v ≤ run v l := by
  induction l generalizing v with
  | nil => exact Int.le_refl _
  | cons b l ih =>
    rw [run]
    have h : (0:Int) ≤ (if b then 1 else 0) := by cases b <;> simp
    have := ih (2 * v + (if b then 1 else 0)) (by omega)
    omega

/-- The loop on constants: as long as the number stays an `int`. -/
theorem loop_const (pr : Int → Bit α → List Char) (d : Int) (l : List Bool) (s : St) (hs : s.scalar = true)
    (hv : 0 ≤ s.value) (hz : 0 ≤ s.sz) (hb : run s.value l ≤ 2147483647) (hl : s.sz + l.length ≤ 2147483647) :
    ∃ s', loop pr d s (l.map const) = some s' ∧ s'.scalar = true ∧ s'.value = run s.value l ∧
      s'.sz = s.sz + l.length ∧
      s'.negative = (s.negative || (decide (s.sz = 0) && l.headD false)) := by
  induction l generalizing s with
  | nil => exact ⟨s, rfl, hs, rfl, by simp, by simp⟩
  | cons b l ih =>
    simp only [List.length_cons, Int.natCast_add, Int.natCast_one] at hl
    rw [run] at hb
    have hm := run_mono (2 * s.value + (if b then 1 else 0)) (by cases b <;> simp <;> omega) l
    have e1 : int (s.sz + 1) = some (s.sz + 1) := int_some (by omega) (by omega)
    cases b
    · simp only [Bool.false_eq_true, if_false, Int.add_zero] at hb hm
      have e2 : int (2 * s.value) = some (2 * s.value) := int_some (by omega) (by omega)
      obtain ⟨s', a, b', c, e, f⟩ := ih { s with value := 2 * s.value, sz := s.sz + 1, sep := ',', out := s.out ++ [s.sep] ++ ['F'] }
        hs (by simp; omega) (by simp; omega) (by simpa using hb) (by simp; omega)
      refine ⟨s', ?_, b', by simpa [run] using c, by simp at e ⊢; omega, ?_⟩
      · simp [loop, step, const, hs, e1, e2] at a ⊢; exact a
      · rw [f]; have : ¬ s.sz + 1 = 0 := by omega
        simp [this]
    · simp only [if_true] at hb hm
      have e2 : int (2 * s.value) = some (2 * s.value) := int_some (by omega) (by omega)
      have e3 : int (2 * s.value + 1) = some (2 * s.value + 1) := int_some (by omega) (by omega)
      obtain ⟨s', a, b', c, e, f⟩ := ih { s with negative := if s.sz = 0 then true else s.negative, value := 2 * s.value + 1, sz := s.sz + 1, sep := ',', out := s.out ++ [s.sep] ++ ['T'] }
        hs (by simp; omega) (by simp; omega) (by simpa using hb) (by simp; omega)
      refine ⟨s', ?_, b', by simpa [run] using c, by simp at e ⊢; omega, ?_⟩
      · simp [loop, step, const, hs, e1, e2, e3] at a ⊢; exact a
      · rw [f]; have : ¬ s.sz + 1 = 0 := by omega
        by_cases h0 : s.sz = 0 <;> simp [this, h0]

/-- Conversely: a loop over constants that finishes has kept the number in range. -/
theorem loop_const_range (pr : Int → Bit α → List Char) (d : Int) (l : List Bool) (s s' : St) (hs : s.scalar = true)
    (h : loop pr d s (l.map const) = some s') (hr : s.value ≤ 2147483647) :
    run s.value l ≤ 2147483647 ∧ s'.scalar = true ∧ s'.value = run s.value l ∧ s'.sz = s.sz + l.length := by
  induction l generalizing s with
  | nil => simp [loop] at h; subst h; exact ⟨hr, hs, rfl, by simp⟩
  | cons b l ih =>
    simp only [List.map_cons, loop, Option.bind_eq_some_iff] at h
    obtain ⟨t, ht, h⟩ := h
    have key : t.scalar = true ∧ t.value = 2 * s.value + (if b then 1 else 0) ∧ t.sz = s.sz + 1 ∧ t.value ≤ 2147483647 := by
      cases b
      · simp only [const, step, hs, Bool.false_eq_true, if_false, Option.bind_eq_bind, Option.bind_eq_some_iff] at ht
        obtain ⟨z, hz, v, hv, ht⟩ := ht
        obtain ⟨rfl, _⟩ := int_eq hz
        obtain ⟨rfl, _, hv⟩ := int_eq hv
        simp at ht; subst ht; simp [hs, hv]
      · simp only [const, step, hs, if_true, Option.bind_eq_bind, Option.bind_eq_some_iff] at ht
        obtain ⟨z, hz, w, hw, v, hv, ht⟩ := ht
        obtain ⟨rfl, _⟩ := int_eq hz
        obtain ⟨rfl, _⟩ := int_eq hw
        obtain ⟨rfl, _, hv⟩ := int_eq hv
        simp at ht; subst ht; simp [hs, hv]
    obtain ⟨k1, k2, k3, k4⟩ := key
    obtain ⟨a, b', c, e⟩ := ih t k1 h k4
    rw [run, ← k2]
    refine ⟨a, b', c, ?_⟩
    rw [e, k3]; simp; omega

theorem commas_letters (l : List Bool) : (commas (l.map letter)).length ≤ 2 * l.length := by
  induction l with
  | nil => simp [commas]
  | cons b l ih =>
    cases l with
    | nil => cases b <;> simp [commas, letter]
    | cons c l =>
      simp only [List.map_cons, commas, List.length_append, List.length_cons] at ih ⊢
      have : (letter b).length = 1 := by cases b <;> rfl
      omega

theorem shown_const (pr : Int → Bit α → List Char) (d : Int) (l : List Bool) :
    (l.map const).map (shown pr d) = l.map letter := by
  induction l with
  | nil => rfl
  | cons b l ih => simp only [List.map_cons, ih]; cases b <;> simp [const, shown, letter]

/-- Constants only: the printer of functions is not used. -/
theorem loop_const_pr (pr pr' : Int → Bit α → List Char) (d : Int) (l : List Bool) (s : St) (hs : s.scalar = true) :
    loop pr d s (l.map const) = loop pr' d s (l.map const) := by
  induction l generalizing s with
  | nil => rfl
  | cons b l ih =>
    have e : step pr d s (const b) = step pr' d s (const b) := by cases b <;> simp [const, step, hs]
    simp only [List.map_cons, loop, e]
    cases ht : step pr' d s (const b) with
    | none => rfl
    | some t =>
      simp only [Option.bind_some]
      apply ih
      cases b
      · simp only [const, step, hs, Bool.false_eq_true, if_false, Option.bind_eq_bind, Option.bind_eq_some_iff] at ht
        obtain ⟨z, hz, v, hv, ht⟩ := ht
        simp at ht; subst ht; simp [hs]
      · simp only [const, step, hs, if_true, Option.bind_eq_bind, Option.bind_eq_some_iff] at ht
        obtain ⟨z, hz, w, hw, v, hv, ht⟩ := ht
        simp at ht; subst ht; simp [hs]

theorem decimal_length (z : Int) (h1 : -2147483648 ≤ z) (h2 : z ≤ 2147483647) : (Vec.decimal z).length ≤ 11 := by
  have h : (Nat.toDigits 10 z.natAbs).length ≤ 10 :=
    (Nat.length_toDigits_le_iff (b := 10) (k := 10) (by omega) (by omega)).2 (by omega)
  unfold Vec.decimal
  split <;> simp <;> omega

theorem out_const (pr : Int → Bit α → List Char) (d : Int) (b : List Bool) (s : St)
    (h : loop pr d init (b.map const) = some s) : s.out = seps '<' (b.map letter) := by
  rw [loop_const_pr pr (fun _ f => match f with | .one => ['T'] | .zero => ['F'] | .sym _ => []) d b init rfl] at h
  have := loop_out _ d rfl rfl _ _ _ h
  rw [shown_const] at this
  simpa [init] using this

end Voss.Bvstr
