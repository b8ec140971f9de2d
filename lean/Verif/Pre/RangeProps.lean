import Verif.Pre.RangeLemmas
/-
Property theorems C88: the values that a bit-vector can take.

`Bv.sv bv η` is the number that the bit-vector denotes under the assignment `η` of the variables (C08).
`IsMax bv m`: the bit-vector can be `m` and not more; `IsMin bv m`: it can be `m` and not less.
-/
namespace Voss.Pre
variable {o : Order}
open Fn

theorem negPart_spec {bv : List (Fn o)} {neg : Fn o} (hne : bv ≠ []) (hneg : ∀ η, neg.ev η = decide (Bv.sv bv η < 0))
    (h : neg ≠ ff o) : ∃ r, negPart neg bv = some r ∧ (∀ η, 0 < Bv.sv r η) ∧
      (∀ η, ∃ ζ, Bv.sv r η = - Bv.sv bv ζ) ∧ (∀ η, Bv.sv bv η < 0 → Bv.sv r η = - Bv.sv bv η) := by
  obtain ⟨sub, e, s1, s2⟩ := param_some h
  have hsv : ∀ η, Bv.sv (Bv.list2bv (bv.map (subst sub))) η = Bv.sv bv (under sub η) := by
    intro η
    show Bv.sv (Bv.trim _) η = _
    rw [Bv.sv_trim]
    unfold Bv.sv Bv.bits
    rw [List.map_map]
    congr 1
    exact List.map_congr_left fun f _ => subst_ev sub f η
  have hne' : Bv.list2bv (bv.map (subst sub)) ≠ [] := Bv.trim_ne_nil _ (by simpa using hne)
  obtain ⟨r, e1, _, h1⟩ := Bv.c09_mul [tt o] (Bv.list2bv (bv.map (subst sub))) (by simp) hne'
  have hr : ∀ η, Bv.sv r η = - Bv.sv bv (under sub η) := fun η => by rw [h1, sv_minus, hsv]; omega
  refine ⟨r, by rw [negPart, e, Option.bind_some, e1], fun η => ?_, fun η => ⟨_, hr η⟩, fun η hη => ?_⟩
  · have := s1 η
    rw [hneg, decide_eq_true_iff] at this
    rw [hr]
    omega
  · rw [hr, s2 η (by rw [hneg, decide_eq_true_iff]; exact hη)]

theorem posPart_spec {bv : List (Fn o)} {neg : Fn o} (hneg : ∀ η, neg.ev η = decide (Bv.sv bv η < 0))
    (h : neg ≠ tt o) : ∃ r, posPart neg bv = some r ∧ (∀ η, 0 ≤ Bv.sv r η) ∧
      (∀ η, ∃ ζ, Bv.sv r η = Bv.sv bv ζ) ∧ (∀ η, 0 ≤ Bv.sv bv η → Bv.sv r η = Bv.sv bv η) := by
  have hn : neg.not ≠ ff o := by
    obtain ⟨η, e⟩ := ne_tt.1 h
    exact ne_ff.2 ⟨η, by simp [e]⟩
  obtain ⟨sub, e, s1, s2⟩ := param_some hn
  have hsv : ∀ η, Bv.sv (Bv.list2bv (bv.map (subst sub))) η = Bv.sv bv (under sub η) := by
    intro η
    show Bv.sv (Bv.trim _) η = _
    rw [Bv.sv_trim]
    unfold Bv.sv Bv.bits
    rw [List.map_map]
    congr 1
    exact List.map_congr_left fun f _ => subst_ev sub f η
  refine ⟨_, by rw [posPart, e]; rfl, fun η => ?_, fun η => ⟨_, hsv η⟩, fun η hη => ?_⟩
  · have := s1 η
    rw [not_ev, hneg] at this
    rw [hsv]
    simp only [Bool.not_eq_true', decide_eq_false_iff_not] at this
    omega
  · have : ¬ Bv.sv bv η < 0 := by omega
    rw [hsv, s2 η (by rw [not_ev, hneg, decide_eq_false this]; rfl)]

/-- C88, `bv_range`: for every bit-vector, the result is the least and the greatest number that it can be. -/
theorem c88_range (bv : List (Fn o)) (hne : bv ≠ []) :
    ∃ lo hi, bvRange bv = some (lo, hi) ∧ IsMin bv lo ∧ IsMax bv hi := by
  obtain ⟨neg, e1, hneg⟩ := less_zero hne
  obtain ⟨pos, e2, hpos'⟩ := (Bv.c11_compare bv [ff o] hne (by simp)).2.2.2.1
  have hpos : ∀ η, pos.ev η = decide (0 ≤ Bv.sv bv η) := fun η => by
    have := hpos' η; rw [sv_zero] at this; exact this
  -- the lower end
  have hlo : ∃ lo, (if neg ≠ ff o then ((negPart neg bv).bind (findMax id)).map (-1 * ·)
        else (posPart neg bv).bind (findMin id)) = some lo ∧ IsMin bv lo := by
    by_cases hn : neg = ff o
    · rw [if_neg (by simpa using hn)]
      have hall : ∀ η, 0 ≤ Bv.sv bv η := fun η => by
        have := hneg η
        rw [hn] at this
        have h2 := decide_eq_false_iff_not.1 this.symm
        omega
      obtain ⟨r, r1, r2, r3, r4⟩ := posPart_spec hneg (by rw [hn]; exact ne_tt.2 ⟨fun _ => false, rfl⟩)
      obtain ⟨ds, d1, ⟨η0, d2⟩, d3⟩ := tryMin_nonneg r2
      rw [r1, Option.bind_some, findMin_eq, d1]
      refine ⟨(Bv.uv ds : Int), rfl, ⟨η0, by rw [← d2, r4 _ (hall _)]⟩, fun η => ?_⟩
      rw [← r4 _ (hall η)]
      exact d3 η
    · rw [if_pos hn]
      obtain ⟨r, r1, r2, r3, r4⟩ := negPart_spec hne hneg hn
      obtain ⟨ds, d1, ⟨η0, d2⟩, d3⟩ := tryMax_nonneg fun η => (r2 η).le
      rw [r1, Option.bind_some, findMax_eq, d1]
      obtain ⟨ζ, hζ⟩ := r3 η0
      refine ⟨-1 * (Bv.uv ds : Int), rfl, ⟨ζ, by rw [← d2]; omega⟩, fun η => ?_⟩
      have h0 := r2 η0
      rcases lt_or_ge (Bv.sv bv η) 0 with h | h
      · have := d3 η
        rw [r4 η h] at this
        omega
      · omega
  have hhi : ∃ hi, (if pos ≠ ff o then (posPart neg bv).bind (findMax id)
        else ((negPart neg bv).bind (findMin id)).map (-1 * ·)) = some hi ∧ IsMax bv hi := by
    by_cases hp : pos = ff o
    · rw [if_neg (by simpa using hp)]
      have hall : ∀ η, Bv.sv bv η < 0 := fun η => by
        have := hpos η
        rw [hp] at this
        have h2 := decide_eq_false_iff_not.1 this.symm
        omega
      obtain ⟨r, r1, r2, r3, r4⟩ := negPart_spec hne hneg (ne_ff.2 ⟨fun _ => false, by rw [hneg]; exact decide_eq_true (hall _)⟩)
      obtain ⟨ds, d1, ⟨η0, d2⟩, d3⟩ := tryMin_nonneg fun η => (r2 η).le
      rw [r1, Option.bind_some, findMin_eq, d1]
      refine ⟨-1 * (Bv.uv ds : Int), rfl, ⟨η0, ?_⟩, fun η => ?_⟩
      · have := r4 _ (hall η0)
        rw [← d2]
        omega
      · have h1 := r4 _ (hall η)
        have h2 := d3 η
        omega
    · rw [if_pos hp]
      have hnt : neg ≠ tt o := by
        obtain ⟨η, h⟩ := ne_ff.1 hp
        rw [hpos, decide_eq_true_iff] at h
        exact ne_tt.2 ⟨η, by rw [hneg]; exact decide_eq_false (by omega)⟩
      obtain ⟨r, r1, r2, r3, r4⟩ := posPart_spec hneg hnt
      obtain ⟨ds, d1, ⟨η0, d2⟩, d3⟩ := tryMax_nonneg r2
      rw [r1, Option.bind_some, findMax_eq, d1]
      obtain ⟨ζ, hζ⟩ := r3 η0
      refine ⟨(Bv.uv ds : Int), rfl, ⟨ζ, by rw [← d2]; omega⟩, fun η => ?_⟩
      have h0 := r2 η0
      rcases lt_or_ge (Bv.sv bv η) 0 with h | h
      · omega
      · have := d3 η
        rw [r4 η h] at this
        omega
  obtain ⟨lo, l1, l2⟩ := hlo
  obtain ⟨hi, h1, h2⟩ := hhi
  refine ⟨lo, hi, ?_, l2, h2⟩
  rw [bvRange, e1, Option.bind_some, e2, Option.bind_some]
  dsimp only
  rw [l1, h1]
  rfl

/-- 5, 7, -5 or -7. -/
def someBv (o : Order) : List (Fn o) := [var o "a", (var o "a").not, var o "b", tt o]

example : bvRange (someBv codeOrder) = some (-7, 7) ∧ bvRange [ff codeOrder, tt codeOrder, var codeOrder "a"] = some (2, 3) := by
  decide +kernel

/-- C88, `bv_max` and `bv_min`: for a bit-vector that is never negative, or always negative, the results are the
greatest and the least number that it can be, with calls not deeper than two.  The part that is missing: bit-vectors
that are negative for some assignments only. -/
theorem c88_max_min_partial (bv : List (Fn o)) (hne : bv ≠ [])
    (h : (∀ η, 0 ≤ Bv.sv bv η) ∨ ∀ η, Bv.sv bv η < 0) :
    ∃ lo hi, (∀ k, bvMin (k + 2) (tt o) bv = .ok lo ∧ bvMax (k + 2) (tt o) bv = .ok hi) ∧ IsMin bv lo ∧ IsMax bv hi := by
  rcases h with h | h
  · obtain ⟨ds, d1, d2⟩ := tryMin_nonneg h
    obtain ⟨es, e1, e2⟩ := tryMax_nonneg h
    refine ⟨_, _, fun k => ⟨?_, ?_⟩, d2, e2⟩
    · rw [bvMin_pos hne tt_sat (fun η _ => h η), d1]; rfl
    · rw [bvMax_pos hne tt_sat (fun η _ => h η), e1]; rfl
  · obtain ⟨n, n1, n2, n3⟩ := bvNeg_spec hne
    have hn : ∀ η, 0 ≤ Bv.sv n η := fun η => by rw [n3]; have := h η; omega
    obtain ⟨ds, d1, ⟨η1, d2⟩, d3⟩ := tryMin_nonneg hn
    obtain ⟨es, e1, ⟨η2, e2⟩, e3⟩ := tryMax_nonneg hn
    obtain ⟨c, c1, c2⟩ := less_zero hne
    have ct : c = tt o := tt_iff.2 fun η => by rw [c2]; exact decide_eq_true (h η)
    refine ⟨-1 * (Bv.uv es : Int), -1 * (Bv.uv ds : Int), fun k => ⟨?_, ?_⟩, ⟨⟨η2, ?_⟩, fun η => ?_⟩, ⟨η1, ?_⟩, fun η => ?_⟩
    · unfold bvMin
      simp only [c1, ct, n1, Out.ofOption, Out.bind, branch, if_true]
      rw [bvMax_pos n2 tt_sat (fun η _ => hn η), e1]; rfl
    · unfold bvMax
      simp only [c1, ct, n1, Out.ofOption, Out.bind, branch, if_true]
      rw [bvMin_pos n2 tt_sat (fun η _ => hn η), d1]; rfl
    · rw [n3] at e2; omega
    · have := e3 η; rw [n3] at this; omega
    · rw [n3] at d2; omega
    · have := d3 η; rw [n3] at this; omega

example : (∀ η, Bv.sv [tt codeOrder, ff codeOrder, var codeOrder "a"] η < 0) ∧
    bvMin 2 (tt codeOrder) [tt codeOrder, ff codeOrder, var codeOrder "a"] = .ok (-4) ∧
    bvMax 2 (tt codeOrder) [tt codeOrder, ff codeOrder, var codeOrder "a"] = .ok (-3) := by
  refine ⟨fun η => ?_, by decide +kernel⟩
  simp only [Bv.sv, Bv.bits, Bv.Fml.den, List.map_cons, List.map_nil, const_ev, var_ev]
  cases η "a" <;> decide

/-- The missing part: `bv_max` and `bv_min` fail for every bit-vector that is negative for some assignments and
not for others, because the numbers found in the two branches differ. -/
theorem c88_mixed_violated (bv : List (Fn o)) (h1 : ∃ η, Bv.sv bv η < 0) (h2 : ∃ η, 0 ≤ Bv.sv bv η) (k : Nat) :
    bvMax (k + 2) (tt o) bv = .fail ∧ bvMin (k + 2) (tt o) bv = .fail := by
  have hne : bv ≠ [] := by obtain ⟨η, h⟩ := h1; exact ne_nil_of_sv (η := η) (by omega)
  obtain ⟨c, c1, c2⟩ := less_zero hne
  have hT : ∃ η, c.ev η = true := by obtain ⟨η, h⟩ := h1; exact ⟨η, by rw [c2]; exact decide_eq_true h⟩
  have hF : ∃ η, c.ev η = false := by obtain ⟨η, h⟩ := h2; exact ⟨η, by rw [c2]; exact decide_eq_false (by omega)⟩
  obtain ⟨n, n1, n2, n3⟩ := bvNeg_spec hne
  have hp : ∃ η, ((tt o).and c).ev η = true := by obtain ⟨η, h⟩ := hT; exact ⟨η, by simp [h]⟩
  have hpn : ∀ η, ((tt o).and c).ev η = true → 0 ≤ Bv.sv n η := by
    intro η h
    simp only [and_ev, const_ev, Bool.true_and, c2, decide_eq_true_iff] at h
    rw [n3]; omega
  obtain ⟨ds, d1, d2⟩ := tryMax_mixed h1
  obtain ⟨es, e1, _, ⟨ηe, e2⟩, e3⟩ := tryMin_spec n id id fun f η => rfl
  obtain ⟨fs, f1, _, _, f2⟩ := tryMax_spec n id id fun f η => rfl
  obtain ⟨gs, g1, _, _, _⟩ := tryMin_spec bv id id fun f η => rfl
  constructor
  · unfold bvMax
    simp only [c1, Out.ofOption, Out.bind]
    rw [branch_mixed hT hF]
    simp only [n1, d1, e1, Out.bind, bvMin_pos n2 hp hpn, Out.ofOption]
    rw [mergeInt, if_neg]
    omega
  · have hfs : 1 ≤ Bv.uv fs := by
      obtain ⟨η, h⟩ := h1
      refine le_trans ?_ (f2 η)
      have hpos : 0 < Bv.sv n η := by rw [n3]; omega
      have := sv_uv (bv := n) (η := η) hpos.le
      show 1 ≤ Bv.uv (Bv.bits n η)
      omega
    unfold bvMin
    simp only [c1, Out.ofOption, Out.bind]
    rw [branch_mixed hT hF]
    simp only [n1, f1, g1, Out.bind, bvMax_pos n2 hp hpn, Out.ofOption]
    rw [mergeInt, if_neg]
    omega

example : (∃ η, Bv.sv (someBv codeOrder) η < 0) ∧ ∃ η, 0 ≤ Bv.sv (someBv codeOrder) η := by
  refine ⟨⟨fun _ => true, ?_⟩, fun _ => false, ?_⟩ <;>
    simp [someBv, Bv.sv, Bv.bits, Bv.Fml.den, Bv.tc, Bv.uv]

/-- C88, `mutex`: the condition holds exactly where the number is a power of two. -/
theorem c88_mutex_partial (v : List (Fn o)) (hne : v ≠ []) :
    ∃ f, mutex (tt o) v = .ok f ∧ ∀ η, f.ev η = true ↔ ∃ k : Nat, Bv.sv v η = 2 ^ k := by
  obtain ⟨c, c1, c2'⟩ := (Bv.c11_compare v [ff o] hne (by simp)).2.1
  have c2 : ∀ η, c.ev η = decide (Bv.sv v η ≤ 0) := fun η => by have := c2' η; rw [sv_zero] at this; exact this
  obtain ⟨n, n1, _, n2⟩ := Bv.c09_mul [tt o] v (by simp) hne
  have hn0 : n ≠ [] := bvMul_ne_nil n1
  obtain ⟨a, a1, _, a2⟩ := (Bv.c13_bitwise v n hne hn0).1
  have ha0 : a ≠ [] := by
    rw [Bv.bvAND, Bv.bvBitwise] at a1
    split at a1
    · simp at a1
    · simp only [Option.some.injEq] at a1
      rw [← a1]
      apply Bv.trim_ne_nil
      simp [List.zipWith_eq_nil_iff, Bv.sx2, Bv.sxTo_ne_nil hne, Bv.sxTo_ne_nil hn0]
  obtain ⟨q, q1, q2'⟩ := (Bv.c11_compare v a hne ha0).2.2.2.2.1
  have q2 : ∀ η, q.ev η = decide (Bv.sv v η = Bv.sv a η) := q2'
  have key : ∀ η, 0 < Bv.sv v η → (q.ev η = true ↔ ∃ k : Nat, Bv.sv v η = 2 ^ k) := by
    intro η h
    rw [q2, decide_eq_true_iff, ← pow_two_iff _ h]
    constructor
    · intro e i
      have := a2 η i
      rw [n2, sv_minus, ← e, neg_one_mul] at this
      exact this
    · intro hb
      refine Arbi.ibit_ext _ _ fun i => ?_
      rw [a2, n2, sv_minus, neg_one_mul]
      exact hb i
  have low : ∀ η, Bv.sv v η ≤ 0 → ¬ ∃ k : Nat, Bv.sv v η = 2 ^ k := by
    rintro η h ⟨k, hk⟩
    have : (0:Int) < 2 ^ k := by positivity
    omega
  unfold mutex
  simp only [c1, n1, a1, q1, Out.ofOption, Out.bind]
  by_cases hT : c = tt o
  · refine ⟨ff o, by simp [branch, hT], fun η => ?_⟩
    have : Bv.sv v η ≤ 0 := by
      have := c2 η
      rw [hT] at this
      exact decide_eq_true_iff.1 this.symm
    simp only [const_ev, Bool.false_eq_true, false_iff]
    exact low η this
  · by_cases hF : c = ff o
    · refine ⟨q, by rw [branch, if_neg hT, if_pos hF], fun η => key η ?_⟩
      have := c2 η
      rw [hF] at this
      have h2 := decide_eq_false_iff_not.1 this.symm
      omega
    · rw [branch_mixed (ne_ff.1 hF) (ne_tt.1 hT)]
      refine ⟨_, rfl, fun η => ?_⟩
      simp only [or_ev, and_ev, not_ev, const_ev, Bool.and_false, Bool.false_or, c2]
      by_cases h : Bv.sv v η ≤ 0
      · simp only [decide_eq_true h, Bool.not_true, Bool.false_and, Bool.false_eq_true, false_iff]
        exact low η h
      · simp only [decide_eq_false h, Bool.not_false, Bool.true_and]
        exact key η (by omega)

example : mutex (tt codeOrder) [ff codeOrder, var codeOrder "a", var codeOrder "b"] =
    .ok ((var codeOrder "a").xor (var codeOrder "b")) := by decide +kernel

/-- What is said to be computed is whether exactly one bit is high.  It is not where that bit is the sign. -/
theorem c88_mutex_violated : mutex (tt codeOrder) [var codeOrder "a", ff codeOrder, ff codeOrder] = .ok (ff codeOrder) := by
  decide +kernel

end Voss.Pre
