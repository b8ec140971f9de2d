import Verif.Pre.Pow
import Verif.Pre.RangeLemmas
/- Lemmas for C89. -/
namespace Voss.Pre
variable {o : Order}
open Fn

/-- What a conditional computes, from what its branches compute where they are taken. -/
theorem branch_spec {α : Type} {p c : Fn o} {t e : Nat → Fn o → Out α} {merge : Fn o → α → α → Out α}
    {R : α → Prop} {Q : Env → α → Prop} (hp : ∃ η, p.ev η = true)
    (ht : (∃ η, (p.and c).ev η = true) → ∃ x, (∀ j, t j (p.and c) = .ok x) ∧ R x ∧
      ∀ η, (p.and c).ev η = true → Q η x)
    (he : (∃ η, (p.and c.not).ev η = true) → ∃ x, (∀ j, e j (p.and c.not) = .ok x) ∧ R x ∧
      ∀ η, (p.and c.not).ev η = true → Q η x)
    (hm : ∀ x y, R x → R y → ∃ z, merge c x y = .ok z ∧ R z ∧
      ∀ η, (c.ev η = true → Q η x → Q η z) ∧ (c.ev η = false → Q η y → Q η z)) :
    ∃ z, (∀ j, branch p c (t j) (e j) merge = .ok z) ∧ R z ∧ ∀ η, p.ev η = true → Q η z := by
  have onlyT : (∀ η, p.ev η = true → c.ev η = true) → ∃ x, (∀ j, t j (p.and c) = .ok x) ∧ R x ∧
      ∀ η, p.ev η = true → Q η x := by
    intro h
    obtain ⟨η, hη⟩ := hp
    obtain ⟨x, h1, h2, h3⟩ := ht ⟨η, by simp [hη, h η hη]⟩
    exact ⟨x, h1, h2, fun η hη => h3 η (by simp [hη, h η hη])⟩
  have onlyE : (∀ η, p.ev η = true → c.ev η = false) → ∃ x, (∀ j, e j (p.and c.not) = .ok x) ∧ R x ∧
      ∀ η, p.ev η = true → Q η x := by
    intro h
    obtain ⟨η, hη⟩ := hp
    obtain ⟨x, h1, h2, h3⟩ := he ⟨η, by simp [hη, h η hη]⟩
    exact ⟨x, h1, h2, fun η hη => h3 η (by simp [hη, h η hη])⟩
  unfold branch
  by_cases c1 : c = tt o
  · simp only [if_pos c1]
    obtain ⟨x, h1, h2⟩ := onlyT fun η _ => by rw [c1]; rfl
    have : p.and c = p := Fn.ext fun η => by simp [c1]
    rw [this] at h1
    exact ⟨x, h1, h2⟩
  simp only [if_neg c1]
  by_cases c2 : c = ff o
  · simp only [if_pos c2]
    obtain ⟨x, h1, h2⟩ := onlyE fun η _ => by rw [c2]; rfl
    have : p.and c.not = p := Fn.ext fun η => by simp [c2]
    rw [this] at h1
    exact ⟨x, h1, h2⟩
  simp only [if_neg c2]
  by_cases c3 : p.and c = ff o
  · simp only [if_pos c3]
    refine onlyE fun η hη => ?_
    have := ff_iff.1 c3 η
    simpa [hη] using this
  simp only [if_neg c3]
  by_cases c4 : p.and c.not = ff o
  · simp only [if_pos c4]
    refine onlyT fun η hη => ?_
    have := ff_iff.1 c4 η
    simpa [hη] using this
  simp only [if_neg c4]
  obtain ⟨x, x1, x2, x3⟩ := ht (ne_ff.1 c3)
  obtain ⟨y, y1, y2, y3⟩ := he (ne_ff.1 c4)
  obtain ⟨z, z1, z2, z3⟩ := hm x y x2 y2
  refine ⟨z, fun j => by simp only [x1, y1, Out.bind, z1], z2, fun η hη => ?_⟩
  cases hc : c.ev η
  · exact (z3 η).2 hc (y3 η (by simp [hη, hc]))
  · exact (z3 η).1 hc (x3 η (by simp [hη, hc]))

theorem mergeBv_spec (c : Fn o) (Q : Env → Int → Prop) (x y : List (Fn o)) (hx : x ≠ []) (hy : y ≠ []) :
    ∃ z, mergeBv c x y = .ok z ∧ z ≠ [] ∧
      ∀ η, (c.ev η = true → Q η (Bv.sv x η) → Q η (Bv.sv z η)) ∧ (c.ev η = false → Q η (Bv.sv y η) → Q η (Bv.sv z η)) := by
  refine ⟨_, rfl, Bv.iteList_ne_nil _ _ _ hx hy, fun η => ?_⟩
  have h := Bv.sv_iteList c x y hx hy η
  have h' : Bv.sv (Bv.iteList c x y) η = if c.ev η then Bv.sv x η else Bv.sv y η := h
  constructor
  · intro hc hq
    rw [h', if_pos hc]; exact hq
  · intro hc hq
    rw [h', if_neg (by simp [hc])]; exact hq

theorem bvSub_spec (a b : List (Fn o)) (ha : a ≠ []) (hb : b ≠ []) :
    ∃ r, Bv.bvSub a b = some r ∧ r ≠ [] ∧ ∀ η, Bv.sv r η = Bv.sv a η - Bv.sv b η := by
  obtain ⟨r, h1, _, h2⟩ := (Bv.c08_add_sub a b ha hb).2
  refine ⟨r, h1, ?_, h2⟩
  rw [Bv.bvSub, Bv.guard2_ne _ _ ha hb] at h1
  simp only [Option.some.injEq] at h1
  rw [← h1]
  exact Bv.trim_ne_nil _ (Bv.genAdd_ne_nil _ _ _)

theorem leq_zero {n : List (Fn o)} (hn : n ≠ []) :
    ∃ c, Bv.bvLeq n [ff o] = some c ∧ ∀ η, c.ev η = decide (Bv.sv n η ≤ 0) := by
  obtain ⟨c, h1, h2⟩ := (Bv.c11_compare n [ff o] hn (by simp)).2.1
  exact ⟨c, h1, fun η => by have := h2 η; rw [sv_zero] at this; exact this⟩

theorem eq_zero {n : List (Fn o)} (hn : n ≠ []) :
    ∃ c, Bv.bvEq n [ff o] = some c ∧ ∀ η, c.ev η = decide (Bv.sv n η = 0) := by
  obtain ⟨c, h1, h2⟩ := (Bv.c11_compare n [ff o] hn (by simp)).2.2.2.2.1
  exact ⟨c, h1, fun η => by have := h2 η; rw [sv_zero] at this; exact this⟩

theorem bvPow_spec (base : List (Fn o)) (hb : base ≠ []) : ∀ (N : Nat) (p : Fn o) (n : List (Fn o)), n ≠ [] →
    (∃ η, p.ev η = true) → (∀ η, p.ev η = true → Bv.sv n η ≤ N) →
    ∃ r, (∀ j, bvPow (N + 1 + j) p base n = .ok r) ∧ r ≠ [] ∧
      ∀ η, p.ev η = true → Bv.sv r η = Bv.sv base η ^ (Bv.sv n η).toNat := by
  intro N
  induction N with
  | zero =>
    intro p n hn hp hN
    obtain ⟨c, c1, c2⟩ := leq_zero hn
    have key := branch_spec (p := p) (c := c) (t := fun _ _ => .ok [ff o, tt o])
      (e := fun j p => (Out.ofOption (Bv.bvSub n [ff o, tt o])).bind fun m =>
          (bvPow j p base m).bind fun r => Out.ofOption (Bv.bvMul base r)) (merge := mergeBv)
      (R := fun x => x ≠ []) (Q := fun η x => Bv.sv x η = Bv.sv base η ^ (Bv.sv n η).toNat) hp
      (fun _ => ⟨_, fun _ => rfl, by simp, fun η h => ?_⟩) (fun ⟨η, h⟩ => ?_)
      (fun x y hx hy => mergeBv_spec c (fun η v => v = Bv.sv base η ^ (Bv.sv n η).toNat) x y hx hy)
    · obtain ⟨z, z1, z2⟩ := key
      refine ⟨z, fun j => ?_, z2⟩
      have e : 0 + 1 + j = j + 1 := by omega
      rw [e, bvPow, c1]
      exact z1 j
    · simp only [and_ev, c2, Bool.and_eq_true, decide_eq_true_iff] at h
      have : (Bv.sv n η).toNat = 0 := by omega
      rw [sv_one, this, pow_zero]
    · exfalso
      simp only [and_ev, not_ev, c2, Bool.and_eq_true, Bool.not_eq_true', decide_eq_false_iff_not] at h
      have := hN η h.1
      have h2 := h.2
      omega
  | succ N ih =>
    intro p n hn hp hN
    obtain ⟨c, c1, c2⟩ := leq_zero hn
    obtain ⟨m, m1, m2, m3⟩ := bvSub_spec n [ff o, tt o] hn (by simp)
    have key := branch_spec (p := p) (c := c) (t := fun _ _ => .ok [ff o, tt o])
      (e := fun j p => (Out.ofOption (Bv.bvSub n [ff o, tt o])).bind fun m =>
          (bvPow (N + 1 + j) p base m).bind fun r => Out.ofOption (Bv.bvMul base r)) (merge := mergeBv)
      (R := fun x => x ≠ []) (Q := fun η x => Bv.sv x η = Bv.sv base η ^ (Bv.sv n η).toNat) hp
      (fun _ => ⟨_, fun _ => rfl, by simp, fun η h => ?_⟩) (fun hpe => ?_)
      (fun x y hx hy => mergeBv_spec c (fun η v => v = Bv.sv base η ^ (Bv.sv n η).toNat) x y hx hy)
    · obtain ⟨z, z1, z2⟩ := key
      refine ⟨z, fun j => ?_, z2⟩
      have e : N + 1 + 1 + j = (N + 1 + j) + 1 := by omega
      rw [e, bvPow, c1]
      exact z1 j
    · simp only [and_ev, c2, Bool.and_eq_true, decide_eq_true_iff] at h
      have : (Bv.sv n η).toNat = 0 := by omega
      rw [sv_one, this, pow_zero]
    · obtain ⟨r, r1, r2, r3⟩ := ih (p.and c.not) m m2 hpe (fun η h => by
        simp only [and_ev, not_ev, c2, Bool.and_eq_true, Bool.not_eq_true', decide_eq_false_iff_not] at h
        have := hN η h.1
        rw [m3, sv_one]
        push_cast at this
        omega)
      obtain ⟨s, s1, _, s2⟩ := Bv.c09_mul base r hb r2
      refine ⟨s, fun j => by simp only [m1, r1, s1, Out.ofOption, Out.bind], bvMul_ne_nil s1, fun η h => ?_⟩
      rw [s2, r3 η h, m3, sv_one]
      simp only [and_ev, not_ev, c2, Bool.and_eq_true, Bool.not_eq_true', decide_eq_false_iff_not] at h
      have h2 := h.2
      have : (Bv.sv n η).toNat = (Bv.sv n η - 1).toNat + 1 := by omega
      rw [this, pow_succ, mul_comm]

/-- The numbers of a bit-vector are bounded by its length. -/
theorem sv_bound (n : List (Fn o)) (η : Env) : (Bv.sv n η).natAbs ≤ 2 ^ n.length := by
  cases n with
  | nil => simp [Bv.sv, Bv.bits, Bv.tc]
  | cons b bs =>
    have h := Bv.tc_bounds (b.ev η) (Bv.bits bs η)
    have hl : (Bv.bits bs η).length = bs.length := by simp [Bv.bits]
    rw [hl] at h
    have e : Bv.sv (b :: bs) η = Bv.tc (b.ev η :: Bv.bits bs η) := rfl
    rw [e]
    have h2 : (2:Int) ^ bs.length = ((2 ^ bs.length : Nat) : Int) := by push_cast; rfl
    rw [h2] at h
    rw [List.length_cons, pow_succ]
    omega

theorem bvMod_spec (a b : List (Fn o)) (ha : a ≠ []) (hb : b ≠ []) :
    ∃ r, Bv.bvMod a b = some r ∧ r ≠ [] ∧
      ∀ η, Bv.sv b η ≠ 0 → ∃ q, Arbi.FloorDiv (Bv.sv a η) (Bv.sv b η) q (Bv.sv r η) := by
  obtain ⟨q, r, _, h2, _, _, h5⟩ := Bv.c10_div_mod a b ha hb
  refine ⟨r, h2, ?_, fun η h => ⟨_, h5 η h⟩⟩
  rw [Bv.bvMod, Bv.guard2_ne _ _ ha hb] at h2
  simp only [Option.some.injEq] at h2
  rw [← h2]
  exact Bv.trim_ne_nil _ (Bv.signedDiv_spec a b ha hb).2.1

theorem gcd_floor {a b q r : Int} (h : Arbi.FloorDiv a b q r) : Int.gcd b r = Int.gcd a b := by
  have e : r = a + b * (-q) := by
    have h1 := h.1
    rw [mul_comm q b] at h1
    rw [mul_neg]
    omega
  rw [e, Int.gcd_add_mul_left_right, Int.gcd_comm]

/-- `g` is the greatest common divisor of `a` and `b`, with the sign of `b`, or `a` itself if `b` is 0. -/
def IsGcd (a b g : Int) : Prop :=
  g.natAbs = Int.gcd a b ∧ (0 < b → 0 < g) ∧ (b < 0 → g < 0) ∧ (b = 0 → g = a)

theorem bvGcd_spec : ∀ (N : Nat) (p : Fn o) (a b : List (Fn o)), a ≠ [] → b ≠ [] →
    (∃ η, p.ev η = true) → (∀ η, p.ev η = true → (Bv.sv b η).natAbs ≤ N) →
    ∃ r, (∀ j, bvGcd (N + 1 + j) p a b = .ok r) ∧ r ≠ [] ∧
      ∀ η, p.ev η = true → IsGcd (Bv.sv a η) (Bv.sv b η) (Bv.sv r η) := by
  intro N
  induction N with
  | zero =>
    intro p a b ha hb hp hN
    obtain ⟨c, c1, c2⟩ := eq_zero hb
    have key := branch_spec (p := p) (c := c) (t := fun _ _ => .ok a)
      (e := fun j p => (Out.ofOption (Bv.bvMod a b)).bind fun m => bvGcd j p b m) (merge := mergeBv)
      (R := fun x => x ≠ []) (Q := fun η x => IsGcd (Bv.sv a η) (Bv.sv b η) (Bv.sv x η)) hp
      (fun _ => ⟨_, fun _ => rfl, ha, fun η h => ?_⟩) (fun ⟨η, h⟩ => ?_)
      (fun x y hx hy => mergeBv_spec c (fun η v => IsGcd (Bv.sv a η) (Bv.sv b η) v) x y hx hy)
    · obtain ⟨z, z1, z2⟩ := key
      refine ⟨z, fun j => ?_, z2⟩
      have e : 0 + 1 + j = j + 1 := by omega
      rw [e, bvGcd, c1]
      exact z1 j
    · simp only [and_ev, c2, Bool.and_eq_true, decide_eq_true_iff] at h
      rw [h.2]
      exact ⟨by simp, by omega, by omega, fun _ => rfl⟩
    · exfalso
      simp only [and_ev, not_ev, c2, Bool.and_eq_true, Bool.not_eq_true', decide_eq_false_iff_not] at h
      have := hN η h.1
      have h2 := h.2
      omega
  | succ N ih =>
    intro p a b ha hb hp hN
    obtain ⟨c, c1, c2⟩ := eq_zero hb
    obtain ⟨m, m1, m2, m3⟩ := bvMod_spec a b ha hb
    have key := branch_spec (p := p) (c := c) (t := fun _ _ => .ok a)
      (e := fun j p => (Out.ofOption (Bv.bvMod a b)).bind fun m => bvGcd (N + 1 + j) p b m) (merge := mergeBv)
      (R := fun x => x ≠ []) (Q := fun η x => IsGcd (Bv.sv a η) (Bv.sv b η) (Bv.sv x η)) hp
      (fun _ => ⟨_, fun _ => rfl, ha, fun η h => ?_⟩) (fun hpe => ?_)
      (fun x y hx hy => mergeBv_spec c (fun η v => IsGcd (Bv.sv a η) (Bv.sv b η) v) x y hx hy)
    · obtain ⟨z, z1, z2⟩ := key
      refine ⟨z, fun j => ?_, z2⟩
      have e : N + 1 + 1 + j = (N + 1 + j) + 1 := by omega
      rw [e, bvGcd, c1]
      exact z1 j
    · simp only [and_ev, c2, Bool.and_eq_true, decide_eq_true_iff] at h
      rw [h.2]
      exact ⟨by simp, by omega, by omega, fun _ => rfl⟩
    · have hnz : ∀ η, (p.and c.not).ev η = true → p.ev η = true ∧ Bv.sv b η ≠ 0 := by
        intro η h
        simpa only [and_ev, not_ev, c2, Bool.and_eq_true, Bool.not_eq_true', decide_eq_false_iff_not] using h
      obtain ⟨r, r1, r2, r3⟩ := ih (p.and c.not) b m hb m2 hpe (fun η h => by
        obtain ⟨h1, h2⟩ := hnz η h
        obtain ⟨q, _, f2, f3⟩ := m3 η h2
        have := hN η h1
        rcases lt_or_gt_of_ne h2 with h4 | h4
        · have := f3 h4; omega
        · have := f2 h4; omega)
      refine ⟨r, fun j => by simp only [m1, r1, Out.ofOption, Out.bind], r2, fun η h => ?_⟩
      obtain ⟨h1, h2⟩ := hnz η h
      obtain ⟨q, hq⟩ := m3 η h2
      obtain ⟨g1, g2, g3, g4⟩ := r3 η h
      have hq' := hq
      obtain ⟨_, f2, f3⟩ := hq'
      refine ⟨by rw [g1, gcd_floor hq], fun hb0 => ?_, fun hb0 => ?_, fun hb0 => absurd hb0 h2⟩
      · have := f2 hb0
        rcases lt_trichotomy (Bv.sv m η) 0 with h5 | h5 | h5
        · omega
        · rw [g4 h5]; exact hb0
        · exact g2 h5
      · have := f3 hb0
        rcases lt_trichotomy (Bv.sv m η) 0 with h5 | h5 | h5
        · exact g3 h5
        · rw [g4 h5]; exact hb0
        · omega

/-! ### `int2bv` -/

theorem uv_digitsOf (w n : Nat) : Bv.uv (digitsOf w n) = n % 2 ^ w ∧ (digitsOf w n).length = w := by
  induction w with
  | zero => simp [digitsOf, Bv.uv, Nat.mod_one]
  | succ w ih =>
    refine ⟨?_, by simp [digitsOf, ih.2]⟩
    simp only [digitsOf, Bv.uv, ih.1, ih.2, decide_eq_true_iff]
    rw [pow_succ, Nat.mod_mul]
    split
    · next h => rw [h]; omega
    · next h =>
      have : n / 2 ^ w % 2 = 0 := by omega
      rw [this]; omega

theorem bits_const (l : List Bool) (η : Env) : Bv.bits (l.map (const o)) η = l := by
  unfold Bv.bits
  rw [List.map_map]
  conv_rhs => rw [← List.map_id l]
  exact List.map_congr_left fun b _ => (const_ev (o := o) b η : (const o b).ev η = b)

theorem sv_intBv (z : Int) (η : Env) : Bv.sv (intBv o z) η = z := by
  unfold intBv
  split
  · next h =>
    rw [Bv.sv_trim]
    unfold Bv.sv
    rw [bits_const, Bv.tc_zcons, (uv_digitsOf _ _).1, Nat.mod_eq_of_lt Nat.lt_log2_self]
    omega
  · next h =>
    rw [Bv.sv_trim]
    unfold Bv.sv
    rw [bits_const]
    have e : (true :: (digitsOf ((-z - 1).toNat.log2 + 1) (-z - 1).toNat).map (!·)) =
        (false :: digitsOf ((-z - 1).toNat.log2 + 1) (-z - 1).toNat).map (!·) := rfl
    rw [e, Bv.tc_map_not _ (by simp), Bv.tc_zcons, (uv_digitsOf _ _).1, Nat.mod_eq_of_lt Nat.lt_log2_self]
    omega

theorem intBv_ne_nil (z : Int) : intBv o z ≠ [] := by
  unfold intBv
  split <;> exact Bv.trim_ne_nil _ (by simp)

theorem floor_div {a b q r : Int} (hb : 0 < b) (h : Arbi.FloorDiv a b q r) : q = a / b := by
  obtain ⟨h1, h2, _⟩ := h
  have := h2 hb
  rw [h1, add_comm, Int.add_mul_ediv_right _ _ (by omega), Int.ediv_eq_zero_of_lt this.1 this.2, zero_add]

theorem sv_substl (sub : List (String × Fn o)) (bv : List (Fn o)) (η : Env) :
    Bv.sv (Bv.list2bv (bv.map (subst sub))) η = Bv.sv bv (under sub η) := by
  unfold Bv.list2bv
  rw [Bv.sv_trim]
  unfold Bv.sv Bv.bits
  rw [List.map_map]
  congr 1
  exact List.map_congr_left fun f _ => (subst_ev sub f η : (subst sub f).ev η = f.ev (under sub η))

theorem sv_dependsl {bv : List (Fn o)} {η ζ : Env} (h : ∀ n ∈ depends bv, η n = ζ n) : Bv.sv bv η = Bv.sv bv ζ := by
  unfold Bv.sv Bv.bits
  congr 1
  exact List.map_congr_left fun f hf => (ev_depends hf h : f.ev η = f.ev ζ)

theorem allFalse_ev (vs : List String) (η : Env) :
    (vs.foldr (fun v r => (var o v).not.and r) (tt o)).ev η = true ↔ ∀ n ∈ vs, η n = false := by
  induction vs with
  | nil => simp
  | cons v vs ih => simp [ih]

theorem reduce_spec {bv : List (Fn o)} (hpos : ∀ η, 0 < Bv.sv bv η)
    (hne : ∃ ζ : Env, ∃ n ∈ depends bv, ζ n = true) :
    ∃ K r, ∃ G : Nat, (∀ k, bvReduce (K + k) bv = .ok r) ∧
      (∃ ξ : Env, (∃ n ∈ depends bv, ξ n = true) ∧ G = Int.gcd (Bv.sv bv fun _ => false) (Bv.sv bv ξ)) ∧
      (∀ ζ : Env, (∃ n ∈ depends bv, ζ n = true) → G ≤ Int.gcd (Bv.sv bv fun _ => false) (Bv.sv bv ζ)) ∧
      ∀ η, Bv.sv r η = Bv.sv bv η / G := by
  have hbv : bv ≠ [] := ne_nil_of_sv (η := fun _ => false) (by have := hpos fun _ => false; omega)
  obtain ⟨z, z1, z2⟩ := eq_zero hbv
  have z3 : z = ff o := ff_iff.2 fun η => by rw [z2, decide_eq_false_iff_not]; have := hpos η; omega
  generalize hc : (depends bv).foldr (fun v r => (var o v).not.and r) (tt o) = c0
  have c0ev : ∀ η, c0.ev η = true ↔ ∀ n ∈ depends bv, η n = false := fun η => by rw [← hc]; exact allFalse_ev _ η
  have hnot : ∀ η, c0.not.ev η = true ↔ ∃ n ∈ depends bv, η n = true := by
    intro η
    rw [not_ev, Bool.not_eq_true', ← Bool.not_eq_true, c0ev]
    simp
  have n0 : c0 ≠ ff o := ne_ff.2 ⟨fun _ => false, (c0ev _).2 fun _ _ => rfl⟩
  have n1 : c0.not ≠ ff o := by
    obtain ⟨ζ, hζ⟩ := hne
    exact ne_ff.2 ⟨ζ, (hnot ζ).2 hζ⟩
  obtain ⟨s0, s1, s2, _⟩ := param_some n0
  obtain ⟨t0, t1, t2, t3⟩ := param_some n1
  have hl : ∀ s : List (String × Fn o), Bv.list2bv (bv.map (subst s)) ≠ [] :=
    fun s => Bv.trim_ne_nil _ (by simpa using hbv)
  have v0 : ∀ η, Bv.sv (Bv.list2bv (bv.map (subst s0))) η = Bv.sv bv fun _ => false := by
    intro η
    rw [sv_substl]
    exact sv_dependsl ((c0ev _).1 (s2 η))
  obtain ⟨cd, d1, d2, d3⟩ := bvGcd_spec (2 ^ (Bv.list2bv (bv.map (subst t0))).length) (tt o)
    (Bv.list2bv (bv.map (subst s0))) (Bv.list2bv (bv.map (subst t0))) (hl _) (hl _) tt_sat (fun η _ => sv_bound _ η)
  have cdv : ∀ η, Bv.sv cd η = Int.gcd (Bv.sv bv fun _ => false) (Bv.sv bv (under t0 η)) := by
    intro η
    obtain ⟨g1, g2, _⟩ := d3 η rfl
    have hp : 0 < Bv.sv (Bv.list2bv (bv.map (subst t0))) η := by rw [sv_substl]; exact hpos _
    have := g2 hp
    rw [v0, sv_substl] at g1
    omega
  obtain ⟨ds, m1, ⟨ξ, m2⟩, m3⟩ := tryMin_nonneg (bv := cd) fun η => by rw [cdv]; omega
  have G1 : Bv.uv ds = Int.gcd (Bv.sv bv fun _ => false) (Bv.sv bv (under t0 ξ)) := by
    rw [cdv] at m2; exact_mod_cast m2.symm
  have Gpos : 0 < Bv.uv ds := by
    rw [G1]
    refine Nat.pos_of_ne_zero fun h => ?_
    have := (Int.gcd_eq_zero_iff.1 h).1
    have := hpos fun _ => false
    omega
  obtain ⟨q, _, q1, _, _, _, q2⟩ := Bv.c10_div_mod bv (intBv o (Bv.uv ds)) hbv (intBv_ne_nil _)
  refine ⟨2 ^ (Bv.list2bv (bv.map (subst t0))).length + 1, q, Bv.uv ds, fun k => ?_, ⟨under t0 ξ, (hnot _).1 (t2 ξ), G1⟩,
    fun ζ hζ => ?_, fun η => ?_⟩
  · have e : 2 ^ (Bv.list2bv (bv.map (subst t0))).length + 1 + k = (2 ^ (Bv.list2bv (bv.map (subst t0))).length + k) + 1 := by omega
    have hm := bvMin_pos (n := cd) (p := tt o) d2 tt_sat (fun η _ => by rw [cdv]; omega)
      (2 ^ (Bv.list2bv (bv.map (subst t0))).length + k)
    unfold bvReduce
    simp only [z1, Out.ofOption, Out.bind, z3, ne_eq, not_true_eq_false, if_false, hc, s1, t1, d1]
    rw [e, hm, m1]
    simp only [Out.ofOption, Out.bind, q1]
  · have := m3 ζ
    rw [cdv, t3 ζ ((hnot ζ).2 hζ)] at this
    exact_mod_cast this
  · have h := q2 η (by rw [sv_intBv]; omega)
    rw [sv_intBv] at h
    exact floor_div (by omega) h

theorem reduce_const {bv : List (Fn o)} (hbv : bv ≠ []) (h : depends bv = []) (k : Nat) : bvReduce k bv = .fail := by
  obtain ⟨z, z1, z2⟩ := eq_zero hbv
  unfold bvReduce
  simp only [z1, Out.ofOption, Out.bind]
  split
  · rfl
  · simp only [h, List.foldr_nil]
    have e : (tt o).not = ff o := Fn.ext fun η => rfl
    rw [e]
    have h1 : param (ff o) = none := by simp [param]
    obtain ⟨s, s1, _⟩ := param_some (c := tt o) (ne_ff.2 tt_sat)
    rw [s1, h1]

end Voss.Pre
