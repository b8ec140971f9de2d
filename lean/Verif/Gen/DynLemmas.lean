import Verif.Gen.ShiftLemmas
/-
Lemmas about the library of bit-vectors: vectors of any size.
-/
namespace Voss.Gen
open Voss.Pre Voss.Pre.Fn
open Voss.Bv (uv tc)
variable {o : Order}

theorem multD_ok (xv : List (Fn o)) : ∀ (ys : List (Fn o)),
    ∃ r, multD xv ys = .ok r ∧ r ≠ [] ∧ ∀ η, signed r η = unsigned xv η * unsigned ys η
  | [] => ⟨[ff o], rfl, by simp, fun η => by simp [signed, tc, unsigned, uv]⟩
  | y :: ys => by
    obtain ⟨r, h1, h2, h3⟩ := multD_ok xv ys
    obtain ⟨s, g1, g2, -, g3⟩ := dbvadd_ok
      (a := ff o :: (xv ++ List.replicate ys.length (ff o)).map (fun x => y.and x)) (b := r) (by simp) h2
    refine ⟨s, by simp only [multD, h1, Out.bind, g1], g2, fun η => ?_⟩
    have e : signed (ff o :: (xv ++ List.replicate ys.length (ff o)).map (fun x => y.and x)) η =
        ((y.ev η).toNat * (unsigned xv η * 2 ^ ys.length) : Nat) := by
      rw [signed_cons, unsigned_cons, unsigned_and, unsigned_append, unsigned_ff]
      simp
    rw [g3, h3, e, unsigned_cons]
    push_cast
    ring

/-- The absolute value as `dbvmult` computes it. -/
theorem absD_right {p n : Fn o} {a r : List (Fn o)} (hn : ∃ l, a = n :: l)
    (h : branch p n (fun _ => dbvnegate a) (fun _ => .ok a) mergeList = .ok r) :
    ∀ η, p.ev η = true → unsigned r η = (signed a η).natAbs := by
  obtain ⟨l, rfl⟩ := hn
  have hneg : ∀ η, signed (n :: l) η < 0 ↔ n.ev η = true := fun η => tc_neg_head (n.ev η) (bits l η)
  refine branchList_right (R := fun η m => uv m = (signed (n :: l) η).natAbs) h ?_ ?_
  · intro p' x hx hp η hη
    obtain ⟨x', h1, h2, h3⟩ := dbvnegate_ok (a := n :: l) (by simp)
    simp only [h1, Out.ok.injEq] at hx
    subst hx
    have := (hneg η).2 (hp η hη).2
    have := unsigned_signed (l := x') (η := η) (by rw [h3]; omega)
    rw [h3] at this
    unfold unsigned at this
    omega
  · intro p' x hx hp η hη
    simp only [Out.ok.injEq] at hx
    subst hx
    have hh := (hp η hη).2
    have : ¬ signed (n :: l) η < 0 := by rw [hneg, hh]; simp
    have := unsigned_signed (l := n :: l) (η := η) (by omega)
    unfold unsigned at this
    omega

/-- The sign is put back. -/
theorem signD_right {p s : Fn o} {q r : List (Fn o)} (hq : q ≠ [])
    (h : branch p s (fun _ => dbvnegate q) (fun _ => .ok q) mergeList = .ok r) :
    ∀ η, p.ev η = true → signed r η = if s.ev η then -signed q η else signed q η := by
  refine branchList_right (R := fun η m => tc m = if s.ev η then -signed q η else signed q η) h ?_ ?_
  · intro p' x hx hp η hη
    obtain ⟨x', h1, h2, h3⟩ := dbvnegate_ok hq
    simp only [h1, Out.ok.injEq] at hx
    subst hx
    rw [if_pos (hp η hη).2]
    exact h3 η
  · intro p' x hx hp η hη
    simp only [Out.ok.injEq] at hx
    subst hx
    rw [(hp η hη).2]
    rfl

theorem branch_const {α : Type} {p c : Fn o} {t e : Fn o → Out α} {merge : Fn o → α → α → Out α} (hc : c = tt o ∨ c = ff o) :
    branch p c t e merge = if c = tt o then t p else e p := by
  unfold branch
  rcases hc with rfl | rfl
  · simp
  · simp [tt_ne_ff.symm]

theorem natAbs_mul_sign (x y : Int) : ((x.natAbs : Int) * y.natAbs) * (if (decide (x < 0) ^^ decide (y < 0)) then -1 else 1) = x * y := by
  rcases lt_or_ge x 0 with hx | hx <;> rcases lt_or_ge y 0 with hy | hy
  · simp [hx, hy, abs_of_neg]
  · simp [hx, hy.not_gt, abs_of_neg, abs_of_nonneg hy]
  · simp [hx.not_gt, hy, abs_of_neg, abs_of_nonneg hx]
  · simp [hx.not_gt, hy.not_gt, abs_of_nonneg hx, abs_of_nonneg hy]

theorem out_bind_ok {α β : Type} {x : Out α} {f : α → Out β} {z : β} (h : x.bind f = .ok z) : ∃ a, x = .ok a ∧ f a = .ok z := by
  cases x with
  | ok a => exact ⟨a, rfl, h⟩
  | fail => simp [Out.bind] at h
  | more => simp [Out.bind] at h

theorem head_neg {n : Fn o} {l : List (Fn o)} (η : Env) : n.ev η = decide (signed (n :: l) η < 0) := by
  have := tc_neg_head (n.ev η) (bits l η)
  have e : signed (n :: l) η = tc (n.ev η :: bits l η) := rfl
  rw [e, Bool.eq_iff_iff, decide_eq_true_iff]
  exact this.symm

theorem dbvmult_right {p : Fn o} {a b r : List (Fn o)} (h : dbvmult p a b = .ok r) :
    ∀ η, p.ev η = true → signed r η = signed a η * signed b η := by
  -- the order of the operands does not matter
  obtain ⟨x, y, hxy, hh⟩ : ∃ x y, (∀ η, signed x η * signed y η = signed a η * signed b η) ∧
      ((hd x).bind fun na => (branch p na (fun _ => dbvnegate x) (fun _ => .ok x) mergeList).bind fun aav =>
        (hd y).bind fun nb => (branch p nb (fun _ => dbvnegate y) (fun _ => .ok y) mergeList).bind fun abv =>
        (multD aav abv).bind fun ares =>
        branch p (na.xor nb) (fun _ => dbvnegate ares) (fun _ => .ok ares) mergeList) = .ok r := by
    unfold dbvmult at h
    by_cases hl : a.length < b.length
    · rw [if_pos hl] at h
      exact ⟨b, a, fun η => mul_comm _ _, h⟩
    · rw [if_neg hl] at h
      exact ⟨a, b, fun η => rfl, h⟩
  intro η hp
  rw [← hxy η]
  cases x with
  | nil => simp [hd, Out.bind] at hh
  | cons na x =>
    cases y with
    | nil =>
      simp only [hd, Out.bind] at hh
      split at hh <;> simp at hh
    | cons nb y =>
      obtain ⟨na', e1, hh⟩ := out_bind_ok hh
      simp only [hd, Out.ok.injEq] at e1
      subst e1
      obtain ⟨aav, ha, hh⟩ := out_bind_ok hh
      obtain ⟨nb', e2, hh⟩ := out_bind_ok hh
      simp only [hd, Out.ok.injEq] at e2
      subst e2
      obtain ⟨abv, hb, hh⟩ := out_bind_ok hh
      obtain ⟨ares, hm, hh⟩ := out_bind_ok hh
      have ua := absD_right ⟨x, rfl⟩ ha η hp
      have ub := absD_right ⟨y, rfl⟩ hb η hp
      obtain ⟨m, m1, m2, m3⟩ := multD_ok aav abv
      rw [m1] at hm
      simp only [Out.ok.injEq] at hm
      subst hm
      rw [signD_right m2 hh η hp, m3, ua, ub, xor_ev, head_neg (n := na) (l := x), head_neg (n := nb) (l := y),
        ← natAbs_mul_sign (signed (na :: x) η) (signed (nb :: y) η)]
      split <;> ring

theorem xor_const {x y : Fn o} (hx : x = tt o ∨ x = ff o) (hy : y = tt o ∨ y = ff o) : x.xor y = tt o ∨ x.xor y = ff o := by
  rcases hx with rfl | rfl <;> rcases hy with rfl | rfl
  · right; exact Fn.ext fun η => by simp
  · left; exact Fn.ext fun η => by simp
  · left; exact Fn.ext fun η => by simp
  · right; exact Fn.ext fun η => by simp

theorem signD_ok {p s : Fn o} {q : List (Fn o)} (hs : s = tt o ∨ s = ff o) (hq : q ≠ []) :
    ∃ r, branch p s (fun _ => dbvnegate q) (fun _ => .ok q) mergeList = .ok r := by
  rw [branch_const hs]
  split
  · obtain ⟨r, h, -⟩ := dbvnegate_ok hq
    exact ⟨r, h⟩
  · exact ⟨q, rfl⟩

theorem dbvmult_ok {p x y : Fn o} {a b : List (Fn o)} (hx : x = tt o ∨ x = ff o) (hy : y = tt o ∨ y = ff o) :
    ∃ r, dbvmult p (x :: a) (y :: b) = .ok r := by
  obtain ⟨r, hr⟩ := signD_ok (p := p) (q := x :: a) hx (by simp)
  obtain ⟨s, hs⟩ := signD_ok (p := p) (q := y :: b) hy (by simp)
  unfold dbvmult
  split
  rename_i a' b' hab
  split at hab
  · simp only [Prod.mk.injEq] at hab
    obtain ⟨rfl, rfl⟩ := hab
    obtain ⟨m, m1, m2, -⟩ := multD_ok s r
    obtain ⟨z, hz⟩ := signD_ok (p := p) (xor_const hy hx) m2
    exact ⟨z, by simp only [hd, Out.bind, hr, hs, m1, hz]⟩
  · simp only [Prod.mk.injEq] at hab
    obtain ⟨rfl, rfl⟩ := hab
    obtain ⟨m, m1, m2, -⟩ := multD_ok r s
    obtain ⟨z, hz⟩ := signD_ok (p := p) (xor_const hx hy) m2
    exact ⟨z, by simp only [hd, Out.bind, hr, hs, m1, hz]⟩

theorem tdiv_eq (x y : Int) : Int.tdiv x y = ((x.natAbs / y.natAbs : Nat) : Int) * (if (decide (x < 0) ^^ decide (y < 0)) then -1 else 1) := by
  have key : (x.natAbs / y.natAbs : Nat) = (x.natAbs : Int) / y.natAbs := by push_cast; rfl
  rw [key]
  rcases lt_or_ge x 0 with hx | hx <;> rcases lt_or_ge y 0 with hy | hy
  · rw [decide_eq_true hx, decide_eq_true hy]
    obtain ⟨a, rfl⟩ : ∃ a : Nat, x = -a := ⟨x.natAbs, by omega⟩
    obtain ⟨b, rfl⟩ : ∃ b : Nat, y = -b := ⟨y.natAbs, by omega⟩
    simp [Int.neg_tdiv, Int.tdiv_neg, Int.tdiv_eq_ediv_of_nonneg]
  · rw [decide_eq_true hx, decide_eq_false hy.not_gt]
    obtain ⟨a, rfl⟩ : ∃ a : Nat, x = -a := ⟨x.natAbs, by omega⟩
    obtain ⟨b, rfl⟩ : ∃ b : Nat, y = b := ⟨y.natAbs, by omega⟩
    simp [Int.neg_tdiv, Int.tdiv_eq_ediv_of_nonneg]
  · rw [decide_eq_false hx.not_gt, decide_eq_true hy]
    obtain ⟨a, rfl⟩ : ∃ a : Nat, x = a := ⟨x.natAbs, by omega⟩
    obtain ⟨b, rfl⟩ : ∃ b : Nat, y = -b := ⟨y.natAbs, by omega⟩
    simp [Int.tdiv_neg, Int.tdiv_eq_ediv_of_nonneg]
  · rw [decide_eq_false hx.not_gt, decide_eq_false hy.not_gt]
    obtain ⟨a, rfl⟩ : ∃ a : Nat, x = a := ⟨x.natAbs, by omega⟩
    obtain ⟨b, rfl⟩ : ∃ b : Nat, y = b := ⟨y.natAbs, by omega⟩
    simp [Int.tdiv_eq_ediv_of_nonneg]

/-- A number of at most the size, not negative, has the same value with and without sign. -/
theorem signed_small {l : List (Fn o)} {η : Env} {n : Nat} (hl : l.length = n) (hn : 0 < n) (h : (unsigned l η : Int) < 2 ^ (n - 1)) :
    signed l η = unsigned l η := by
  have h0 : (0:Int) < 2 ^ (n - 1) := by positivity
  exact signed_of_mod (n := n - 1) (k := 0) (by omega) (by simp) (by omega) h

theorem zx2_ok (a b : List (Fn o)) : ∃ x y, zx2 a b = .ok (x, y) ∧ x.length = max a.length b.length ∧
    y.length = max a.length b.length ∧ ∀ η, unsigned x η = unsigned a η ∧ unsigned y η = unsigned b η := by
  obtain ⟨x, h1, h2, h3⟩ := zx_ok (l := max a.length b.length) (bv := a) (by omega)
  obtain ⟨y, g1, g2, g3⟩ := zx_ok (l := max a.length b.length) (bv := b) (by omega)
  exact ⟨x, y, by simp [zx2, h1, g1, Out.bind], h2, g2, fun η => ⟨h3 η, g3 η⟩⟩

end Voss.Gen
