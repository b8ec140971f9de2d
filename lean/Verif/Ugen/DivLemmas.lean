import Verif.Ugen.Lemmas
/-
Lemmas about the library of bit-vectors without sign: division and shifts.
-/
namespace Voss.Ugen
open Voss.Pre Voss.Pre.Fn Voss.Gen
open Voss.Bv (uv tc)
variable {o : Order}

/-! ### Division -/

theorem cntZeros_zero (η : Env) : ∀ (l : List (Fn o)), IsConst l → unsigned l η = 0 → cntZeros l = some l.length
  | [], _, _ => rfl
  | b :: l, h, h0 => by
    rw [unsigned_cons] at h0
    have ih := cntZeros_zero η l (fun f hf => h f (List.mem_cons_of_mem _ hf)) (by omega)
    rcases h b (by simp) with rfl | rfl
    · simp at h0
    · simp [cntZeros, ih, tt_ne_ff.symm]; omega

theorem findFirstOne_pow (η : Env) : ∀ (l : List (Fn o)) (k : Nat), IsConst l → unsigned l η = 2 ^ k → findFirstOne l ≠ none
  | [], k, _, h0 => by simp [unsigned, uv, bits] at h0; exact absurd h0.symm (by positivity)
  | b :: l, k, h, h0 => by
    have hl : IsConst l := fun f hf => h f (List.mem_cons_of_mem _ hf)
    rw [unsigned_cons] at h0
    rcases h b (by simp) with rfl | rfl
    · have hlt := unsigned_lt l η
      simp at h0
      have hz : unsigned l η = 0 := by
        have hk : k < l.length + 1 := by
          refine (Nat.pow_lt_pow_iff_right (a := 2) (by omega)).1 ?_
          rw [pow_succ]; omega
        have hk2 : l.length ≤ k := by
          refine (Nat.pow_le_pow_iff_right (a := 2) (by omega)).1 ?_
          omega
        have : k = l.length := by omega
        subst this
        omega
      simp [findFirstOne, cntZeros_zero η l hl hz]
    · simp at h0
      simp only [findFirstOne, if_neg tt_ne_ff.symm]
      exact findFirstOne_pow η l k hl h0

theorem constPow2_of {l : List (Fn o)} {k : Nat} (h : ∀ η, unsigned l η = 2 ^ k) : ∃ n, constPow2 l = some n := by
  have hc : IsConst l := isConst_of_bits fun η ζ => (uv_inj _ _ (by simp) (by
    have h1 := h η
    have h2 := h ζ
    unfold unsigned at h1 h2
    rw [h1, h2]))
  unfold constPow2
  rw [depends_isConst hc]
  simp only [ne_eq, not_true_eq_false, if_false]
  exact Option.ne_none_iff_exists'.1 (findFirstOne_pow (fun _ => false) l k hc (h _))

/-- The loop of the division. -/
theorem divStep_ok {p : Fn o} {bv : List (Fn o)} {sz : Nat} (hsz : 0 < sz) (hb : bv.length = sz) :
    ∀ (ns q r : List (Fn o)), q.length = sz → r.length = sz →
    ∃ q' r', divStep p bv q r ns = .ok (q', r') ∧ q'.length = sz ∧ r'.length = sz ∧
      ∀ η, p.ev η = true → unsigned r η < unsigned bv η →
        unsigned r η * 2 ^ ns.length + unsigned ns η < 2 ^ sz →
        unsigned r' η = (unsigned r η * 2 ^ ns.length + unsigned ns η) % unsigned bv η ∧
        (unsigned q' η : Int) ≡ unsigned q η * 2 ^ ns.length +
          ((unsigned r η * 2 ^ ns.length + unsigned ns η) / unsigned bv η : Nat) [ZMOD 2 ^ sz]
  | [], q, r, hq, hr => by
    refine ⟨q, r, rfl, hq, hr, fun η _ hlt _ => ?_⟩
    simp only [List.length_nil, pow_zero, mul_one]
    have : unsigned ([] : List (Fn o)) η = 0 := rfl
    rw [this, Nat.add_zero, Nat.mod_eq_of_lt hlt, Nat.div_eq_of_lt hlt]
    simp [Int.ModEq.refl]
  | n :: ns, q, r, hq, hr => by
    obtain ⟨q0, q1, rfl⟩ := List.exists_cons_of_ne_nil (l := q) (by rintro rfl; simp at hq; omega)
    obtain ⟨r0, r1, rfl⟩ := List.exists_cons_of_ne_nil (l := r) (by rintro rfl; simp at hr; omega)
    have hl1 : (r1 ++ [n]).length = sz := by simpa using hr
    have hlq : ∀ f : Fn o, (q1 ++ [f]).length = sz := fun f => by simpa using hq
    obtain ⟨c, hc1, hc2⟩ := dbvleq_ok bv (r1 ++ [n])
    obtain ⟨d, d1, d2, d3⟩ := fbvsub_ok (a := r1 ++ [n]) (b := bv) (by rw [hl1, hb])
    rw [hl1] at d2 d3
    obtain ⟨z, z1, ⟨z2, z3⟩, z4⟩ := branch_ok (p := p) (c := c)
      (t := fun _ => (fbvsub (r1 ++ [n]) bv).bind fun d => .ok (q1 ++ [tt o], d))
      (e := fun _ => .ok (q1 ++ [ff o], r1 ++ [n])) (merge := mergePair)
      (Q := fun z => z.1.length = sz ∧ z.2.length = sz)
      (R := fun η z => unsigned z.1 η = unsigned (q1 ++ [c]) η ∧ unsigned z.2 η = if c.ev η then unsigned d η else unsigned (r1 ++ [n]) η)
      (fun p' hp => ⟨(q1 ++ [tt o], d), by simp [d1, Out.bind], ⟨hlq _, d2⟩, fun η hη => by
        have hcη := (hp η hη).2
        refine ⟨?_, by rw [if_pos hcη]⟩
        rw [unsigned_append, unsigned_append, unsigned_single, unsigned_single, hcη]; rfl⟩)
      (fun p' hp => ⟨(q1 ++ [ff o], r1 ++ [n]), rfl, ⟨hlq _, hl1⟩, fun η hη => by
        have hcη := (hp η hη).2
        refine ⟨?_, by rw [if_neg (by simp [hcη])]⟩
        rw [unsigned_append, unsigned_append, unsigned_single, unsigned_single, hcη]; rfl⟩)
      (fun x y hx hy => by
        obtain ⟨z, e1, e2, e3⟩ := mergePair_ok (c := c) hx hy
        refine ⟨z, e1, e2, fun η => ⟨fun hcη h => ?_, fun hcη h => ?_⟩⟩
        · obtain ⟨f1, f2⟩ := e3 η
          rw [if_pos hcη] at f1 f2
          unfold unsigned at h ⊢
          rw [f1, f2]; exact h
        · obtain ⟨f1, f2⟩ := e3 η
          rw [if_neg (by simp [hcη])] at f1 f2
          unfold unsigned at h ⊢
          rw [f1, f2]; exact h)
    obtain ⟨q', r', s1, s2, s3, s4⟩ := divStep_ok (p := p) hsz hb ns z.1 z.2 z2 z3
    refine ⟨q', r', ?_, s2, s3, fun η hp hlt hsmall => ?_⟩
    · simp only [divStep, tl, Out.bind, dbvgeq, hc1]
      simp only [Out.bind] at z1
      rw [z1]
      exact s1
    · have hk : 0 < 2 ^ ns.length := by positivity
      have hrlen : r1.length + 1 = sz := by simpa using hr
      have e2 : unsigned (n :: ns) η = (n.ev η).toNat * 2 ^ ns.length + unsigned ns η := unsigned_cons n ns η
      have hX : unsigned (r0 :: r1) η * 2 ^ (n :: ns).length + unsigned (n :: ns) η =
          (2 * unsigned (r0 :: r1) η + (n.ev η).toNat) * 2 ^ ns.length + unsigned ns η := by
        rw [e2, List.length_cons, pow_succ]; ring
      rw [hX] at hsmall ⊢
      have hlt2 : 2 * unsigned (r0 :: r1) η + (n.ev η).toNat < 2 ^ sz := by
        by_contra hge
        have := Nat.mul_le_mul (Nat.le_of_not_lt hge) (Nat.one_le_iff_ne_zero.2 hk.ne')
        omega
      have hr0 : r0.ev η = false := by
        refine (clear_cons r0 r1 η).1 ?_
        unfold Clear
        rw [hr]
        omega
      have hR2 : unsigned (r1 ++ [n]) η = 2 * unsigned (r0 :: r1) η + (n.ev η).toNat := by
        rw [unsigned_append, unsigned_single, unsigned_cons, hr0]
        simp
        ring
      have hcη : c.ev η = decide (unsigned bv η ≤ 2 * unsigned (r0 :: r1) η + (n.ev η).toNat) := by
        rw [hc2 η, hR2]
      obtain ⟨zq, zr⟩ := z4 η hp
      have hqz : (unsigned z.1 η : Int) ≡ 2 * unsigned (q0 :: q1) η + (c.ev η).toNat [ZMOD 2 ^ sz] := by
        have := unsigned_tail (q0 :: q1) c η (by simp)
        rw [hq, List.tail_cons] at this
        rw [zq]
        exact this
      by_cases hge : unsigned bv η ≤ 2 * unsigned (r0 :: r1) η + (n.ev η).toNat
      · have hct : c.ev η = true := by rw [hcη]; simpa using hge
        rw [hct] at hqz
        rw [if_pos hct] at zr
        have hd : unsigned d η = 2 * unsigned (r0 :: r1) η + (n.ev η).toNat - unsigned bv η := by
          have := d3 η
          have hlt3 := unsigned_lt (r1 ++ [n]) η
          rw [hl1] at hlt3
          rw [Int.emod_eq_of_lt (by rw [hR2]; omega) (by
            have : (unsigned (r1 ++ [n]) η : Int) < 2 ^ sz := by exact_mod_cast hlt3
            omega), hR2] at this
          omega
        rw [hd] at zr
        have hlast : (n.ev η).toNat ≤ 1 := by cases n.ev η <;> simp
        have hsm : unsigned z.2 η * 2 ^ ns.length + unsigned ns η + unsigned bv η * 2 ^ ns.length =
            (2 * unsigned (r0 :: r1) η + (n.ev η).toNat) * 2 ^ ns.length + unsigned ns η := by
          rw [zr, Nat.sub_mul]
          have := Nat.mul_le_mul_right (2 ^ ns.length) hge
          omega
        obtain ⟨t1, t2⟩ := s4 η hp (by rw [zr]; omega) (by omega)
        rw [← hsm]
        have hbn : 0 < unsigned bv η := by omega
        refine ⟨?_, ?_⟩
        · rw [t1, Nat.add_mul_mod_self_left]
        · rw [Nat.add_mul_div_left _ _ hbn]
          refine t2.trans (((hqz.mul_right _).add_right _).trans ?_)
          have e : (2 * (unsigned (q0 :: q1) η : Int) + (true.toNat : Nat)) * 2 ^ ns.length +
              ((unsigned z.2 η * 2 ^ ns.length + unsigned ns η) / unsigned bv η : Nat) =
              (unsigned (q0 :: q1) η : Int) * 2 ^ (n :: ns).length +
              (((unsigned z.2 η * 2 ^ ns.length + unsigned ns η) / unsigned bv η + 2 ^ ns.length : Nat) : Int) := by
            rw [List.length_cons, pow_succ]; push_cast; simp; ring
          rw [e]
      · have hct : c.ev η = false := by rw [hcη]; simpa using hge
        rw [hct] at hqz
        rw [if_neg (by simp [hct]), hR2] at zr
        obtain ⟨t1, t2⟩ := s4 η hp (by rw [zr]; omega) (by rw [zr]; omega)
        rw [zr] at t1 t2
        refine ⟨t1, t2.trans (((hqz.mul_right _).add_right _).trans ?_)⟩
        have e : (2 * (unsigned (q0 :: q1) η : Int) + (false.toNat : Nat)) * 2 ^ ns.length =
            (unsigned (q0 :: q1) η : Int) * 2 ^ (n :: ns).length := by
          rw [List.length_cons, pow_succ]; push_cast; simp; ring
        rw [e]

theorem fixedExtDiv_ok {p : Fn o} {a b : List (Fn o)} (ha : a ≠ []) (h : a.length = b.length) :
    ∃ q r, fixedExtDiv p a b = .ok (q, r) ∧ q.length = a.length ∧ r.length = a.length ∧
      ∀ η, p.ev η = true → 0 < unsigned b η →
        ((∃ n, constPow2 b = some n) ∨ 2 * (unsigned a η / unsigned b η) < 2 ^ a.length →
          unsigned q η = unsigned a η / unsigned b η) ∧
        ((∃ n, constPow2 b = some n) ∨ 2 * (unsigned a η % unsigned b η) < 2 ^ a.length →
          unsigned r η = unsigned a η % unsigned b η) := by
  have hpos : 0 < a.length := List.length_pos_iff.2 ha
  cases hc : constPow2 b with
  | some n =>
    obtain ⟨h1, h2⟩ := constPow2_spec hc
    refine ⟨List.replicate n (ff o) ++ butlastn n a, List.replicate (a.length - n) (ff o) ++ lastn n a, ?_, ?_, ?_,
      fun η _ _ => ⟨fun _ => ?_, fun _ => ?_⟩⟩
    · simp [fixedExtDiv, h, hc]
    · simp [butlastn]; omega
    · simp [lastn]
      try omega
    · rw [unsigned_append, unsigned_ff, unsigned_butlastn (by omega), h2]; simp
    · rw [unsigned_append, unsigned_ff, unsigned_lastn (by omega), h2]; simp
  | none =>
    obtain ⟨q, r, h1, h2, h3, h4⟩ := divStep_ok (p := p) (bv := b) hpos h.symm a (List.replicate a.length (ff o))
      (List.replicate a.length (ff o)) (by simp) (by simp)
    have hqn : q ≠ [] := by rintro rfl; simp at h2; omega
    have hrn : r ≠ [] := by rintro rfl; simp at h3; omega
    obtain ⟨q', y1, y2, y3⟩ := zx_ok (l := a.length) (bv := bvTrim q) (by have := bvTrim_length q hqn; omega)
    obtain ⟨r', z1, z2, z3⟩ := zx_ok (l := a.length) (bv := bvTrim r) (by have := bvTrim_length r hrn; omega)
    refine ⟨q', r', ?_, y2, z2, fun η hp hb => ?_⟩
    · simp only [fixedExtDiv]
      rw [if_neg (by simpa using h), hc]
      simp only [h1, Out.bind, y1, z1]
    · have hlt := unsigned_lt a η
      obtain ⟨t1, t2⟩ := h4 η hp (by rw [unsigned_ff]; omega) (by rw [unsigned_ff]; simpa using hlt)
      rw [unsigned_ff] at t1 t2
      simp only [Nat.cast_zero, zero_mul, zero_add] at t1 t2
      have hq : unsigned q η = unsigned a η / unsigned b η := by
        have hle : unsigned a η / unsigned b η ≤ unsigned a η := Nat.div_le_self _ _
        have hdl : ((unsigned a η / unsigned b η : Nat) : Int) < 2 ^ a.length := by
          have : unsigned a η / unsigned b η < 2 ^ a.length := by omega
          exact_mod_cast this
        have hql : (unsigned q η : Int) < 2 ^ a.length := by
          have := unsigned_lt q η
          rw [h2] at this
          exact_mod_cast this
        have e := t2
        unfold Int.ModEq at e
        rw [Int.emod_eq_of_lt (Int.natCast_nonneg _) hql, Int.emod_eq_of_lt (Int.natCast_nonneg _) hdl] at e
        exact_mod_cast e
      refine ⟨fun hs => ?_, fun hs => ?_⟩
      · rcases hs with ⟨n, hn⟩ | hs
        · simp at hn
        · rw [y3, (trim_clear η q (by unfold Clear; rw [hq, h2]; exact hs)).1, hq]
      · rcases hs with ⟨n, hn⟩ | hs
        · simp at hn
        · rw [z3, (trim_clear η r (by unfold Clear; rw [t1, h3]; exact hs)).1, t1]

/-! ### Shifts -/

theorem shiftBy_ok {p : Fn o} {step : List (Fn o) → List (Fn o)}
    {zero a b : List (Fn o)} {n : Nat} (hn : 0 < n) (ha : a.length = n) (hb : b.length = n) (hz : zero.length = n)
    (hstep : ∀ l : List (Fn o), l.length = n → (step l).length = n)
    {sb : Env → List Bool → List Bool} (hsb : ∀ l η, l.length = n → bits (step l) η = sb η (bits l η)) :
    ∃ r, shiftBy p step zero a b = .ok r ∧ r.length = n ∧
      ∀ η, p.ev η = true → ∀ d : Nat, (d : Int) = ((unsigned b η : Int) - unsigned zero η) % 2 ^ n →
        bits r η = if n ≤ unsigned b η then bits zero η else if d < n then (sb η)^[d] (bits a η) else bits zero η := by
  obtain ⟨k, k1, -, k2, k3⟩ := int2fbv_ok (o := o) n (v := (n : Int)) (by omega)
  obtain ⟨one, o1, -, o2, o3⟩ := int2fbv_ok (o := o) n (v := 1) (by omega)
  have hw : width n ≤ n := (width_le hn).2 Nat.lt_two_pow_self
  have hw1 : width 1 ≤ n := (width_le hn).2 (by have := Nat.lt_two_pow_self (n := n); omega)
  have k2 : k.length = n := by rw [k2, Int.toNat_natCast]; omega
  have o2 : one.length = n := by rw [o2, Int.toNat_one]; omega
  have k3 : ∀ η, unsigned k η = n := fun η => by exact_mod_cast k3 η
  have hone : ∀ η, unsigned one η = 1 := fun η => by exact_mod_cast o3 η
  obtain ⟨c, c1, c2⟩ := fbvleq_ok (a := k) (b := b) (by omega)
  simp only [shiftBy, ha, hb, ne_eq, not_true_eq_false, if_false, k1, Out.bind, fbvgeq, c1, o1]
  refine branchList_ok (n := n) (R := fun η l => ∀ d : Nat, (d : Int) = ((unsigned b η : Int) - unsigned zero η) % 2 ^ n →
        l = if n ≤ unsigned b η then bits zero η else if d < n then (sb η)^[d] (bits a η) else bits zero η)
    (fun p' hp => ⟨zero, rfl, hz, fun η hη d hd => ?_⟩) (fun p' hp => ?_)
  · have hcη := (hp η hη).2
    rw [c2 η, k3] at hcη
    rw [if_pos (of_decide_eq_true hcη)]
  · obtain ⟨r, r1, r2, r3⟩ := shift_ok hz o2 hone hstep hsb n p' a b ha hb
    refine ⟨r, r1, r2, fun η hη d hd => ?_⟩
    have hcη := (hp η hη).2
    rw [c2 η, k3] at hcη
    rw [if_neg (of_decide_eq_false hcη)]
    exact r3 η hη d hd

/-- With zeros for the comparison, the count is that of the vector. -/
theorem shiftBy_zero {p : Fn o} {step : List (Fn o) → List (Fn o)}
    {a b : List (Fn o)} {n : Nat} (hn : 0 < n) (ha : a.length = n) (hb : b.length = n)
    (hstep : ∀ l : List (Fn o), l.length = n → (step l).length = n)
    {sb : List Bool → List Bool} (hsb : ∀ l η, l.length = n → bits (step l) η = sb (bits l η)) :
    ∃ r, shiftBy p step (List.replicate n (ff o)) a b = .ok r ∧ r.length = n ∧
      ∀ η, p.ev η = true → unsigned r η = if unsigned b η < n then uv (sb^[unsigned b η] (bits a η)) else 0 := by
  obtain ⟨r, r1, r2, r3⟩ := shiftBy_ok (p := p) (zero := List.replicate n (ff o)) hn ha hb (by simp) hstep (sb := fun _ => sb) hsb
  refine ⟨r, r1, r2, fun η hp => ?_⟩
  have hlt := unsigned_lt b η
  rw [hb] at hlt
  have e := r3 η hp (unsigned b η) (by
    rw [unsigned_ff, Int.emod_eq_of_lt (by omega) (by simp only [Nat.cast_zero, sub_zero]; exact_mod_cast hlt)]; simp)
  have e2 := unsigned_ff (o := o) n η
  unfold unsigned at e2
  by_cases hs : n ≤ unsigned b η
  · rw [if_pos hs] at e
    rw [if_neg (by omega), ← e2, ← e]; rfl
  · rw [if_neg hs, if_pos (by omega)] at e
    rw [if_pos (by omega), ← e]; rfl

theorem fbvshr_ok {p : Fn o} {a b : List (Fn o)} (hn : 0 < a.length) (h : a.length = b.length) :
    ∃ r, fbvshr p a b = .ok r ∧ r.length = a.length ∧
      ∀ η, p.ev η = true → unsigned r η = unsigned a η / 2 ^ unsigned b η := by
  obtain ⟨r, h1, h2, h3⟩ := shiftBy_zero (p := p) (step := fun cur => [ff o] ++ butlastn 1 cur) (a := a) (b := b) hn rfl h.symm
    (fun l hl => by simp [butlastn]; omega)
    (sb := fun l => [false] ++ l.take (l.length - 1)) (fun l η _ => by simpa using bits_butlastn (ff o) l η)
  refine ⟨r, h1, h2, fun η hp => ?_⟩
  have hlt := unsigned_lt a η
  rw [h3 η hp]
  split
  · rw [uv_shr a.length hn _ _ (by simp)]; rfl
  · rw [Nat.div_eq_of_lt]
    exact lt_of_lt_of_le hlt (Nat.pow_le_pow_right (by omega) (by omega))

theorem fbvshl_ok {p : Fn o} {a b : List (Fn o)} (hn : 0 < a.length) (h : a.length = b.length) :
    ∃ r, fbvshl p a b = .ok r ∧ r.length = a.length ∧
      ∀ η, p.ev η = true → unsigned r η = unsigned a η * 2 ^ unsigned b η % 2 ^ a.length := by
  obtain ⟨r, h1, h2, h3⟩ := shiftBy_zero (p := p) (step := fun cur => cur.tail ++ [ff o]) (a := a) (b := b) hn rfl h.symm
    (fun l hl => by simp; omega)
    (sb := fun l => l.tail ++ [false]) (fun l η _ => by simp [bits])
  refine ⟨r, h1, h2, fun η hp => ?_⟩
  rw [h3 η hp]
  split
  · rw [(uv_shl a.length hn _ _ (by simp)).2]; rfl
  · obtain ⟨k, hk⟩ := Nat.exists_eq_add_of_le (show a.length ≤ unsigned b η by omega)
    rw [hk, pow_add, Nat.mul_left_comm, Nat.mul_mod_right]

theorem fbvashr_ok {p : Fn o} {a b : List (Fn o)} (hn : 0 < a.length) (h : a.length = b.length) :
    ∃ r, fbvashr p a b = .ok r ∧ r.length = a.length ∧ ∀ η, p.ev η = true →
      (0 ≤ signed a η → signed r η = signed a η / 2 ^ unsigned b η) ∧
      (signed a η < 0 → signed r η = signed a η / 2 ^ (unsigned b η + 1)) := by
  obtain ⟨x, as, rfl⟩ := List.exists_cons_of_ne_nil (l := a) (by rintro rfl; simp at hn)
  generalize hnd : (x :: as).length = n at *
  have hal : as.length + 1 = n := by simpa using hnd
  obtain ⟨r, h1, h2, h3⟩ := shiftBy_ok (p := p) (step := fun cur => [x] ++ butlastn 1 cur)
    (zero := List.replicate n x) (a := x :: as) (b := b) hn hnd h.symm (by simp)
    (fun l hl => by simp [butlastn]; omega)
    (sb := fun η l => [x.ev η] ++ l.take (l.length - 1)) (fun l η _ => bits_butlastn x l η)
  refine ⟨r, by simpa [fbvashr, hd, Out.bind, hal] using h1, h2, fun η hp => ?_⟩
  have h3 := h3 η hp
  have hblt := unsigned_lt b η
  rw [← h] at hblt
  have hrep : bits (List.replicate n x) η = List.replicate (as.length + 1) (x.ev η) := by simp [bits, hal]
  have hneg : signed (x :: as) η < 0 ↔ x.ev η = true := tc_neg_head (x.ev η) (bits as η)
  have big : ∀ d : Nat, n ≤ d → bits r η = bits (List.replicate n x) η → signed r η = signed (x :: as) η / 2 ^ d := by
    intro d hd e
    unfold signed
    rw [e, hrep, tc_replicate]
    exact (tc_div_big (x.ev η) (bits as η) d (by simp; omega)).symm
  have main : ∀ d : Nat, (d : Int) = ((unsigned b η : Int) - unsigned (List.replicate n x) η) % 2 ^ n →
      (n ≤ unsigned b η → n ≤ d) → signed r η = signed (x :: as) η / 2 ^ d := by
    intro d hd hsb
    have e := h3 d hd
    by_cases hdn : d < n
    · rw [if_neg (by intro hc; have := hsb hc; omega), if_pos hdn] at e
      obtain ⟨m, m1, m2⟩ := head_shr (x.ev η) d (bits as η)
      have e : bits r η = x.ev η :: m := by rw [e, ← m1]; rfl
      unfold signed
      rw [e, m2]; rfl
    · exact big d (by omega) (by rw [e]; simp [hdn])
  have hzu : unsigned (List.replicate n x) η = if x.ev η then 2 ^ n - 1 else 0 := by
    unfold unsigned
    rw [hrep, uv_replicate, hal]
  have hp2 : 0 < 2 ^ n := by positivity
  have hblt' : (unsigned b η : Int) < 2 ^ n := by exact_mod_cast hblt
  have hself : n < 2 ^ n := Nat.lt_two_pow_self
  refine ⟨fun h0 => ?_, fun h0 => ?_⟩
  · refine main _ ?_ id
    rw [hzu, if_neg (by rw [← hneg]; omega)]
    simp only [Nat.cast_zero, sub_zero]
    rw [Int.emod_eq_of_lt (by omega) hblt']
  · by_cases hbig : n ≤ unsigned b η
    · refine big _ (by omega) ?_
      have e := h3 (((unsigned b η : Int) - unsigned (List.replicate n x) η) % 2 ^ n).toNat
        (Int.toNat_of_nonneg (Int.emod_nonneg _ (by positivity)))
      rw [e, if_pos hbig]
    · refine main _ ?_ (fun hc => absurd hc hbig)
      rw [hzu, if_pos (hneg.1 h0)]
      have e : (unsigned b η : Int) - ((2 ^ n - 1 : Nat) : Int) = (unsigned b η + 1 : Nat) + 2 ^ n * (-1) := by
        rw [Nat.cast_sub (by omega)]; push_cast; ring
      rw [e, Int.add_mul_emod_self_left, Int.emod_eq_of_lt (by omega)]
      have : unsigned b η + 1 < 2 ^ n := by omega
      exact_mod_cast this

end Voss.Ugen
