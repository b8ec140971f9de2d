import Verif.Gen.ArithLemmas
/-
Lemmas about the library of bit-vectors: division and shifts.
-/
namespace Voss.Gen
open Voss.Pre Voss.Pre.Fn
open Voss.Bv (uv tc)
variable {o : Order}

/-! ### Division -/

theorem tt_ne_ff : tt o ≠ ff o := fun h => by have := congrArg (fun f => f.ev fun _ => false) h; simp at this

theorem cntZeros_spec : ∀ (l : List (Fn o)) (n : Nat), IsConst l → cntZeros l = some n → n = l.length ∧ ∀ η, unsigned l η = 0
  | [], n, _, h => by simp [cntZeros] at h; simp [← h, unsigned, uv]
  | b :: bs, n, hc, h => by
    unfold cntZeros at h
    cases hr : cntZeros bs with
    | none => simp [hr] at h
    | some m =>
      obtain ⟨h1, h2⟩ := cntZeros_spec bs m (fun f hf => hc f (List.mem_cons_of_mem _ hf)) hr
      rcases hc b (by simp) with rfl | rfl
      · simp [hr] at h
      · simp [hr, tt_ne_ff.symm] at h
        refine ⟨by simp; omega, fun η => ?_⟩
        rw [unsigned_cons, h2]
        simp

theorem findFirstOne_spec : ∀ (l : List (Fn o)) (n : Nat), IsConst l → findFirstOne l = some n →
    n < l.length ∧ ∀ η, unsigned l η = 2 ^ n
  | [], n, _, h => by simp [findFirstOne] at h
  | b :: bs, n, hc, h => by
    have hc' : IsConst bs := fun f hf => hc f (List.mem_cons_of_mem _ hf)
    unfold findFirstOne at h
    rcases hc b (by simp) with rfl | rfl
    · simp at h
      obtain ⟨h1, h2⟩ := cntZeros_spec bs n hc' h
      refine ⟨by simp; omega, fun η => ?_⟩
      rw [unsigned_cons, h2, h1]
      simp
    · simp [tt_ne_ff.symm] at h
      obtain ⟨h1, h2⟩ := findFirstOne_spec bs n hc' h
      refine ⟨by simp; omega, fun η => ?_⟩
      rw [unsigned_cons, h2]
      simp

theorem constPow2_spec {l : List (Fn o)} {n : Nat} (h : constPow2 l = some n) : n < l.length ∧ ∀ η, unsigned l η = 2 ^ n := by
  unfold constPow2 at h
  split at h
  · simp at h
  · rename_i hd
    exact findFirstOne_spec l n (isConst_depends (by simpa using hd)) h

theorem mergePair_ok {c : Fn o} {x y : List (Fn o) × List (Fn o)} {n : Nat} (h1 : x.1.length = n ∧ x.2.length = n)
    (h2 : y.1.length = n ∧ y.2.length = n) :
    ∃ z, mergePair c x y = .ok z ∧ (z.1.length = n ∧ z.2.length = n) ∧
      ∀ η, (bits z.1 η = if c.ev η then bits x.1 η else bits y.1 η) ∧ (bits z.2 η = if c.ev η then bits x.2 η else bits y.2 η) := by
  obtain ⟨a, a1, a2, a3⟩ := mergeList_ok (c := c) (x := x.1) (y := y.1) (by omega)
  obtain ⟨b, b1, b2, b3⟩ := mergeList_ok (c := c) (x := x.2) (y := y.2) (by omega)
  exact ⟨(a, b), by simp [mergePair, a1, b1, Out.bind], ⟨by simp only; omega, by simp only; omega⟩, fun η => ⟨a3 η, b3 η⟩⟩

/-- One step of the division: nothing fails, and small numbers are divided. -/
theorem divStep_ok {p : Fn o} {bv : List (Fn o)} {sz : Nat} (hsz : 0 < sz) (hb : bv.length = sz) :
    ∀ (ns q r : List (Fn o)), q.length = sz → r.length = sz →
    ∃ q' r', divStep p bv q r ns = .ok (q', r') ∧ q'.length = sz ∧ r'.length = sz ∧
      ∀ η, p.ev η = true → 0 < signed bv η → unsigned r η < unsigned bv η →
        unsigned r η * 2 ^ ns.length + unsigned ns η < 2 ^ (sz - 1) ∨ 2 * unsigned bv η ≤ 2 ^ (sz - 1) →
        unsigned r' η = (unsigned r η * 2 ^ ns.length + unsigned ns η) % unsigned bv η ∧
        (unsigned q' η : Int) ≡ unsigned q η * 2 ^ ns.length +
          ((unsigned r η * 2 ^ ns.length + unsigned ns η) / unsigned bv η : Nat) [ZMOD 2 ^ sz]
  | [], q, r, hq, hr => by
    refine ⟨q, r, rfl, hq, hr, fun η _ _ hlt _ => ?_⟩
    simp only [List.length_nil, pow_zero, Nat.mul_one, mul_one]
    have : unsigned ([] : List (Fn o)) η = 0 := rfl
    rw [this, Nat.add_zero, Nat.mod_eq_of_lt hlt, Nat.div_eq_of_lt hlt]
    simp [Int.ModEq.refl]
  | n :: ns, q, r, hq, hr => by
    obtain ⟨q0, q1, rfl⟩ := List.exists_cons_of_ne_nil (l := q) (by rintro rfl; simp at hq; omega)
    obtain ⟨r0, r1, rfl⟩ := List.exists_cons_of_ne_nil (l := r) (by rintro rfl; simp at hr; omega)
    have hbne : bv ≠ [] := by rintro rfl; simp at hb; omega
    have hl1 : (r1 ++ [n]).length = sz := by simpa using hr
    have hlq : ∀ f : Fn o, (q1 ++ [f]).length = sz := fun f => by simpa using hq
    obtain ⟨c, hc1, hc2⟩ := dbvleq_ok (p := p) (a := bv) (b := r1 ++ [n]) hbne (by simp)
    obtain ⟨d, d1, d2, d3⟩ := fbvsub_ok (a := r1 ++ [n]) (b := bv) (by rw [hl1, hb])
    rw [hl1] at d2 d3
    obtain ⟨z, z1, ⟨z2, z3⟩, z4⟩ := branch_ok (p := p) (c := c)
      (t := fun _ => (fbvsub (r1 ++ [n]) bv).bind fun d => .ok (q1 ++ [tt o], d))
      (e := fun _ => .ok (q1 ++ [ff o], r1 ++ [n])) (merge := mergePair)
      (Q := fun z => z.1.length = sz ∧ z.2.length = sz)
      (R := fun η z => unsigned z.1 η = unsigned (q1 ++ [c]) η ∧ unsigned z.2 η = if c.ev η then unsigned d η else unsigned (r1 ++ [n]) η)
      (fun p' hp => ⟨(q1 ++ [tt o], d), by simp [d1, Out.bind], ⟨hlq _, d2⟩, fun η hη => by
        have hcη := (hp η hη).2
        refine ⟨?_, by rw [if_pos hcη]⟩
        rw [unsigned_append, unsigned_append, unsigned_single, unsigned_single, hcη]; rfl⟩)
      (fun p' hp => ⟨(q1 ++ [ff o], r1 ++ [n]), rfl, ⟨hlq _, hl1⟩, fun η hη => by
        have hcη := (hp η hη).2
        refine ⟨?_, by rw [if_neg (by simp [hcη])]⟩
        rw [unsigned_append, unsigned_append, unsigned_single, unsigned_single, hcη]; rfl⟩)
      (fun x y hx hy => by
        obtain ⟨z, e1, e2, e3⟩ := mergePair_ok (c := c) hx hy
        refine ⟨z, e1, e2, fun η => ⟨fun hcη h => ?_, fun hcη h => ?_⟩⟩
        · obtain ⟨f1, f2⟩ := e3 η
          rw [if_pos hcη] at f1 f2
          unfold unsigned at h ⊢
          rw [f1, f2]; exact h
        · obtain ⟨f1, f2⟩ := e3 η
          rw [if_neg (by simp [hcη])] at f1 f2
          unfold unsigned at h ⊢
          rw [f1, f2]; exact h)
    obtain ⟨q', r', s1, s2, s3, s4⟩ := divStep_ok (p := p) hsz hb ns z.1 z.2 z2 z3
    refine ⟨q', r', ?_, s2, s3, fun η hp hbpos hlt hsmall => ?_⟩
    · simp only [divStep, tl, Out.bind, dbvgeq, hc1]
      simp only [Out.bind] at z1
      rw [z1]
      exact s1
    · have hbu : (unsigned bv η : Int) = signed bv η := unsigned_signed (by omega)
      have hk : 0 < 2 ^ ns.length := by positivity
      -- the remainder shifted left
      have hrlen : r1.length + 1 = sz := by simpa using hr
      have e2 : unsigned (n :: ns) η = (n.ev η).toNat * 2 ^ ns.length + unsigned ns η := unsigned_cons n ns η
      have hX : unsigned (r0 :: r1) η * 2 ^ (n :: ns).length + unsigned (n :: ns) η =
          (2 * unsigned (r0 :: r1) η + (n.ev η).toNat) * 2 ^ ns.length + unsigned ns η := by
        rw [e2, List.length_cons, pow_succ]; ring
      rw [hX] at hsmall ⊢
      have hlt2 : 2 * unsigned (r0 :: r1) η + (n.ev η).toNat < 2 ^ (sz - 1) := by
        rcases hsmall with hsmall | hsmall
        · by_contra hge
          have := Nat.mul_le_mul (Nat.le_of_not_lt hge) (Nat.one_le_iff_ne_zero.2 hk.ne')
          omega
        · have hlast : (n.ev η).toNat ≤ 1 := by cases n.ev η <;> simp
          omega
      have hr0 : r0.ev η = false := by
        cases hh : r0.ev η
        · rfl
        · have := unsigned_cons r0 r1 η
          rw [hh] at this
          have e : r1.length = sz - 1 := by omega
          rw [e] at this
          simp at this
          omega
      have hR2 : unsigned (r1 ++ [n]) η = 2 * unsigned (r0 :: r1) η + (n.ev η).toNat := by
        rw [unsigned_append, unsigned_single, unsigned_cons, hr0]
        simp
        ring
      have hs2 : signed (r1 ++ [n]) η = unsigned (r1 ++ [n]) η := by
        have h0 : (0:Int) < 2 ^ (sz - 1) := by positivity
        refine signed_of_mod (n := sz - 1) (k := 0) (by rw [hl1]; omega) (by simp) (by omega) ?_
        rw [hR2]
        exact_mod_cast hlt2
      have hcη := hc2 η hp
      have hcη : c.ev η = decide (unsigned bv η ≤ 2 * unsigned (r0 :: r1) η + (n.ev η).toNat) := by
        rw [hcη]
        exact decide_eq_decide.2 (by rw [hs2, ← hbu, hR2]; omega)
      obtain ⟨zq, zr⟩ := z4 η hp
      have hqz : (unsigned z.1 η : Int) ≡ 2 * unsigned (q0 :: q1) η + (c.ev η).toNat [ZMOD 2 ^ sz] := by
        have := unsigned_tail (q0 :: q1) c η (by simp)
        rw [hq, List.tail_cons] at this
        rw [zq]
        exact this
      by_cases hge : unsigned bv η ≤ 2 * unsigned (r0 :: r1) η + (n.ev η).toNat
      · have hct : c.ev η = true := by rw [hcη]; simpa using hge
        rw [hct] at hqz
        rw [if_pos hct] at zr
        have hd : unsigned d η = 2 * unsigned (r0 :: r1) η + (n.ev η).toNat - unsigned bv η := by
          have := d3 η
          have hlt3 := unsigned_lt (r1 ++ [n]) η
          rw [hl1] at hlt3
          rw [Int.emod_eq_of_lt (by rw [hR2]; omega) (by
            have : (unsigned (r1 ++ [n]) η : Int) < 2 ^ sz := by exact_mod_cast hlt3
            omega), hR2] at this
          omega
        rw [hd] at zr
        have hlast : (n.ev η).toNat ≤ 1 := by cases n.ev η <;> simp
        have hsm : unsigned z.2 η * 2 ^ ns.length + unsigned ns η + unsigned bv η * 2 ^ ns.length =
            (2 * unsigned (r0 :: r1) η + (n.ev η).toNat) * 2 ^ ns.length + unsigned ns η := by
          rw [zr, Nat.sub_mul]
          have := Nat.mul_le_mul_right (2 ^ ns.length) hge
          omega
        obtain ⟨t1, t2⟩ := s4 η hp hbpos (by rw [zr]; omega) (by omega)
        rw [← hsm]
        have hbn : 0 < unsigned bv η := by omega
        refine ⟨?_, ?_⟩
        · rw [t1, Nat.add_mul_mod_self_left]
        · rw [Nat.add_mul_div_left _ _ hbn]
          refine t2.trans (((hqz.mul_right _).add_right _).trans ?_)
          have e : (2 * (unsigned (q0 :: q1) η : Int) + (true.toNat : Nat)) * 2 ^ ns.length +
              ((unsigned z.2 η * 2 ^ ns.length + unsigned ns η) / unsigned bv η : Nat) =
              (unsigned (q0 :: q1) η : Int) * 2 ^ (n :: ns).length +
              (((unsigned z.2 η * 2 ^ ns.length + unsigned ns η) / unsigned bv η + 2 ^ ns.length : Nat) : Int) := by
            rw [List.length_cons, pow_succ]; push_cast; simp; ring
          rw [e]
      · have hct : c.ev η = false := by rw [hcη]; simpa using hge
        rw [hct] at hqz
        rw [if_neg (by simp [hct]), hR2] at zr
        obtain ⟨t1, t2⟩ := s4 η hp hbpos (by rw [zr]; omega) (by rw [zr]; omega)
        rw [zr] at t1 t2
        refine ⟨t1, t2.trans (((hqz.mul_right _).add_right _).trans ?_)⟩
        have e : (2 * (unsigned (q0 :: q1) η : Int) + (false.toNat : Nat)) * 2 ^ ns.length =
            (unsigned (q0 :: q1) η : Int) * 2 ^ (n :: ns).length := by
          rw [List.length_cons, pow_succ]; push_cast; simp; ring
        rw [e]

/-- The division gives quotient and remainder of numbers that are not negative. -/
theorem fixedExtDiv_ok {p : Fn o} {a b : List (Fn o)} (ha : a ≠ []) (h : a.length = b.length) :
    ∃ q r, fixedExtDiv p a b = .ok (q, r) ∧ q.length = a.length ∧ r.length = a.length ∧
      ∀ η, p.ev η = true → 0 < signed b η → 0 ≤ signed a η ∨ 2 * signed b η ≤ 2 ^ (a.length - 1) →
        unsigned q η = unsigned a η / unsigned b η ∧ unsigned r η = unsigned a η % unsigned b η := by
  have hpos : 0 < a.length := List.length_pos_iff.2 ha
  cases hc : constPow2 b with
  | some n =>
    obtain ⟨h1, h2⟩ := constPow2_spec hc
    refine ⟨List.replicate n (ff o) ++ butlastn n a, List.replicate (a.length - n) (ff o) ++ lastn n a, ?_, ?_, ?_, fun η _ _ _ => ⟨?_, ?_⟩⟩
    · simp [fixedExtDiv, h, hc]
    · simp [butlastn]; omega
    · simp [lastn]
      try omega
    · rw [unsigned_append, unsigned_ff, unsigned_butlastn (by omega), h2]; simp
    · rw [unsigned_append, unsigned_ff, unsigned_lastn (by omega), h2]; simp
  | none =>
    obtain ⟨q, r, h1, h2, h3, h4⟩ := divStep_ok (p := p) (bv := b) hpos h.symm a (List.replicate a.length (ff o))
      (List.replicate a.length (ff o)) (by simp) (by simp)
    have hqn : q ≠ [] := by rintro rfl; simp at h2; omega
    have hrn : r ≠ [] := by rintro rfl; simp at h3; omega
    obtain ⟨r', z1, z2, z3⟩ := zx_ok (l := a.length) (bv := bvTrim r) (by have := bvTrim_length r hrn; omega)
    refine ⟨q, r', ?_, h2, z2, fun η hp hb h0 => ?_⟩
    · simp only [fixedExtDiv]
      rw [if_neg (by simpa using h), hc]
      simp only [h1, Out.bind, sx_bvTrim q hqn _ h2, z1]
    · have hbu : (unsigned b η : Int) = signed b η := unsigned_signed (by omega)
      have hbd := signed_bounds ha η
      have hbn : b ≠ [] := by rintro rfl; simp at h; exact ha h
      have hbd2 := signed_bounds hbn η
      have hbs : unsigned b η < 2 ^ (a.length - 1) := by
        have := hbd2.2
        rw [← hbu, ← h] at this
        exact_mod_cast this
      have hsm : unsigned a η < 2 ^ (a.length - 1) ∨ 2 * unsigned b η ≤ 2 ^ (a.length - 1) := by
        rcases h0 with h0 | h0
        · have := hbd.2
          rw [← unsigned_signed h0] at this
          exact .inl (by exact_mod_cast this)
        · rw [← hbu] at h0
          exact .inr (by exact_mod_cast h0)
      obtain ⟨t1, t2⟩ := h4 η hp hb (by rw [unsigned_ff]; omega) (by rw [unsigned_ff]; simpa using hsm)
      rw [unsigned_ff] at t1 t2
      simp only [Nat.zero_mul, Nat.zero_add, Nat.cast_zero, zero_mul, zero_add] at t1 t2
      refine ⟨?_, ?_⟩
      · have hlt := unsigned_lt a η
        have hle : unsigned a η / unsigned b η ≤ unsigned a η := Nat.div_le_self _ _
        have hdl : ((unsigned a η / unsigned b η : Nat) : Int) < 2 ^ a.length := by
          have : unsigned a η / unsigned b η < 2 ^ a.length := by omega
          exact_mod_cast this
        have hql : (unsigned q η : Int) < 2 ^ a.length := by
          have := unsigned_lt q η
          rw [h2] at this
          exact_mod_cast this
        have e := t2
        unfold Int.ModEq at e
        rw [Int.emod_eq_of_lt (Int.natCast_nonneg _) hql, Int.emod_eq_of_lt (Int.natCast_nonneg _) hdl] at e
        exact_mod_cast e
      · rw [z3, ← t1]
        have hrs : unsigned r η < 2 ^ (a.length - 1) := by
          rw [t1]
          have := Nat.mod_lt (unsigned a η) (y := unsigned b η) (by omega)
          omega
        have hsr : signed r η = unsigned r η := by
          have h0 : (0:Int) < 2 ^ (a.length - 1) := by positivity
          refine signed_of_mod (n := a.length - 1) (k := 0) (by omega) (by simp) (by omega) ?_
          exact_mod_cast hrs
        have := unsigned_signed (l := bvTrim r) (η := η) (by rw [signed_bvTrim, hsr]; positivity)
        rw [signed_bvTrim, hsr] at this
        exact_mod_cast this

/-! ### Shifts -/

/-- The loop of the shifts: after as many steps as the count is above `zero`, if there are that many. -/
theorem shift_ok {step : List (Fn o) → List (Fn o)} {zero one : List (Fn o)} {n : Nat} (hz : zero.length = n)
    (ho : one.length = n) (hone : ∀ η, unsigned one η = 1) (hstep : ∀ l, l.length = n → (step l).length = n)
    {sb : Env → List Bool → List Bool} (hsb : ∀ l η, l.length = n → bits (step l) η = sb η (bits l η)) :
    ∀ (i : Nat) (p : Fn o) (cur cnt : List (Fn o)), cur.length = n → cnt.length = n →
    ∃ r, shift step zero one i p cur cnt = .ok r ∧ r.length = n ∧
      ∀ η, p.ev η = true → ∀ d : Nat, (d : Int) = ((unsigned cnt η : Int) - unsigned zero η) % 2 ^ n →
        bits r η = if d < i then (sb η)^[d] (bits cur η) else bits zero η
  | 0, p, cur, cnt, _, _ => ⟨zero, rfl, hz, fun η _ d _ => by simp⟩
  | i + 1, p, cur, cnt, hcur, hcnt => by
    obtain ⟨c, c1, c2⟩ := fbveq_ok (a := cnt) (b := zero) (by omega)
    obtain ⟨cnt', s1, s2, s3⟩ := fbvsub_ok (a := cnt) (b := one) (by omega)
    rw [hcnt] at s2 s3
    simp only [shift, c1, Out.bind, s1]
    refine branchList_ok (n := n) (R := fun η l => ∀ d : Nat, (d : Int) = ((unsigned cnt η : Int) - unsigned zero η) % 2 ^ n →
        l = if d < i + 1 then (sb η)^[d] (bits cur η) else bits zero η) (fun p' hp => ⟨cur, rfl, hcur, fun η hη d hd => ?_⟩)
      (fun p' hp => ?_)
    · have hcη := (hp η hη).2
      rw [c2] at hcη
      have he := (bits_eq_unsigned (by omega) η).1 (of_decide_eq_true hcη)
      rw [he] at hd
      simp at hd
      subst hd
      simp
    · obtain ⟨r, r1, r2, r3⟩ := shift_ok hz ho hone hstep hsb i p' (step cur) cnt' (hstep cur hcur) s2
      refine ⟨r, r1, r2, fun η hη d hd => ?_⟩
      have hcη := (hp η hη).2
      rw [c2] at hcη
      have hne : unsigned cnt η ≠ unsigned zero η := fun e =>
        (of_decide_eq_false hcη) ((bits_eq_unsigned (by omega) η).2 e)
      have h1 := unsigned_lt cnt η
      have h2 := unsigned_lt zero η
      rw [hcnt] at h1
      rw [hz] at h2
      have hp2 : (0:Int) < 2 ^ n := by positivity
      have hd0 : d ≠ 0 := by
        rintro rfl
        have : ((unsigned cnt η : Int) - unsigned zero η) % 2 ^ n = 0 := by rw [← hd]; rfl
        have hdvd := Int.dvd_of_emod_eq_zero this
        obtain ⟨k, hk⟩ := hdvd
        have h1' : (unsigned cnt η : Int) < 2 ^ n := by exact_mod_cast h1
        have h2' : (unsigned zero η : Int) < 2 ^ n := by exact_mod_cast h2
        have : k = 0 := by
          have : -1 < k := by nlinarith [Int.natCast_nonneg (unsigned cnt η), Int.natCast_nonneg (unsigned zero η)]
          have : k < 1 := by nlinarith [Int.natCast_nonneg (unsigned cnt η), Int.natCast_nonneg (unsigned zero η)]
          omega
        subst this
        simp at hk
        omega
      have hd' : ((d - 1 : Nat) : Int) = ((unsigned cnt' η : Int) - unsigned zero η) % 2 ^ n := by
        rw [s3, hone, Int.emod_sub_emod]
        have hdm : (d : Int) < 2 ^ n := by rw [hd]; exact Int.emod_lt_of_pos _ hp2
        have e : (unsigned cnt η : Int) - (1 : Nat) - unsigned zero η = (unsigned cnt η - unsigned zero η) - 1 := by push_cast; ring
        rw [e, ← Int.emod_sub_emod, ← hd, Int.emod_eq_of_lt (by omega) (by omega)]
        omega
      rw [r3 η hη (d - 1) hd', hsb cur η hcur]
      by_cases hi : d < i + 1
      · rw [if_pos hi, if_pos (by omega)]
        obtain ⟨e, rfl⟩ := Nat.exists_eq_succ_of_ne_zero hd0
        rw [Function.iterate_succ_apply]
        rfl
      · rw [if_neg hi, if_neg (by omega)]

/-- Shifts of vectors of at least three bits. -/
theorem shiftBy_ok {p : Fn o} {ge : Fn o → List (Fn o) → List (Fn o) → Out (Fn o)} {step : List (Fn o) → List (Fn o)}
    {zero a b : List (Fn o)} {n : Nat} (hn : 3 ≤ n) (ha : a.length = n) (hb : b.length = n) (hz : zero.length = n)
    (hge : ∀ k : List (Fn o), k.length = n → ∃ c, ge p b k = .ok c ∧ ∀ η, p.ev η = true → c.ev η = decide (signed k η ≤ signed b η))
    (hstep : ∀ l : List (Fn o), l.length = n → (step l).length = n)
    {sb : Env → List Bool → List Bool} (hsb : ∀ l η, l.length = n → bits (step l) η = sb η (bits l η)) :
    ∃ r, shiftBy p ge step zero a b = .ok r ∧ r.length = n ∧
      ∀ η, p.ev η = true → ∀ d : Nat, (d : Int) = ((unsigned b η : Int) - unsigned zero η) % 2 ^ n →
        bits r η = if (n : Int) ≤ signed b η then bits zero η else if d < n then (sb η)^[d] (bits a η) else bits zero η := by
  have hbig : ∀ k : Nat, (k + 3 : Int) < 2 ^ (k + 2) := by
    intro k
    induction k with
    | zero => norm_num
    | succ k ih => rw [show k + 1 + 2 = (k + 2) + 1 by ring, pow_succ]; push_cast; linarith
  obtain ⟨m, rfl⟩ : ∃ m, n = m + 3 := ⟨n - 3, by omega⟩
  have hm := hbig m
  have hp2 : (0:Int) < 2 ^ (m + 2) := by positivity
  obtain ⟨k, k1, k2, k3⟩ := int2fbv_ok (o := o) (n := m + 2) (v := ((m + 3 : Nat) : Int)) (by push_cast; omega) (by push_cast; omega)
  obtain ⟨one, o1, o2, o3⟩ := int2fbv_ok (o := o) (n := m + 2) (v := 1) (by omega) (by omega)
  have hone : ∀ η, unsigned one η = 1 := by
    intro η
    have := unsigned_signed (l := one) (η := η) (by rw [o3]; omega)
    rw [o3] at this
    exact_mod_cast this
  obtain ⟨c, c1, c2⟩ := hge k (by omega)
  simp only [shiftBy, ha, hb, ne_eq, not_true_eq_false, if_false, k1, Out.bind, c1, o1]
  refine branchList_ok (n := m + 3) (R := fun η l => ∀ d : Nat, (d : Int) = ((unsigned b η : Int) - unsigned zero η) % 2 ^ (m + 3) →
        l = if ((m + 3 : Nat) : Int) ≤ signed b η then bits zero η else if d < m + 3 then (sb η)^[d] (bits a η) else bits zero η)
    (fun p' hp => ⟨zero, rfl, hz, fun η hη d hd => ?_⟩) (fun p' hp => ?_)
  · have hcη := (hp η hη).2
    rw [c2 η (hp η hη).1, k3] at hcη
    rw [if_pos (of_decide_eq_true hcη)]
  · obtain ⟨r, r1, r2, r3⟩ := shift_ok hz o2 hone hstep hsb (m + 3) p' a b ha hb
    refine ⟨r, r1, r2, fun η hη d hd => ?_⟩
    have hcη := (hp η hη).2
    rw [c2 η (hp η hη).1, k3] at hcη
    rw [if_neg (of_decide_eq_false hcη)]
    exact r3 η hη d hd

theorem sh_big (n : Nat) (hn : 1 ≤ n) : n ≤ 2 ^ (n - 1) := by
  have := Nat.lt_two_pow_self (n := n - 1)
  omega

/-- With zeros for the comparison, the count is that of the vector. -/
theorem shiftBy_zero {p : Fn o} {ge : Fn o → List (Fn o) → List (Fn o) → Out (Fn o)} {step : List (Fn o) → List (Fn o)}
    {zero a b : List (Fn o)} {n : Nat} (hn : 3 ≤ n) (ha : a.length = n) (hb : b.length = n) (hz : zero.length = n)
    (hge : ∀ k : List (Fn o), k.length = n → ∃ c, ge p b k = .ok c ∧ ∀ η, p.ev η = true → c.ev η = decide (signed k η ≤ signed b η))
    (hstep : ∀ l : List (Fn o), l.length = n → (step l).length = n)
    {sb : Env → List Bool → List Bool} (hsb : ∀ l η, l.length = n → bits (step l) η = sb η (bits l η)) :
    ∃ r, shiftBy p ge step zero a b = .ok r ∧ r.length = n ∧
      ∀ η, p.ev η = true → unsigned zero η = 0 →
        bits r η = if unsigned b η < n then (sb η)^[unsigned b η] (bits a η) else bits zero η := by
  obtain ⟨r, r1, r2, r3⟩ := shiftBy_ok hn ha hb hz hge hstep hsb
  refine ⟨r, r1, r2, fun η hp hz0 => ?_⟩
  have hlt := unsigned_lt b η
  rw [hb] at hlt
  have := r3 η hp (unsigned b η) (by
    rw [hz0, Int.emod_eq_of_lt (by omega) (by simp only [Nat.cast_zero, sub_zero]; exact_mod_cast hlt)]; simp)
  rw [this]
  have hbn : b ≠ [] := by rintro rfl; simp at hb; omega
  by_cases hs : (n : Int) ≤ signed b η
  · have hu := unsigned_signed (l := b) (η := η) (by omega)
    rw [if_pos hs, if_neg (by omega)]
  · rw [if_neg hs]

theorem iterate_shr {n : Nat} (hn : 0 < n) (b : Bool) : ∀ (d : Nat) (l : List Bool), l.length = n →
    ((fun l : List Bool => [b] ++ l.take (l.length - 1))^[d] l).length = n
  | 0, l, h => by simpa using h
  | d + 1, l, h => by
    rw [Function.iterate_succ_apply]
    exact iterate_shr hn b d _ (by simp; omega)

theorem uv_take (l : List Bool) (h : l ≠ []) : uv (l.take (l.length - 1)) = uv l / 2 := by
  obtain ⟨xs, x, rfl⟩ : ∃ xs x, l = xs ++ [x] := ⟨l.dropLast, l.getLast h, (List.dropLast_append_getLast h).symm⟩
  have : (xs ++ [x]).take ((xs ++ [x]).length - 1) = xs := by simp
  rw [this, Bv.uv_append]
  cases x <;> simp [uv] <;> omega

theorem uv_shr : ∀ (n : Nat) (_ : 0 < n) (d : Nat) (l : List Bool), l.length = n →
    uv ((fun l : List Bool => [false] ++ l.take (l.length - 1))^[d] l) = uv l / 2 ^ d
  | n, hn, 0, l, h => by simp
  | n, hn, d + 1, l, h => by
    rw [Function.iterate_succ_apply, uv_shr n hn d _ (by simp; omega), Bv.uv_append, uv_take l (by rintro rfl; simp at h; omega)]
    simp [uv, pow_succ]
    rw [Nat.div_div_eq_div_mul, Nat.mul_comm]

theorem uv_shl : ∀ (n : Nat) (_ : 0 < n) (d : Nat) (l : List Bool), l.length = n →
    ((fun l : List Bool => l.tail ++ [false])^[d] l).length = n ∧
    uv ((fun l : List Bool => l.tail ++ [false])^[d] l) = uv l * 2 ^ d % 2 ^ n
  | n, hn, 0, l, h => ⟨by simpa using h, by
      have := Bv.uv_lt l
      rw [h] at this
      simp [Nat.mod_eq_of_lt this]⟩
  | n, hn, d + 1, l, h => by
    obtain ⟨x, xs, rfl⟩ := List.exists_cons_of_ne_nil (l := l) (by rintro rfl; simp at h; omega)
    rw [Function.iterate_succ_apply]
    obtain ⟨h1, h2⟩ := uv_shl n hn d ((x :: xs).tail ++ [false]) (by simpa using h)
    refine ⟨h1, ?_⟩
    rw [h2, List.tail_cons, Bv.uv_append]
    have e : uv (x :: xs) = x.toNat * 2 ^ xs.length + uv xs := by cases x <;> simp [uv]
    have hn' : n = xs.length + 1 := by simpa using h.symm
    rw [e, hn']
    have : (x.toNat * 2 ^ xs.length + uv xs) * 2 ^ (d + 1) = (uv xs * 2 ^ 1 + uv [false]) * 2 ^ d + 2 ^ (xs.length + 1) * (x.toNat * 2 ^ d) := by
      simp [uv]; ring
    rw [this]
    simp

end Voss.Gen
