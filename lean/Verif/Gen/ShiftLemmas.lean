import Verif.Gen.DivLemmas
/-
Lemmas about the library of bit-vectors: what the shifts compute, conversion to integers, absolute values.
-/
namespace Voss.Gen
open Voss.Pre Voss.Pre.Fn
open Voss.Bv (uv tc)
variable {o : Order}

theorem bits_butlastn (b : Fn o) (l : List (Fn o)) (η : Env) :
    bits ([b] ++ butlastn 1 l) η = [b.ev η] ++ (bits l η).take ((bits l η).length - 1) := by
  simp [butlastn, bits]

theorem fbvgeq_shift {p : Fn o} {b : List (Fn o)} {n : Nat} (hn : 0 < n) (hb : b.length = n) (k : List (Fn o)) (hk : k.length = n) :
    ∃ c, fbvgeq p b k = .ok c ∧ ∀ η, p.ev η = true → c.ev η = decide (signed k η ≤ signed b η) :=
  fbvleq_ok (by rintro rfl; simp at hk; omega) (by omega)

theorem fbvshr_ok {p : Fn o} {a b : List (Fn o)} (hn : 3 ≤ a.length) (h : a.length = b.length) :
    ∃ r, fbvshr p a b = .ok r ∧ r.length = a.length ∧
      ∀ η, p.ev η = true → unsigned r η = unsigned a η / 2 ^ unsigned b η := by
  obtain ⟨r, h1, h2, h3⟩ := shiftBy_zero (p := p) (ge := fbvgeq) (step := fun cur => [ff o] ++ butlastn 1 cur)
    (zero := List.replicate a.length (ff o)) (a := a) (b := b) hn rfl h.symm (by simp)
    (fbvgeq_shift (by omega) h.symm) (fun l hl => by simp [butlastn]; omega)
    (sb := fun _ l => [false] ++ l.take (l.length - 1)) (fun l η _ => by simpa using bits_butlastn (ff o) l η)
  refine ⟨r, h1, h2, fun η hp => ?_⟩
  have e := h3 η hp (unsigned_ff _ _)
  have hlt := unsigned_lt a η
  split at e
  · unfold unsigned at e ⊢
    rw [e, uv_shr a.length (by omega) _ _ (by simp)]
  · rename_i hge
    have e2 := unsigned_ff (o := o) a.length η
    have e3 : unsigned r η = unsigned (List.replicate a.length (ff o)) η := by unfold unsigned; rw [e]
    rw [e3, e2, Nat.div_eq_of_lt]
    exact lt_of_lt_of_le hlt (Nat.pow_le_pow_right (by omega) (by omega))

theorem fbvshl_ok {p : Fn o} {a b : List (Fn o)} (hn : 3 ≤ a.length) (h : a.length = b.length) :
    ∃ r, fbvshl p a b = .ok r ∧ r.length = a.length ∧
      ∀ η, p.ev η = true → unsigned r η = unsigned a η * 2 ^ unsigned b η % 2 ^ a.length := by
  obtain ⟨r, h1, h2, h3⟩ := shiftBy_zero (p := p) (ge := dbvgeq) (step := fun cur => cur.tail ++ [ff o])
    (zero := List.replicate a.length (ff o)) (a := a) (b := b) hn rfl h.symm (by simp)
    (fun k hk => dbvleq_ok (by rintro rfl; simp at hk; omega) (by rintro rfl; simp at h; simp [h] at hn))
    (fun l hl => by simp; omega)
    (sb := fun _ l => l.tail ++ [false]) (fun l η _ => by simp [bits])
  refine ⟨r, h1, h2, fun η hp => ?_⟩
  have e := h3 η hp (unsigned_ff _ _)
  split at e
  · unfold unsigned at e ⊢
    rw [e, (uv_shl a.length (by omega) _ _ (by simp)).2]
  · rename_i hge
    have e2 := unsigned_ff (o := o) a.length η
    have e3 : unsigned r η = unsigned (List.replicate a.length (ff o)) η := by unfold unsigned; rw [e]
    rw [e3, e2]
    obtain ⟨k, hk⟩ := Nat.exists_eq_add_of_le (show a.length ≤ unsigned b η by omega)
    rw [hk, pow_add, Nat.mul_left_comm, Nat.mul_mod_right]

theorem tc_shr (b : Bool) (l : List Bool) : tc ([b] ++ (b :: l).take ((b :: l).length - 1)) = tc (b :: l) / 2 := by
  have h1 := Bv.tc_eq ([b] ++ (b :: l).take ((b :: l).length - 1)) (by simp)
  have h2 := Bv.tc_eq (b :: l) (by simp)
  have hu : uv ([b] ++ (b :: l).take ((b :: l).length - 1)) = (if b then 2 ^ l.length else 0) + uv (b :: l) / 2 := by
    rw [Bv.uv_append, uv_take (b :: l) (by simp)]
    cases b <;> simp [uv]
  rw [h1, h2, hu]
  cases b
  · simp
  · simp [pow_succ]
    omega

theorem head_shr (b : Bool) : ∀ (d : Nat) (l : List Bool), ∃ m,
    (fun l : List Bool => [b] ++ l.take (l.length - 1))^[d] (b :: l) = b :: m ∧ tc (b :: m) = tc (b :: l) / 2 ^ d
  | 0, l => ⟨l, by simp, by simp⟩
  | d + 1, l => by
    rw [Function.iterate_succ_apply]
    obtain ⟨m, h1, h2⟩ := head_shr b d ((b :: l).take ((b :: l).length - 1))
    refine ⟨m, h1, ?_⟩
    have e := tc_shr b l
    rw [List.singleton_append] at e
    rw [h2, e, pow_succ, Int.ediv_ediv_of_nonneg (by norm_num), mul_comm]

theorem uv_replicate (b : Bool) : ∀ n, uv (List.replicate n b) = if b then 2 ^ n - 1 else 0
  | 0 => by simp [uv]
  | n + 1 => by
    have := uv_replicate b n
    have hp : 0 < 2 ^ n := by positivity
    rw [List.replicate_succ, uv, this, List.length_replicate]
    cases b <;> simp [pow_succ]
    omega

theorem tc_replicate (b : Bool) (n : Nat) : tc (List.replicate (n + 1) b) = if b then -1 else 0 := by
  rw [Bv.tc_eq _ (by simp), uv_replicate, List.replicate_succ]
  have hp : 0 < 2 ^ (n + 1) := by positivity
  cases b
  · simp
  · simp

theorem tc_neg_head (b : Bool) (l : List Bool) : tc (b :: l) < 0 ↔ b = true := by
  have h1 := Bv.tc_eq (b :: l) (by simp)
  have h2 := Bv.uv_lt (b :: l)
  have h3 : (uv (b :: l) : Int) < 2 ^ (l.length + 1) := by
    have : uv (b :: l) < 2 ^ (l.length + 1) := by simpa using h2
    exact_mod_cast this
  rw [h1]
  cases b <;> simp <;> omega

theorem tc_div_big (b : Bool) (l : List Bool) (d : Nat) (h : l.length + 1 ≤ d) : tc (b :: l) / 2 ^ d = if b then -1 else 0 := by
  have h1 := Bv.tc_bounds b l
  have h2 := tc_neg_head b l
  have hle : (2:Int) ^ l.length ≤ 2 ^ d := pow_le_pow_right₀ (by norm_num) (by omega)
  have hp : (0:Int) < 2 ^ d := by positivity
  cases b
  · simp at h2 ⊢
    exact Int.ediv_eq_zero_of_lt h2 (by omega)
  · simp at h2 ⊢
    refine le_antisymm ?_ ?_
    · have := Int.ediv_neg_of_neg_of_pos h2 hp
      omega
    · rw [Int.le_ediv_iff_mul_le hp]
      omega

/-- The arithmetic shift: right for numbers that are not negative, one place too far for the others. -/
theorem fbvashr_ok {p : Fn o} {a b : List (Fn o)} (hn : 3 ≤ a.length) (h : a.length = b.length) :
    ∃ r, fbvashr p a b = .ok r ∧ r.length = a.length ∧ ∀ η, p.ev η = true →
      (0 ≤ signed a η → signed r η = signed a η / 2 ^ unsigned b η) ∧
      (signed a η < 0 → unsigned b η + 1 < 2 ^ a.length → signed r η = signed a η / 2 ^ (unsigned b η + 1)) ∧
      (signed a η < 0 → unsigned b η + 1 = 2 ^ a.length → signed r η = signed a η) := by
  obtain ⟨x, as, rfl⟩ := List.exists_cons_of_ne_nil (l := a) (by rintro rfl; simp at hn)
  generalize hnd : (x :: as).length = n at *
  have hal : as.length + 1 = n := by simpa using hnd
  obtain ⟨r, h1, h2, h3⟩ := shiftBy_ok (p := p) (ge := fbvgeq) (step := fun cur => [x] ++ butlastn 1 cur)
    (zero := List.replicate n x) (a := x :: as) (b := b) hn hnd h.symm (by simp)
    (fbvgeq_shift (by omega) h.symm) (fun l hl => by simp [butlastn]; omega)
    (sb := fun η l => [x.ev η] ++ l.take (l.length - 1)) (fun l η _ => bits_butlastn x l η)
  refine ⟨r, by simpa [fbvashr, hd, Out.bind, hal] using h1, h2, fun η hp => ?_⟩
  have h3 := h3 η hp
  have hblt := unsigned_lt b η
  rw [← h] at hblt
  have hrep : bits (List.replicate n x) η = List.replicate (as.length + 1) (x.ev η) := by simp [bits, hal]
  have hneg : signed (x :: as) η < 0 ↔ x.ev η = true := tc_neg_head (x.ev η) (bits as η)
  have hzero : bits r η = bits (List.replicate n x) η → signed r η = if x.ev η then -1 else 0 := by
    intro e
    unfold signed
    rw [e, hrep, tc_replicate]
  have main : ∀ d : Nat, (d : Int) = ((unsigned b η : Int) - unsigned (List.replicate n x) η) % 2 ^ n →
      ((n : Int) ≤ signed b η → n ≤ d) → signed r η = signed (x :: as) η / 2 ^ d := by
    intro d hd hsb
    have e := h3 d hd
    by_cases hdn : d < n
    · rw [if_neg (by intro hc; have := hsb hc; omega), if_pos hdn] at e
      obtain ⟨m, m1, m2⟩ := head_shr (x.ev η) d (bits as η)
      have e : bits r η = x.ev η :: m := by rw [e, ← m1]; rfl
      unfold signed
      rw [e, m2]; rfl
    · have e : bits r η = bits (List.replicate n x) η := by
        rw [e]; simp [hdn]
      rw [hzero e]
      exact (tc_div_big (x.ev η) (bits as η) d (by simp; omega)).symm
  have hzu : unsigned (List.replicate n x) η = if x.ev η then 2 ^ n - 1 else 0 := by
    unfold unsigned
    rw [hrep, uv_replicate, hal]
  have hp2 : 0 < 2 ^ n := by positivity
  have hblt' : (unsigned b η : Int) < 2 ^ n := by exact_mod_cast hblt
  have hsb : (n : Int) ≤ signed b η → n ≤ unsigned b η := by
    intro hc
    have := unsigned_signed (l := b) (η := η) (by omega)
    omega
  refine ⟨fun h0 => ?_, fun h0 h4 => ?_, fun h0 h4 => ?_⟩
  · refine main _ ?_ hsb
    rw [hzu, if_neg (by rw [← hneg]; omega)]
    simp only [Nat.cast_zero, sub_zero]
    rw [Int.emod_eq_of_lt (by omega) hblt']
  · have hD : ((unsigned b η + 1 : Nat) : Int) = ((unsigned b η : Int) - unsigned (List.replicate n x) η) % 2 ^ n := by
      rw [hzu, if_pos (hneg.1 h0)]
      have e : (unsigned b η : Int) - ((2 ^ n - 1 : Nat) : Int) = (unsigned b η + 1 : Nat) + 2 ^ n * (-1) := by
        rw [Nat.cast_sub (by omega)]; push_cast; ring
      rw [e, Int.add_mul_emod_self_left, Int.emod_eq_of_lt (by omega) (by exact_mod_cast h4)]
    exact main _ hD (fun hc => by have := hsb hc; omega)
  · have hb1 : signed b η = -1 := by
      have h0 : (0:Int) < 2 ^ as.length := by positivity
      refine signed_of_mod (n := as.length) (k := 1) (by omega) ?_ (by omega) (by omega)
      rw [hal]
      have : (unsigned b η : Int) + 1 = 2 ^ n := by exact_mod_cast h4
      omega
    have := main 0 (by
      rw [hzu, if_pos (hneg.1 h0)]
      have : unsigned b η = 2 ^ n - 1 := by omega
      rw [this]; simp) (by omega)
    simpa using this

/-! ### Integers -/

theorem b2i_eq (η : Env) : ∀ (l : List (Fn o)) (cur : Int), IsConst l → b2i cur l = cur * 2 ^ l.length + unsigned l η
  | [], cur, _ => by simp [b2i, unsigned, uv]
  | b :: l, cur, h => by
    have ih := b2i_eq η l (2 * cur + (if b = tt o then 1 else 0)) (fun f hf => h f (List.mem_cons_of_mem _ hf))
    rw [b2i, ih, unsigned_cons]
    rcases h b (by simp) with rfl | rfl
    · simp [pow_succ]; ring
    · simp [pow_succ, tt_ne_ff.symm]; ring

theorem bv2int_ok {l : List (Fn o)} (hne : l ≠ []) (hc : IsConst l) (η : Env) : bv2int l = .ok (signed l η) := by
  obtain ⟨b, l, rfl⟩ := List.exists_cons_of_ne_nil hne
  have hneg : signed (b :: l) η < 0 ↔ b.ev η = true := tc_neg_head (b.ev η) (bits l η)
  unfold bv2int
  rw [if_neg (by rw [depends_isConst hc]; simp)]
  simp only [hd, Out.bind]
  rcases hc b (by simp) with rfl | rfl
  · rw [if_pos rfl]
    obtain ⟨r, h1, h2, h3⟩ := dbvnegate_ok hne
    have hcr : IsConst r := by
      refine isConst_of_bits fun η ζ => Bv.tc_inj_len _ _ (by simp) ?_
      have e1 := h3 η
      have e2 := h3 ζ
      unfold signed at e1 e2
      rw [e1, e2, hc.bits η ζ]
    have hn : signed (tt o :: l) η < 0 := hneg.2 (by simp)
    rw [h1]
    simp only [Out.ok.injEq]
    rw [b2i_eq η r 0 hcr]
    have := unsigned_signed (l := r) (η := η) (by rw [h3]; omega)
    rw [this, h3]
    ring
  · rw [if_neg tt_ne_ff.symm, b2i_eq η _ 0 hc, unsigned_signed (by
      by_contra hh
      have := hneg.1 (by omega)
      simp at this)]
    simp

theorem bv2int_fail {l : List (Fn o)} (hc : ¬ IsConst l) : bv2int l = .fail := by
  unfold bv2int
  rw [if_pos fun h => hc (isConst_depends h)]

/-! ### Absolute values -/

theorem neg_bits_ok {a : List (Fn o)} :
    ∃ h0 t, extGenBvadd (List.replicate a.length (ff o)) (a.map Fn.not) (tt o) = .ok (h0 :: t) ∧ t.length = a.length ∧
      ∀ η, (unsigned t η : Int) = (-(unsigned a η : Int)) % 2 ^ a.length := by
  obtain ⟨h0, t, h1, h2, h3⟩ := extGenBvadd_ok (a := List.replicate a.length (ff o)) (b := a.map Fn.not) (tt o) (by simp)
  refine ⟨h0, t, h1, by simpa using h2, fun η => ?_⟩
  obtain ⟨r, g1, -, g3⟩ := fbvsub_ok (a := List.replicate a.length (ff o)) (b := a) (by simp)
  simp only [fbvsub, h1, Out.bind, tl, Out.ok.injEq] at g1
  subst g1
  have := g3 η
  rw [unsigned_ff, List.length_replicate] at this
  simpa using this

theorem natAbs_neg {a : List (Fn o)} {η : Env} (ha : a ≠ []) (h : signed a η < 0) {u : Nat}
    (hu : (u : Int) = (-(unsigned a η : Int)) % 2 ^ a.length) : u = (signed a η).natAbs := by
  obtain ⟨k, hk⟩ := signed_mod a η
  have hb := signed_bounds ha η
  have hl : 0 < a.length := List.length_pos_iff.2 ha
  have hp : (2:Int) ^ (a.length - 1) < 2 ^ a.length := pow_lt_pow_right₀ (by norm_num) (by omega)
  rw [hk] at hu
  have e : -(signed a η + k * 2 ^ a.length) = -signed a η + 2 ^ a.length * (-k) := by ring
  rw [e, Int.add_mul_emod_self_left, Int.emod_eq_of_lt (by omega) (by omega)] at hu
  omega

theorem getSignAbs_ok {p : Fn o} {a : List (Fn o)} (ha : a ≠ []) :
    ∃ s r, getSignAbs p a = .ok (s, r) ∧ r.length = a.length ∧
      ∀ η, s.ev η = decide (signed a η < 0) ∧ (p.ev η = true → unsigned r η = (signed a η).natAbs) := by
  obtain ⟨b, l, rfl⟩ := List.exists_cons_of_ne_nil ha
  obtain ⟨h0, t, h1, h2, h3⟩ := neg_bits_ok (a := b :: l)
  have hs : ∀ η, b.ev η = decide (signed (b :: l) η < 0) := fun η => by
    have := tc_neg_head (b.ev η) (bits l η)
    have e : signed (b :: l) η = tc (b.ev η :: bits l η) := rfl
    rw [e, Bool.eq_iff_iff, decide_eq_true_iff]
    exact this.symm
  obtain ⟨r, r1, r2, r3⟩ := branchList_ok (p := p) (c := b) (t := fun _ => tl (h0 :: t)) (e := fun _ => .ok (b :: l))
    (n := (b :: l).length) (R := fun η m => uv m = (signed (b :: l) η).natAbs)
    (fun p' hp => ⟨t, rfl, h2, fun η hη => natAbs_neg ha (by have := (hp η hη).2; rw [hs] at this; simpa using this) (h3 η)⟩)
    (fun p' hp => ⟨b :: l, rfl, rfl, fun η hη => by
      have := (hp η hη).2
      rw [hs] at this
      have := unsigned_signed (l := b :: l) (η := η) (by simpa using this)
      unfold unsigned at this
      omega⟩)
  refine ⟨b, r, ?_, r2, fun η => ⟨hs η, fun hp => r3 η hp⟩⟩
  simp only [getSignAbs, hd, Out.bind, h1]
  rw [r1]

theorem zx_signed {l : List (Fn o)} {k : Nat} {η : Env} {n : Nat} (hl : l.length = n) (hk : 0 < k + n) (h : (unsigned l η : Int) < 2 ^ (k + n - 1)) :
    signed (List.replicate k (ff o) ++ l) η = unsigned l η := by
  refine signed_of_mod (n := k + n - 1) (k := 0) (by simp; omega) ?_ ?_ h
  · rw [unsigned_append, unsigned_ff]; simp
  · have : (0:Int) < 2 ^ (k + n - 1) := by positivity
    omega

theorem extDiv_ok {p : Fn o} {a b : List (Fn o)} (ha : a ≠ []) (hb : b ≠ []) :
    ∃ s q r, extDiv p a b = .ok (s, q, r) ∧ q.length = max a.length b.length ∧ r.length = max a.length b.length ∧
      ∀ η, s.ev η = (decide (signed a η < 0) ^^ decide (signed b η < 0)) ∧
        (p.ev η = true → signed b η ≠ 0 → |signed a η| < 2 ^ (max a.length b.length - 1) → |signed b η| < 2 ^ (max a.length b.length - 1) →
          unsigned q η = (signed a η).natAbs / (signed b η).natAbs ∧ unsigned r η = (signed a η).natAbs % (signed b η).natAbs) := by
  obtain ⟨s, x, h1, h2, h3⟩ := getSignAbs_ok (p := p) ha
  obtain ⟨t, y, g1, g2, g3⟩ := getSignAbs_ok (p := p) hb
  have hal : 0 < a.length := List.length_pos_iff.2 ha
  obtain ⟨q, r, d1, d2, d3, d4⟩ := fixedExtDiv_ok (p := p)
    (a := List.replicate (max x.length y.length - x.length) (ff o) ++ x)
    (b := List.replicate (max x.length y.length - y.length) (ff o) ++ y) (by
      intro h
      have := congrArg List.length h
      rw [List.length_append, List.length_replicate, h2] at this
      rw [List.length_nil] at this; omega) (by simp)
  refine ⟨s.xor t, q, r, ?_, ?_, ?_, fun η => ⟨by rw [xor_ev, (h3 η).1, (g3 η).1], fun hp hne hla hlb => ?_⟩⟩
  · simp only [extDiv, h1, g1, Out.bind, d1]
  · rw [d2, List.length_append, List.length_replicate, h2, g2]; omega
  · rw [d3, List.length_append, List.length_replicate, h2, g2]; omega
  · have hx := (h3 η).2 hp
    have hy := (g3 η).2 hp
    rw [Int.abs_eq_natAbs, ← hx] at hla
    rw [Int.abs_eq_natAbs, ← hy] at hlb
    have sx := zx_signed (o := o) (l := x) (k := max x.length y.length - x.length) (η := η) rfl (by omega)
      (by rw [show max x.length y.length - x.length + x.length = max a.length b.length by omega]; exact hla)
    have sy := zx_signed (o := o) (l := y) (k := max x.length y.length - y.length) (η := η) rfl (by omega)
      (by rw [show max x.length y.length - y.length + y.length = max a.length b.length by omega]; exact hlb)
    obtain ⟨e1, e2⟩ := d4 η hp (by rw [sy]; omega) (.inl (by rw [sx]; omega))
    rw [unsigned_append, unsigned_append, unsigned_ff, unsigned_ff, Nat.zero_mul, Nat.zero_add, Nat.zero_mul, Nat.zero_add,
      hx, hy] at e1 e2
    exact ⟨e1, e2⟩

end Voss.Gen
