import Verif.Gen.Lemmas
import Verif.Pre.IntsProps
import Verif.Bv.OpLemmas
import Mathlib.Data.Int.ModEq
/-
Lemmas about the library of bit-vectors: comparison, constants, multiplication.
-/
namespace Voss.Gen
open Voss.Pre Voss.Pre.Fn
open Voss.Bv (uv tc)
variable {o : Order}

/-! ### Comparison -/

theorem uv_inj : ∀ (l m : List Bool), l.length = m.length → uv l = uv m → l = m
  | [], [], _, _ => rfl
  | [], _ :: _, h, _ => by simp at h
  | _ :: _, [], h, _ => by simp at h
  | a :: l, b :: m, h, e => by
    have hl : l.length = m.length := by simpa using h
    have h1 := Bv.uv_lt l
    have h2 := Bv.uv_lt m
    simp only [uv, hl] at e h1
    cases a <;> cases b <;> simp at e <;> try omega
    all_goals rw [uv_inj l m hl e]

theorem eqList_ev (η : Env) : ∀ (a b : List (Fn o)), a.length = b.length →
    (eqList a b).ev η = decide (bits a η = bits b η)
  | [], [], _ => by simp [eqList]
  | [], _ :: _, h => by simp at h
  | _ :: _, [], h => by simp at h
  | a :: as, b :: bs, h => by
    have ih := eqList_ev η as bs (by simpa using h)
    simp only [eqList, and_ev, xnor_ev, ih, bits_cons, List.cons.injEq, Bool.decide_and, beq_eq_decide]

theorem bits_eq_unsigned {a b : List (Fn o)} (h : a.length = b.length) (η : Env) :
    bits a η = bits b η ↔ unsigned a η = unsigned b η :=
  ⟨fun e => by unfold unsigned; rw [e], fun e => uv_inj _ _ (by simpa using h) e⟩

theorem bits_eq_signed {a b : List (Fn o)} (h : a.length = b.length) (η : Env) :
    bits a η = bits b η ↔ signed a η = signed b η :=
  ⟨fun e => by unfold signed; rw [e], fun e => Bv.tc_inj_len _ _ (by simpa using h) e⟩

theorem bvless_ev (η : Env) : ∀ (a b : List (Fn o)), a.length = b.length →
    (bvless a b).ev η = decide (unsigned a η < unsigned b η)
  | [], [], _ => by simp [bvless, unsigned]
  | [], _ :: _, h => by simp at h
  | _ :: _, [], h => by simp at h
  | a :: as, b :: bs, h => by
    have hl : as.length = bs.length := by simpa using h
    have ih := bvless_ev η as bs hl
    have h1 := unsigned_lt as η
    have h2 := unsigned_lt bs η
    simp only [bvless, or_ev, and_ev, not_ev, xnor_ev, ih]
    unfold unsigned at h1 h2 ⊢
    simp only [bits_cons, uv, bits_length]
    rw [hl] at h1 ⊢
    cases a.ev η <;> cases b.ev η <;> simp <;> omega

theorem signed_cons (b : Fn o) (l : List (Fn o)) (η : Env) :
    signed (b :: l) η = unsigned (b :: l) η - (if b.ev η then (2:Int) ^ (l.length + 1) else 0) := by
  have := Bv.tc_eq (bits (b :: l) η) (by simp)
  simpa [signed, unsigned] using this

theorem signedLess_ok {p : Fn o} {a b : List (Fn o)} (hne : a ≠ []) (h : a.length = b.length) :
    ∃ c, signedLess p a b = .ok c ∧ ∀ η, p.ev η = true → c.ev η = decide (signed a η < signed b η) := by
  obtain ⟨x, as, rfl⟩ := List.exists_cons_of_ne_nil hne
  obtain ⟨y, bs, rfl⟩ := List.exists_cons_of_ne_nil (l := b) (by rintro rfl; simp at h)
  have hl : as.length = bs.length := by simpa using h
  have key : ∀ η, (x.ev η = y.ev η → decide (unsigned (x :: as) η < unsigned (y :: bs) η) = decide (signed (x :: as) η < signed (y :: bs) η)) ∧
      (x.ev η = true → y.ev η = false → signed (x :: as) η < signed (y :: bs) η) ∧
      (x.ev η = false → y.ev η = true → ¬signed (x :: as) η < signed (y :: bs) η) := by
    intro η
    have h1 := unsigned_lt (x :: as) η
    have h2 := unsigned_lt (y :: bs) η
    rw [signed_cons, signed_cons, hl]
    simp only [List.length_cons, hl] at h1 h2
    have h1' : (unsigned (x :: as) η : Int) < 2 ^ (bs.length + 1) := by exact_mod_cast h1
    have h2' : (unsigned (y :: bs) η : Int) < 2 ^ (bs.length + 1) := by exact_mod_cast h2
    refine ⟨fun e => ?_, fun e1 e2 => ?_, fun e1 e2 => ?_⟩
    · rw [e]
      simp
    · simp [e1, e2]; omega
    · simp [e1, e2]; omega
  simp only [signedLess, hd, Out.bind]
  refine branchBool_ok (R := fun η v => v = decide (signed (x :: as) η < signed (y :: bs) η)) (fun p1 hp1 => ?_) (fun p1 hp1 => ?_)
  · refine branchBool_ok (R := fun η v => v = decide (signed (x :: as) η < signed (y :: bs) η)) (fun p2 hp2 => ?_) (fun p2 hp2 => ?_)
    · refine ⟨_, rfl, fun η hp => ?_⟩
      rw [bvless_ev η _ _ h]
      exact (key η).1 (by rw [(hp2 η hp).2, (hp1 η (hp2 η hp).1).2])
    · refine ⟨_, rfl, fun η hp => ?_⟩
      have := (key η).2.1 (hp1 η (hp2 η hp).1).2 (hp2 η hp).2
      simp [this]
  · refine branchBool_ok (R := fun η v => v = decide (signed (x :: as) η < signed (y :: bs) η)) (fun p2 hp2 => ?_) (fun p2 hp2 => ?_)
    · refine ⟨_, rfl, fun η hp => ?_⟩
      have := (key η).2.2 (hp1 η (hp2 η hp).1).2 (hp2 η hp).2
      simpa using this
    · refine ⟨_, rfl, fun η hp => ?_⟩
      rw [bvless_ev η _ _ h]
      exact (key η).1 (by rw [(hp2 η hp).2, (hp1 η (hp2 η hp).1).2])

theorem dbvless_ok {p : Fn o} {a b : List (Fn o)} (ha : a ≠ []) (hb : b ≠ []) :
    ∃ c, dbvless p a b = .ok c ∧ ∀ η, p.ev η = true → c.ev η = decide (signed a η < signed b η) := by
  obtain ⟨x, y, h1, hx, hy, hxn, hyn, hv⟩ := sx2_ok ha hb
  obtain ⟨c, h2, h3⟩ := signedLess_ok (p := p) (a := x) (b := y) hxn (by omega)
  refine ⟨c, by simp [dbvless, h1, Out.bind, h2], fun η hp => ?_⟩
  rw [h3 η hp, (hv η).1, (hv η).2]

theorem dbveq_ok {a b : List (Fn o)} (ha : a ≠ []) (hb : b ≠ []) :
    ∃ c, dbveq a b = .ok c ∧ ∀ η, c.ev η = decide (signed a η = signed b η) := by
  obtain ⟨x, y, h1, hx, hy, hxn, hyn, hv⟩ := sx2_ok ha hb
  refine ⟨eqList x y, by simp only [dbveq, h1, Out.bind], fun η => ?_⟩
  rw [eqList_ev η x y (by omega), ← (hv η).1, ← (hv η).2]
  exact decide_eq_decide.2 (bits_eq_signed (by omega) η)

theorem dbvneq_ok {a b : List (Fn o)} (ha : a ≠ []) (hb : b ≠ []) :
    ∃ c, dbvneq a b = .ok c ∧ ∀ η, c.ev η = decide (signed a η ≠ signed b η) := by
  obtain ⟨x, y, h1, hx, hy, hxn, hyn, hv⟩ := sx2_ok ha hb
  refine ⟨(eqList x y).not, by simp only [dbvneq, h1, Out.bind], fun η => ?_⟩
  rw [not_ev, eqList_ev η x y (by omega), ← (hv η).1, ← (hv η).2, ← decide_not]
  exact decide_eq_decide.2 (not_congr (bits_eq_signed (by omega) η))

theorem dbvleq_ok {p : Fn o} {a b : List (Fn o)} (ha : a ≠ []) (hb : b ≠ []) :
    ∃ c, dbvleq p a b = .ok c ∧ ∀ η, p.ev η = true → c.ev η = decide (signed a η ≤ signed b η) := by
  obtain ⟨c, h1, h2⟩ := dbveq_ok ha hb
  obtain ⟨d, h3, h4⟩ := dbvless_ok (p := p) ha hb
  refine ⟨c.or d, by simp [dbvleq, h1, h3, Out.bind], fun η hp => ?_⟩
  rw [or_ev, h2 η, h4 η hp, ← Bool.decide_or]
  exact decide_eq_decide.2 ⟨fun h => by omega, fun h => by omega⟩

theorem fbvless_ok {p : Fn o} {a b : List (Fn o)} (ha : a ≠ []) (h : a.length = b.length) :
    ∃ c, fbvless p a b = .ok c ∧ ∀ η, p.ev η = true → c.ev η = decide (signed a η < signed b η) := by
  obtain ⟨c, h2, h3⟩ := signedLess_ok (p := p) ha h
  exact ⟨c, by simp [fbvless, h, h2], h3⟩

theorem fbveq_ok {a b : List (Fn o)} (h : a.length = b.length) :
    ∃ c, fbveq a b = .ok c ∧ ∀ η, c.ev η = decide (bits a η = bits b η) :=
  ⟨_, by rw [fbveq, if_neg (by omega)], fun η => eqList_ev η a b h⟩

theorem fbvleq_ok {p : Fn o} {a b : List (Fn o)} (ha : a ≠ []) (h : a.length = b.length) :
    ∃ c, fbvleq p a b = .ok c ∧ ∀ η, p.ev η = true → c.ev η = decide (signed a η ≤ signed b η) := by
  obtain ⟨c, h1, h2⟩ := fbveq_ok h
  obtain ⟨d, h3, h4⟩ := fbvless_ok (p := p) ha h
  refine ⟨c.or d, by simp [fbvleq, h1, h3, Out.bind], fun η hp => ?_⟩
  rw [or_ev, h2 η, h4 η hp, ← Bool.decide_or]
  refine decide_eq_decide.2 ?_
  rw [bits_eq_signed h]
  constructor <;> intro h <;> omega

/-! ### Constants -/

theorem digits_succ (sz i : Nat) : digits (sz + 1) i = i.testBit sz :: digits sz i := by
  simp [digits, List.range_succ]

theorem digits_length (sz i : Nat) : (digits sz i).length = sz := by simp [digits]

theorem uv_digits (i : Nat) : ∀ sz, uv (digits sz i) = i % 2 ^ sz
  | 0 => by simp [digits, uv, Nat.mod_one]
  | sz + 1 => by
    rw [digits_succ, uv, uv_digits i sz, digits_length, Nat.mod_pow_succ, Nat.testBit_eq_decide_div_mod_eq]
    rcases Nat.mod_two_eq_zero_or_one (i / 2 ^ sz) with h | h <;> simp [h]
    omega

theorem bits_const (l : List Bool) (η : Env) : bits (l.map (const o)) η = l := by
  induction l with
  | nil => rfl
  | cons b l ih => simp [ih]

/-- All functions of the list are constant. -/
def IsConst (l : List (Fn o)) : Prop := ∀ f ∈ l, f = tt o ∨ f = ff o

theorem isConst_of_bits {l : List (Fn o)} (h : ∀ η ζ, bits l η = bits l ζ) : IsConst l := by
  induction l with
  | nil => simp [IsConst]
  | cons b l ih =>
    have h1 : ∀ η ζ, b.ev η = b.ev ζ := fun η ζ => by have := h η ζ; simp at this; exact this.1
    have h2 : ∀ η ζ, bits l η = bits l ζ := fun η ζ => by have := h η ζ; simp at this; exact this.2
    intro f hf
    rcases List.mem_cons.1 hf with rfl | hf
    · cases hb : f.ev (fun _ => false)
      · right
        exact ext fun η => by rw [h1 η (fun _ => false), hb]; rfl
      · left
        exact ext fun η => by rw [h1 η (fun _ => false), hb]; rfl
    · exact ih h2 f hf

theorem isConst_depends {l : List (Fn o)} (h : depends l = []) : IsConst l := by
  refine isConst_of_bits fun η ζ => ?_
  unfold bits
  refine List.map_congr_left fun f hf => ev_depends hf ?_
  rw [h]
  simp

theorem depends_isConst {l : List (Fn o)} (h : IsConst l) : depends l = [] := by
  rw [List.eq_nil_iff_forall_not_mem]
  intro n hn
  obtain ⟨f, hf, η, hne⟩ := mem_depends.1 hn
  rcases h f hf with rfl | rfl <;> simp at hne

theorem IsConst.bits {l : List (Fn o)} (h : IsConst l) (η ζ : Env) : bits l η = bits l ζ := by
  unfold Gen.bits
  refine List.map_congr_left fun f hf => ?_
  rcases h f hf with rfl | rfl <;> rfl

theorem IsConst.bvTrim : ∀ {l : List (Fn o)}, IsConst l → IsConst (bvTrim l)
  | [], _ => by simp [Gen.bvTrim, IsConst]
  | [_], h => by simpa [Gen.bvTrim] using h
  | b1 :: b2 :: bs, h => by
    unfold Gen.bvTrim
    split
    · exact IsConst.bvTrim fun f hf => h f (List.mem_cons_of_mem _ hf)
    · exact h

theorem isConst_map (l : List Bool) : IsConst (l.map (const o)) := by
  intro f hf
  obtain ⟨b, -, rfl⟩ := List.mem_map.1 hf
  cases b <;> simp

/-- A vector of constants without repeated sign is the shortest one. -/
theorem trimmed_short {l : List (Fn o)} (hc : IsConst l) (ht : ∀ b1 b2 bs, l = b1 :: b2 :: bs → b1 ≠ b2) {n : Nat} {η : Env}
    (h1 : -(2:Int) ^ n ≤ signed l η) (h2 : signed l η < 2 ^ n) : l.length ≤ n + 1 := by
  match l, hc, ht with
  | [], _, _ => simp
  | [_], _, _ => simp
  | b1 :: b2 :: bs, hc, ht =>
    have hne := ht b1 b2 bs rfl
    by_contra hl
    simp only [List.length_cons, not_le] at hl
    have hlt := unsigned_lt bs η
    have hlt' : (unsigned bs η : Int) < 2 ^ bs.length := by exact_mod_cast hlt
    have hp : (2:Int) ^ n ≤ 2 ^ bs.length := by gcongr; · norm_num
                                                · omega
    have e : signed (b1 :: b2 :: bs) η = (if b1.ev η then -(2:Int) ^ (bs.length + 1) else 0) +
        ((if b2.ev η then (2:Int) ^ bs.length else 0) + unsigned bs η) := by
      simp only [signed, unsigned, bits_cons, tc, uv, List.length_cons, bits_length]
      push_cast
      rfl
    rw [pow_succ] at e
    rcases hc b1 (by simp) with rfl | rfl <;> rcases hc b2 (by simp) with rfl | rfl
    · exact hne rfl
    · simp at e; omega
    · simp at e; omega
    · exact hne rfl

theorem int2dbv_ok (v : Int) : ∃ r, int2dbv o v = .ok r ∧ r ≠ [] ∧ IsConst r ∧ (∀ η, signed r η = v) ∧
    (∀ b1 b2 bs, r = b1 :: b2 :: bs → b1 ≠ b2) := by
  have hn0 : (0:Int) ≤ (if v ≥ 0 then v else -1 * v) := by split <;> omega
  obtain ⟨w, h1, h2, h3, -⟩ := (c91_ubits _).1 hn0
  have hp : (0:Int) < 2 ^ w := by positivity
  have hlen : ((digits (w + 2) (if v ≥ 0 then v else 2 ^ (w + 2) + v).toNat).map (const o)).length = (w + 1) + 1 := by
    simp [digits_length]
  refine ⟨bvTrim ((digits (w + 2) (if v ≥ 0 then v else 2 ^ (w + 2) + v).toNat).map (const o)), ?_, bvTrim_ne_nil _,
    (isConst_map _).bvTrim, fun η => ?_, bvTrim_trimmed _⟩
  · simp only [int2dbv, h1, Out.ofOption, Out.bind, Int.toNat_natCast]
  · rw [signed_bvTrim]
    have hu : (unsigned ((digits (w + 2) (if v ≥ 0 then v else 2 ^ (w + 2) + v).toNat).map (const o)) η : Int) =
        v + (if v ≥ 0 then 0 else 1) * 2 ^ (w + 1 + 1) := by
      unfold unsigned
      rw [bits_const, uv_digits]
      have e4 : (2:Int) ^ (w + 2) = 4 * 2 ^ w := by ring
      push_cast
      by_cases hv : v ≥ 0
      · simp only [if_pos hv] at h3 ⊢
        rw [Int.toNat_of_nonneg hv, Int.emod_eq_of_lt hv (by rw [e4]; omega)]
        ring
      · simp only [if_neg hv] at h3 ⊢
        rw [Int.toNat_of_nonneg (by rw [e4]; omega), Int.emod_eq_of_lt (by rw [e4]; omega) (by rw [e4]; omega)]
        ring
    have e2 : (2:Int) ^ (w + 1) = 2 * 2 ^ w := by ring
    refine signed_of_mod hlen hu ?_ ?_
    · rw [e2]; split at h3 <;> omega
    · rw [e2]; split at h3 <;> omega

theorem int2fbv_ok {n : Nat} {v : Int} (h1 : -(2:Int) ^ n ≤ v) (h2 : v < 2 ^ n) :
    ∃ r, int2fbv o (n + 1) v = .ok r ∧ r.length = n + 1 ∧ ∀ η, signed r η = v := by
  obtain ⟨r, g1, g2, g3, g4, g5⟩ := int2dbv_ok (o := o) v
  have hl := trimmed_short g3 g5 (n := n) (η := fun _ => false) (by rw [g4]; exact h1) (by rw [g4]; exact h2)
  obtain ⟨s, k1, k2, -, k4⟩ := sx_ok (l := n + 1) g2 hl
  exact ⟨s, by simp [int2fbv, g1, Out.bind, k1], k2, fun η => by rw [k4, g4]⟩

theorem int2fbv_fail {n : Nat} {v : Int} (h : v < -(2:Int) ^ n ∨ 2 ^ n ≤ v) : int2fbv o (n + 1) v = .fail := by
  obtain ⟨r, g1, g2, g3, g4, g5⟩ := int2dbv_ok (o := o) v
  have hl : n + 1 < r.length := by
    by_contra hl
    have hb := signed_bounds g2 (fun _ => false)
    rw [g4] at hb
    have : (2:Int) ^ (r.length - 1) ≤ 2 ^ n := by gcongr; · norm_num
                                                  · omega
    omega
  simp [int2fbv, g1, Out.bind, sx_fail hl]

theorem unsigned_signed {l : List (Fn o)} {η : Env} (h : 0 ≤ signed l η) : (unsigned l η : Int) = signed l η :=
  (Bv.tc_nonneg_uv _ h).symm

theorem zero_ok (n : Nat) : ∃ r, int2fbv o (n + 1) 0 = .ok r ∧ r.length = n + 1 ∧ ∀ η, unsigned r η = 0 := by
  have hp : (0:Int) < 2 ^ n := by positivity
  obtain ⟨r, h1, h2, h3⟩ := int2fbv_ok (o := o) (n := n) (v := 0) (by omega) hp
  refine ⟨r, h1, h2, fun η => ?_⟩
  have := unsigned_signed (l := r) (η := η) (by rw [h3])
  rw [h3] at this
  exact_mod_cast this

/-! ### Negation and multiplication -/

theorem fbvnegate_ok {a : List (Fn o)} (ha : a ≠ []) :
    ∃ r, fbvnegate a = .ok r ∧ r.length = a.length ∧ ∀ η, (unsigned r η : Int) = (-(unsigned a η : Int)) % 2 ^ a.length := by
  obtain ⟨x, as, rfl⟩ := List.exists_cons_of_ne_nil ha
  obtain ⟨z, h1, h2, h3⟩ := zero_ok (o := o) as.length
  obtain ⟨r, g1, g2, g3⟩ := fbvsub_ok (a := z) (b := x :: as) (by simpa using h2)
  refine ⟨r, by simp [fbvnegate, h1, Out.bind, g1], by rw [g2, h2]; rfl, fun η => ?_⟩
  rw [g3, h3, h2]
  simp

theorem dbvnegate_ok {a : List (Fn o)} (ha : a ≠ []) :
    ∃ r, dbvnegate a = .ok r ∧ r ≠ [] ∧ ∀ η, signed r η = -signed a η := by
  obtain ⟨z, h1, h2, -, h3, -⟩ := int2dbv_ok (o := o) 0
  obtain ⟨r, g1, g2, -, g3⟩ := dbvsub_ok h2 ha
  exact ⟨r, by simp [dbvnegate, h1, Out.bind, g1], g2, fun η => by rw [g3, h3]; ring⟩

/-- A number is what it is congruent to. -/
theorem mod_of_modEq {l : List (Fn o)} {η : Env} {x : Int} (h : (unsigned l η : Int) ≡ x [ZMOD 2 ^ l.length]) :
    (unsigned l η : Int) = x % 2 ^ l.length := by
  rw [← h]
  have := unsigned_lt l η
  exact (Int.emod_eq_of_lt (by positivity) (by exact_mod_cast this)).symm

theorem modEq_of_mod {u x M : Int} (h : u = x % M) : u ≡ x [ZMOD M] := by
  rw [h]; exact Int.mod_modEq _ _

theorem unsigned_append (a b : List (Fn o)) (η : Env) : unsigned (a ++ b) η = unsigned a η * 2 ^ b.length + unsigned b η := by
  unfold unsigned
  rw [bits_append, Bv.uv_append, bits_length]

theorem unsigned_ff (n : Nat) (η : Env) : unsigned (List.replicate n (ff o)) η = 0 := by
  unfold unsigned
  rw [bits_replicate]
  exact Bv.uv_replicate_false n

theorem unsigned_single (b : Fn o) (η : Env) : unsigned [b] η = (b.ev η).toNat := by
  simp [unsigned, uv]
  cases b.ev η <;> rfl

theorem unsigned_cons (b : Fn o) (l : List (Fn o)) (η : Env) :
    unsigned (b :: l) η = (b.ev η).toNat * 2 ^ l.length + unsigned l η := by
  have := unsigned_append [b] l η
  rwa [unsigned_single] at this

theorem unsigned_tail (a : List (Fn o)) (b : Fn o) (η : Env) (ha : a ≠ []) :
    (unsigned (a.tail ++ [b]) η : Int) ≡ 2 * unsigned a η + (b.ev η).toNat [ZMOD 2 ^ a.length] := by
  obtain ⟨x, as, rfl⟩ := List.exists_cons_of_ne_nil ha
  rw [List.tail_cons, unsigned_append, unsigned_single, unsigned_cons]
  refine (Int.modEq_iff_dvd).2 ⟨(x.ev η).toNat, ?_⟩
  push_cast
  simp only [List.length_cons, List.length_nil]
  ring

/-- The least significant bits. -/
theorem unsigned_lastn {l : List (Fn o)} {n : Nat} (h : n ≤ l.length) (η : Env) :
    unsigned (lastn n l) η = unsigned l η % 2 ^ n := by
  have e : l = l.take (l.length - n) ++ lastn n l := (List.take_append_drop _ _).symm
  have hl : (lastn n l).length = n := by simp [lastn]; omega
  have h2 := unsigned_lt (lastn n l) η
  have h1 := unsigned_append (l.take (l.length - n)) (lastn n l) η
  rw [← e, hl] at h1
  rw [hl] at h2
  rw [h1, Nat.add_comm, Nat.add_mul_mod_self_right, Nat.mod_eq_of_lt h2]

theorem unsigned_butlastn {l : List (Fn o)} {n : Nat} (h : n ≤ l.length) (η : Env) :
    unsigned (butlastn n l) η = unsigned l η / 2 ^ n := by
  have e : l = butlastn n l ++ lastn n l := (List.take_append_drop _ _).symm
  have hl : (lastn n l).length = n := by simp [lastn]; omega
  have h2 := unsigned_lt (lastn n l) η
  have h1 := unsigned_append (butlastn n l) (lastn n l) η
  rw [← e, hl] at h1
  rw [hl] at h2
  rw [h1, Nat.add_comm, Nat.add_mul_div_right _ _ (by positivity), Nat.div_eq_of_lt h2, Nat.zero_add]

theorem unsigned_and (y : Fn o) (l : List (Fn o)) (η : Env) :
    unsigned (l.map fun x => y.and x) η = (y.ev η).toNat * unsigned l η := by
  induction l with
  | nil => simp [unsigned, uv]
  | cons b l ih =>
    rw [List.map_cons, unsigned_cons, unsigned_cons, ih, List.length_map, and_ev]
    cases y.ev η <;> simp

theorem multF_ok {n : Nat} {xv : List (Fn o)} (hx : xv.length = n) : ∀ (ys : List (Fn o)),
    ∃ r, multF n xv ys = .ok r ∧ r.length = n ∧
      ∀ η, (unsigned r η : Int) ≡ unsigned xv η * unsigned ys η [ZMOD 2 ^ n]
  | [] => ⟨_, rfl, by simp, fun η => by rw [unsigned_ff]; simp [unsigned, uv, Int.ModEq.refl]⟩
  | y :: ys => by
    obtain ⟨r, h1, h2, h3⟩ := multF_ok hx ys
    have hl : (lastn n (xv ++ List.replicate ys.length (ff o))).length = n := by simp [lastn]; omega
    obtain ⟨s, g1, g2, g3⟩ := fbvadd_ok (a := (lastn n (xv ++ List.replicate ys.length (ff o))).map fun x => y.and x)
      (b := r) (by rw [List.length_map, hl, h2])
    rw [List.length_map, hl] at g2 g3
    refine ⟨s, by simp [multF, h1, Out.bind, g1], g2, fun η => ?_⟩
    have e := g3 η
    rw [unsigned_and, unsigned_lastn (by simp; omega), unsigned_append, unsigned_ff, List.length_replicate] at e
    have e' : (unsigned s η : Int) = ((y.ev η).toNat * ((unsigned xv η * 2 ^ ys.length + 0) % 2 ^ n) + unsigned r η : Int) % 2 ^ n := by
      exact_mod_cast e
    refine (modEq_of_mod e').trans ?_
    have c1 := ((Int.mod_modEq (unsigned xv η * 2 ^ ys.length + 0 : Int) (2 ^ n)).mul_left ((y.ev η).toNat : Int)).add (h3 η)
    refine c1.trans ?_
    rw [unsigned_cons]
    push_cast
    have : ((y.ev η).toNat : Int) * (unsigned xv η * 2 ^ ys.length + 0) + unsigned xv η * unsigned ys η =
      unsigned xv η * ((y.ev η).toNat * 2 ^ ys.length + unsigned ys η) := by ring
    rw [this]

/-- The value of constants, least significant bit first. -/
theorem mulC_ok {n : Nat} (hn : 0 < n) : ∀ (cs a : List (Fn o)), a.length = n → IsConst cs →
    ∃ r, mulC n a cs = .ok r ∧ r.length = n ∧
      ∀ η, (unsigned r η : Int) ≡ unsigned a η * lv (bits cs η) [ZMOD 2 ^ n]
  | [], a, _, _ => ⟨List.replicate n (ff o), by simp [mulC], by simp, fun η => by rw [unsigned_ff]; simp [lv, Int.ModEq.refl]⟩
  | c :: cs, a, ha, hc => by
    obtain ⟨x, as, rfl⟩ := List.exists_cons_of_ne_nil (l := a) (by rintro rfl; simp at ha; omega)
    obtain ⟨r, h1, h2, h3⟩ := mulC_ok hn cs (as ++ [ff o]) (by simpa using ha) fun f hf => hc f (List.mem_cons_of_mem _ hf)
    have ht : ∀ η, (unsigned r η : Int) ≡ 2 * unsigned (x :: as) η * lv (bits cs η) [ZMOD 2 ^ n] := by
      intro η
      refine (h3 η).trans (Int.ModEq.mul_right _ ?_)
      have := unsigned_tail (x :: as) (ff o) η (by simp)
      rw [ha] at this
      simpa using this
    rcases hc c (by simp) with rfl | rfl
    · obtain ⟨s, g1, g2, g3⟩ := fbvadd_ok (a := x :: as) (b := r) (by rw [ha, h2])
      rw [ha] at g2 g3
      refine ⟨s, by simp [mulC, tl, Out.bind, h1, g1], g2, fun η => ?_⟩
      have e' : (unsigned s η : Int) = (unsigned (x :: as) η + unsigned r η : Int) % 2 ^ n := by exact_mod_cast g3 η
      refine (modEq_of_mod e').trans (((ht η).add_left _).trans ?_)
      have : (unsigned (x :: as) η : Int) + 2 * unsigned (x :: as) η * lv (bits cs η) =
        unsigned (x :: as) η * lv (bits (tt o :: cs) η) := by simp [lv]; ring
      rw [this]
    · have hne : ff o ≠ tt o := fun h => by have := congrArg (fun f => f.ev fun _ => false) h; simp at this
      refine ⟨r, by simp [mulC, tl, Out.bind, h1, hne], h2, fun η => (ht η).trans ?_⟩
      have : (2:Int) * unsigned (x :: as) η * lv (bits cs η) = unsigned (x :: as) η * lv (bits (ff o :: cs) η) := by
        simp [lv]; ring
      rw [this]

theorem lv_reverse (l : List (Fn o)) (η : Env) : lv (bits l.reverse η) = unsigned l η := by
  rw [← uv_reverse, bits_reverse, List.reverse_reverse]; rfl

theorem IsConst.reverse {l : List (Fn o)} (h : IsConst l) : IsConst l.reverse := fun f hf => h f (by simpa using hf)

theorem fbvConstMult_ok {a c : List (Fn o)} (ha : a ≠ []) (hc : c ≠ []) (hcc : IsConst c) :
    ∃ r, fbvConstMult a c = .ok r ∧ r.length = a.length ∧
      ∀ η, (unsigned r η : Int) ≡ unsigned a η * signed c η [ZMOD 2 ^ a.length] := by
  have hpos : 0 < a.length := List.length_pos_iff.2 ha
  obtain ⟨s, cs, rfl⟩ := List.exists_cons_of_ne_nil hc
  rcases hcc s (by simp) with rfl | rfl
  · have hne : tt o ≠ ff o := fun h => by have := congrArg (fun f => f.ev fun _ => false) h; simp at this
    obtain ⟨d, h1, h2, h3⟩ := fbvnegate_ok (a := tt o :: cs) (by simp)
    have hd : ∀ η, (unsigned d η : Int) = -signed (tt o :: cs) η := by
      intro η
      rw [h3, signed_cons]
      have hl := unsigned_lt (tt o :: cs) η
      have hl' : (unsigned (tt o :: cs) η : Int) < 2 ^ (cs.length + 1) := by exact_mod_cast hl
      have hge : (2:Int) ^ cs.length ≤ unsigned (tt o :: cs) η := by
        rw [unsigned_cons]; push_cast; simp
      have hpp : (0:Int) < 2 ^ cs.length := by positivity
      simp only [List.length_cons, const_ev, if_true]
      rw [show -(unsigned (tt o :: cs) η : Int) = (2 ^ (cs.length + 1) - unsigned (tt o :: cs) η) + (-1) * 2 ^ (cs.length + 1) by ring,
        Int.add_mul_emod_self_right, Int.emod_eq_of_lt (by omega) (by omega)]
      ring
    have hdc : IsConst d := by
      refine isConst_of_bits fun η ζ => ?_
      refine uv_inj _ _ (by simp) ?_
      have e1 := hd η
      have e2 := hd ζ
      rw [show signed (tt o :: cs) η = signed (tt o :: cs) ζ by unfold signed; rw [hcc.bits η ζ]] at e1
      have : (unsigned d η : Int) = unsigned d ζ := by rw [e1, e2]
      exact_mod_cast this
    obtain ⟨m, g1, g2, g3⟩ := mulC_ok hpos d.reverse a rfl hdc.reverse
    obtain ⟨r, k1, k2, k3⟩ := fbvnegate_ok (a := m) (by rintro rfl; simp at g2; omega)
    rw [g2] at k2 k3
    refine ⟨r, by simp [fbvConstMult, Gen.hd, Out.bind, hne, h1, g1, k1], k2, fun η => ?_⟩
    refine (modEq_of_mod (k3 η)).trans ?_
    have := (g3 η).neg
    rw [lv_reverse, hd η] at this
    simpa using this
  · obtain ⟨m, g1, g2, g3⟩ := mulC_ok hpos (ff o :: cs).reverse a rfl hcc.reverse
    refine ⟨m, by simp only [fbvConstMult, Gen.hd, Out.bind, if_true, g1], g2, fun η => ?_⟩
    have := g3 η
    rw [lv_reverse] at this
    rw [signed_cons]
    simpa using this

theorem fbvmult_ok {p : Fn o} {a b : List (Fn o)} (ha : a ≠ []) (h : a.length = b.length) :
    ∃ r, fbvmult p a b = .ok r ∧ r.length = a.length ∧
      ∀ η, p.ev η = true → (unsigned r η : Int) ≡ unsigned a η * unsigned b η [ZMOD 2 ^ a.length] := by
  have hb : b ≠ [] := by rintro rfl; simp at h; exact ha h
  have sm : ∀ (l : List (Fn o)) η, (signed l η) ≡ unsigned l η [ZMOD 2 ^ l.length] := by
    intro l η
    obtain ⟨k, hk⟩ := signed_mod l η
    rw [hk]
    exact (Int.modEq_iff_dvd).2 ⟨k, by ring⟩
  by_cases h1 : depends a = []
  · obtain ⟨r, g1, g2, g3⟩ := fbvConstMult_ok hb ha (isConst_depends h1)
    rw [← h] at g2 g3
    refine ⟨r, by simp [fbvmult, h1, g1], g2, fun η _ => (g3 η).trans ?_⟩
    rw [mul_comm]
    exact (sm a η).mul_right _
  by_cases h2 : depends b = []
  · obtain ⟨r, g1, g2, g3⟩ := fbvConstMult_ok ha hb (isConst_depends h2)
    refine ⟨r, by simp [fbvmult, h1, h2, g1], g2, fun η _ => (g3 η).trans ?_⟩
    have := (sm b η)
    rw [← h] at this
    exact this.mul_left _
  obtain ⟨x, as, rfl, hx⟩ := hd_ok ha
  obtain ⟨y, bs, rfl, hy⟩ := hd_ok hb
  obtain ⟨na, n1, n2, n3⟩ := fbvnegate_ok (a := x :: as) (by simp)
  obtain ⟨nb, m1, m2, m3⟩ := fbvnegate_ok (a := y :: bs) (by simp)
  rw [← h] at m2 m3
  obtain ⟨A, A1, A2, A3⟩ := branchList_ok (p := p) (c := x) (t := fun _ => fbvnegate (x :: as)) (e := fun _ => .ok (x :: as))
    (n := (x :: as).length) (R := fun η l => (uv l : Int) ≡ (if x.ev η then -1 else 1) * unsigned (x :: as) η [ZMOD 2 ^ (x :: as).length])
    (fun p' hp => ⟨na, n1, n2, fun η hη => by rw [if_pos (hp η hη).2]; rw [neg_one_mul]; exact modEq_of_mod (n3 η)⟩)
    (fun p' hp => ⟨_, rfl, rfl, fun η hη => by rw [if_neg (by simp [(hp η hη).2])]; simp only [one_mul]; exact Int.ModEq.refl _⟩)
  obtain ⟨B, B1, B2, B3⟩ := branchList_ok (p := p) (c := y) (t := fun _ => fbvnegate (y :: bs)) (e := fun _ => .ok (y :: bs))
    (n := (x :: as).length) (R := fun η l => (uv l : Int) ≡ (if y.ev η then -1 else 1) * unsigned (y :: bs) η [ZMOD 2 ^ (x :: as).length])
    (fun p' hp => ⟨nb, m1, m2, fun η hη => by rw [if_pos (hp η hη).2]; rw [neg_one_mul]; exact modEq_of_mod (m3 η)⟩)
    (fun p' hp => ⟨_, rfl, h.symm, fun η hη => by rw [if_neg (by simp [(hp η hη).2])]; simp only [one_mul]; exact Int.ModEq.refl _⟩)
  obtain ⟨m, g1, g2, g3⟩ := multF_ok A2 B
  obtain ⟨nm, k1, k2, k3⟩ := fbvnegate_ok (a := m) (by rintro rfl; simp at g2)
  rw [g2] at k2 k3
  obtain ⟨r, r1, r2, r3⟩ := branchList_ok (p := p) (c := x.xor y) (t := fun _ => fbvnegate m) (e := fun _ => .ok m)
    (n := (x :: as).length) (R := fun η l => (uv l : Int) ≡ (if (x.xor y).ev η then -1 else 1) * unsigned m η [ZMOD 2 ^ (x :: as).length])
    (fun p' hp => ⟨nm, k1, k2, fun η hη => by rw [if_pos (hp η hη).2]; rw [neg_one_mul]; exact modEq_of_mod (k3 η)⟩)
    (fun p' hp => ⟨_, rfl, g2, fun η hη => by rw [if_neg (by simp [(hp η hη).2])]; simp only [one_mul]; exact Int.ModEq.refl _⟩)
  refine ⟨r, ?_, r2, fun η hp => ?_⟩
  · unfold fbvmult
    rw [if_neg h1, if_neg h2, if_neg (by omega)]
    simp only [Gen.hd, Out.bind, A1, B1, g1, r1]
  · refine (r3 η hp).trans (((g3 η).mul_left _).trans ?_)
    refine ((((A3 η hp).mul (B3 η hp)).mul_left _).trans ?_)
    rw [xor_ev]
    cases x.ev η <;> cases y.ev η <;> simp [Int.ModEq.refl]

end Voss.Gen
