import Verif.Gen.Model
import Verif.Gen.Spec
import Verif.Bv.Lemmas
/-
Lemmas about the library of bit-vectors: conditionals, extension, addition, comparison.
-/
namespace Voss.Gen
open Voss.Pre Voss.Pre.Fn
open Voss.Bv (uv tc)
variable {o : Order}

@[simp] theorem bits_length (l : List (Fn o)) (η : Env) : (bits l η).length = l.length := by simp [bits]
@[simp] theorem bits_nil (η : Env) : bits ([] : List (Fn o)) η = [] := rfl
@[simp] theorem bits_cons (b : Fn o) (l : List (Fn o)) (η : Env) : bits (b :: l) η = b.ev η :: bits l η := rfl
@[simp] theorem bits_append (l m : List (Fn o)) (η : Env) : bits (l ++ m) η = bits l η ++ bits m η := by simp [bits]
@[simp] theorem bits_replicate (n : Nat) (b : Fn o) (η : Env) :
    bits (List.replicate n b) η = List.replicate n (b.ev η) := by simp [bits]
@[simp] theorem bits_reverse (l : List (Fn o)) (η : Env) : bits l.reverse η = (bits l η).reverse := by simp [bits]
theorem bits_not (l : List (Fn o)) (η : Env) : bits (l.map Fn.not) η = (bits l η).map (!·) := by simp [bits]
theorem bits_ne_nil {l : List (Fn o)} (h : l ≠ []) (η : Env) : bits l η ≠ [] := by simpa [bits] using h

/-! ### Conditionals -/

/-- A conditional whose branches succeed under the condition that they run under, and whose results can be merged. -/
theorem branch_ok {α : Type} {p c : Fn o} {t e : Fn o → Out α} {merge : Fn o → α → α → Out α}
    {Q : α → Prop} {R : Env → α → Prop}
    (ht : ∀ p', (∀ η, p'.ev η = true → p.ev η = true ∧ c.ev η = true) →
      ∃ x, t p' = .ok x ∧ Q x ∧ ∀ η, p'.ev η = true → R η x)
    (he : ∀ p', (∀ η, p'.ev η = true → p.ev η = true ∧ c.ev η = false) →
      ∃ x, e p' = .ok x ∧ Q x ∧ ∀ η, p'.ev η = true → R η x)
    (hm : ∀ x y, Q x → Q y → ∃ z, merge c x y = .ok z ∧ Q z ∧
      ∀ η, (c.ev η = true → R η x → R η z) ∧ (c.ev η = false → R η y → R η z)) :
    ∃ z, branch p c t e merge = .ok z ∧ Q z ∧ ∀ η, p.ev η = true → R η z := by
  unfold branch
  split
  · rename_i h
    exact ht p fun η hp => ⟨hp, by rw [h]; rfl⟩
  · split
    · rename_i h
      exact he p fun η hp => ⟨hp, by rw [h]; rfl⟩
    · split
      · rename_i h
        obtain ⟨x, h1, h2, h3⟩ := he (p.and c.not) fun η hp => by simpa using hp
        refine ⟨x, h1, h2, fun η hp => h3 η ?_⟩
        have := congrArg (fun f => f.ev η) h
        simp [hp] at this
        simp [hp, this]
      · split
        · rename_i h
          obtain ⟨x, h1, h2, h3⟩ := ht (p.and c) fun η hp => by simpa using hp
          refine ⟨x, h1, h2, fun η hp => h3 η ?_⟩
          have := congrArg (fun f => f.ev η) h
          simp [hp] at this
          simp [hp, this]
        · obtain ⟨x, h1, h2, h3⟩ := ht (p.and c) fun η hp => by simpa using hp
          obtain ⟨y, g1, g2, g3⟩ := he (p.and c.not) fun η hp => by simpa using hp
          obtain ⟨z, m1, m2, m3⟩ := hm x y h2 g2
          refine ⟨z, by simp [h1, g1, m1, Out.bind], m2, fun η hp => ?_⟩
          cases hc : c.ev η
          · exact (m3 η).2 hc (g3 η (by simp [hp, hc]))
          · exact (m3 η).1 hc (h3 η (by simp [hp, hc]))

/-- A conditional that succeeds, whose branches are right when they succeed. -/
theorem branch_right {α : Type} {p c : Fn o} {t e : Fn o → Out α} {merge : Fn o → α → α → Out α} {R : Env → α → Prop} {z : α}
    (hz : branch p c t e merge = .ok z)
    (ht : ∀ p' x, t p' = .ok x → (∀ η, p'.ev η = true → p.ev η = true ∧ c.ev η = true) → ∀ η, p'.ev η = true → R η x)
    (he : ∀ p' x, e p' = .ok x → (∀ η, p'.ev η = true → p.ev η = true ∧ c.ev η = false) → ∀ η, p'.ev η = true → R η x)
    (hm : ∀ x y z, merge c x y = .ok z → ∀ η, (c.ev η = true → R η x → R η z) ∧ (c.ev η = false → R η y → R η z)) :
    ∀ η, p.ev η = true → R η z := by
  unfold branch at hz
  split at hz
  · rename_i h
    exact ht p z hz fun η hp => ⟨hp, by rw [h]; rfl⟩
  · split at hz
    · rename_i h
      exact he p z hz fun η hp => ⟨hp, by rw [h]; rfl⟩
    · split at hz
      · rename_i h
        intro η hp
        refine he _ z hz (fun η hp => by simpa using hp) η ?_
        have := congrArg (fun f => f.ev η) h
        simp [hp] at this
        simp [hp, this]
      · split at hz
        · rename_i h
          intro η hp
          refine ht _ z hz (fun η hp => by simpa using hp) η ?_
          have := congrArg (fun f => f.ev η) h
          simp [hp] at this
          simp [hp, this]
        · intro η hp
          cases h1 : t (p.and c) with
          | fail => simp [h1, Out.bind] at hz
          | more => simp [h1, Out.bind] at hz
          | ok x =>
            cases h2 : e (p.and c.not) with
            | fail => simp [h1, h2, Out.bind] at hz
            | more => simp [h1, h2, Out.bind] at hz
            | ok y =>
              simp only [h1, h2, Out.bind] at hz
              cases hc : c.ev η
              · exact (hm x y z hz η).2 hc (he _ y h2 (fun η hp => by simpa using hp) η (by simp [hp, hc]))
              · exact (hm x y z hz η).1 hc (ht _ x h1 (fun η hp => by simpa using hp) η (by simp [hp, hc]))

theorem mergeList_bits {c : Fn o} {η : Env} : ∀ (x y : List (Fn o)), x.length = y.length →
    bits (List.zipWith (fun a b => (c.and a).or (c.not.and b)) x y) η = if c.ev η then bits x η else bits y η
  | [], [], _ => by simp
  | [], _ :: _, h => by simp at h
  | _ :: _, [], h => by simp at h
  | a :: x, b :: y, h => by
    have ih := mergeList_bits (c := c) (η := η) x y (by simpa using h)
    simp only [List.zipWith_cons_cons, bits_cons, ih, or_ev, and_ev, not_ev]
    cases c.ev η <;> simp

theorem mergeList_ok {c : Fn o} {x y : List (Fn o)} (h : x.length = y.length) :
    ∃ z, mergeList c x y = .ok z ∧ z.length = y.length ∧ ∀ η, bits z η = if c.ev η then bits x η else bits y η :=
  ⟨_, by rw [mergeList, if_pos h], by simp [h], fun η => mergeList_bits x y h⟩

theorem mergeList_right {c : Fn o} {x y z : List (Fn o)} (h : mergeList c x y = .ok z) :
    ∀ η, bits z η = if c.ev η then bits x η else bits y η := by
  unfold mergeList at h
  split at h
  · rename_i hl
    simp only [Out.ok.injEq] at h
    subst h
    exact fun η => mergeList_bits x y hl
  · simp at h

/-- Conditionals on vectors of one length. -/
theorem branchList_ok {p c : Fn o} {t e : Fn o → Out (List (Fn o))} {n : Nat} {R : Env → List Bool → Prop}
    (ht : ∀ p', (∀ η, p'.ev η = true → p.ev η = true ∧ c.ev η = true) →
      ∃ x, t p' = .ok x ∧ x.length = n ∧ ∀ η, p'.ev η = true → R η (bits x η))
    (he : ∀ p', (∀ η, p'.ev η = true → p.ev η = true ∧ c.ev η = false) →
      ∃ x, e p' = .ok x ∧ x.length = n ∧ ∀ η, p'.ev η = true → R η (bits x η)) :
    ∃ z, branch p c t e mergeList = .ok z ∧ z.length = n ∧ ∀ η, p.ev η = true → R η (bits z η) := by
  refine branch_ok (Q := fun x => x.length = n) (R := fun η x => R η (bits x η)) ht he ?_
  intro x y hx hy
  obtain ⟨z, h1, h2, h3⟩ := mergeList_ok (c := c) (x := x) (y := y) (by omega)
  refine ⟨z, h1, by omega, fun η => ⟨fun hc h => ?_, fun hc h => ?_⟩⟩
  · rw [h3, if_pos hc]; exact h
  · rw [h3, if_neg (by simp [hc])]; exact h

theorem branchList_right {p c : Fn o} {t e : Fn o → Out (List (Fn o))} {z : List (Fn o)} {R : Env → List Bool → Prop}
    (hz : branch p c t e mergeList = .ok z)
    (ht : ∀ p' x, t p' = .ok x → (∀ η, p'.ev η = true → p.ev η = true ∧ c.ev η = true) →
      ∀ η, p'.ev η = true → R η (bits x η))
    (he : ∀ p' x, e p' = .ok x → (∀ η, p'.ev η = true → p.ev η = true ∧ c.ev η = false) →
      ∀ η, p'.ev η = true → R η (bits x η)) :
    ∀ η, p.ev η = true → R η (bits z η) := by
  refine branch_right (R := fun η x => R η (bits x η)) hz ht he ?_
  intro x y z h η
  refine ⟨fun hc h' => ?_, fun hc h' => ?_⟩
  · rw [mergeList_right h, if_pos hc]; exact h'
  · rw [mergeList_right h, if_neg (by simp [hc])]; exact h'

/-- Conditionals on Booleans. -/
theorem branchBool_ok {p c : Fn o} {t e : Fn o → Out (Fn o)} {R : Env → Bool → Prop}
    (ht : ∀ p', (∀ η, p'.ev η = true → p.ev η = true ∧ c.ev η = true) →
      ∃ x, t p' = .ok x ∧ ∀ η, p'.ev η = true → R η (x.ev η))
    (he : ∀ p', (∀ η, p'.ev η = true → p.ev η = true ∧ c.ev η = false) →
      ∃ x, e p' = .ok x ∧ ∀ η, p'.ev η = true → R η (x.ev η)) :
    ∃ z, branch p c t e mergeBool = .ok z ∧ ∀ η, p.ev η = true → R η (z.ev η) := by
  obtain ⟨z, h1, -, h2⟩ := branch_ok (p := p) (c := c) (t := t) (e := e) (merge := mergeBool)
    (Q := fun _ => True) (R := fun η x => R η (x.ev η))
    (fun p' hp => by obtain ⟨x, h1, h2⟩ := ht p' hp; exact ⟨x, h1, trivial, h2⟩)
    (fun p' hp => by obtain ⟨x, h1, h2⟩ := he p' hp; exact ⟨x, h1, trivial, h2⟩)
    (fun x y _ _ => ⟨_, rfl, trivial, fun η => ⟨fun hc h => by simpa [hc] using h, fun hc h => by simpa [hc] using h⟩⟩)
  exact ⟨z, h1, h2⟩

/-! ### Trimming and extension -/

theorem bvTrim_ne_nil : ∀ (l : List (Fn o)), bvTrim l ≠ []
  | [] => by simp [bvTrim]
  | [_] => by simp [bvTrim]
  | b1 :: b2 :: bs => by
    unfold bvTrim
    split
    · exact bvTrim_ne_nil (b2 :: bs)
    · simp

theorem signed_bvTrim (η : Env) : ∀ (l : List (Fn o)), signed (bvTrim l) η = signed l η
  | [] => by simp [bvTrim, signed, tc, uv]
  | [_] => by simp [bvTrim]
  | b1 :: b2 :: bs => by
    unfold bvTrim
    split
    · rename_i h
      rw [signed_bvTrim η (b2 :: bs), h]
      exact (Bv.tc_cons_same _ _).symm
    · rfl

theorem bvTrim_length : ∀ (l : List (Fn o)), l ≠ [] → (bvTrim l).length ≤ l.length
  | [], h => by simp at h
  | [_], _ => by simp [bvTrim]
  | b1 :: b2 :: bs, _ => by
    unfold bvTrim
    split
    · have := bvTrim_length (b2 :: bs) (by simp)
      simp only [List.length_cons] at this ⊢
      omega
    · simp

theorem bvTrim_trimmed : ∀ (l : List (Fn o)), ∀ b1 b2 bs, bvTrim l = b1 :: b2 :: bs → b1 ≠ b2
  | [] => by simp [bvTrim]
  | [_] => by simp [bvTrim]
  | c1 :: c2 :: cs => by
    intro b1 b2 bs h
    unfold bvTrim at h
    split at h
    · exact bvTrim_trimmed _ _ _ _ h
    · rename_i hne
      simp only [List.cons.injEq] at h
      obtain ⟨rfl, rfl, -⟩ := h
      exact hne

theorem sx_ok {l : Nat} {bv : List (Fn o)} (hne : bv ≠ []) (h : bv.length ≤ l) :
    ∃ r, sx l bv = .ok r ∧ r.length = l ∧ r ≠ [] ∧ ∀ η, signed r η = signed bv η := by
  obtain ⟨b, bs, rfl⟩ := List.exists_cons_of_ne_nil hne
  simp only [List.length_cons] at h
  refine ⟨List.replicate (l - (bs.length + 1)) b ++ b :: bs, ?_, ?_, by simp, fun η => ?_⟩
  · unfold sx
    rw [if_neg (by simp; omega)]
  · simp; omega
  · unfold signed
    rw [bits_append, bits_replicate]
    have := Bv.tc_replicate (l - (bs.length + 1)) (bits (b :: bs) η) (by simp)
    simpa using this

theorem sx_fail {l : Nat} {bv : List (Fn o)} (h : l < bv.length) : sx l bv = .fail := by
  unfold sx
  rw [if_pos h]

theorem sx_bvTrim : ∀ (l : List (Fn o)), l ≠ [] → ∀ (n : Nat), l.length = n → sx n (bvTrim l) = .ok l
  | [], h, _, _ => by simp at h
  | [b], _, n, hn => by simp at hn; subst hn; simp [bvTrim, sx]
  | b1 :: b2 :: bs, _, n, hn => by
    unfold bvTrim
    split
    · rename_i h
      have ih := sx_bvTrim (b2 :: bs) (by simp) (n - 1) (by simp at hn ⊢; omega)
      have hne := bvTrim_ne_nil (b2 :: bs)
      have hlen := bvTrim_length (b2 :: bs) (by simp)
      obtain ⟨c, cs, hc⟩ := List.exists_cons_of_ne_nil hne
      rw [hc] at ih hlen ⊢
      simp only [List.length_cons] at hn hlen
      unfold sx at ih ⊢
      rw [if_neg (by simp; omega)] at ih ⊢
      simp only [Out.ok.injEq] at ih ⊢
      have e : n - (cs.length + 1) = (n - 1 - (cs.length + 1)) + 1 := by omega
      rw [e, List.replicate_succ, List.cons_append, ih]
      have hb : c = b2 := by
        have := congrArg List.head? ih
        cases hr : n - 1 - (cs.length + 1) with
        | zero => rw [hr] at this; simpa using this
        | succ k => rw [hr, List.replicate_succ] at this; simpa using this
      rw [h, hb]
    · simp only [List.length_cons] at hn
      unfold sx
      rw [if_neg (by simp; omega)]
      simp [← hn]

theorem sx2_ok {a b : List (Fn o)} (ha : a ≠ []) (hb : b ≠ []) :
    ∃ x y, sx2 a b = .ok (x, y) ∧ x.length = max a.length b.length ∧ y.length = max a.length b.length ∧ x ≠ [] ∧ y ≠ [] ∧
      ∀ η, signed x η = signed a η ∧ signed y η = signed b η := by
  obtain ⟨x, h1, h2, h3, h4⟩ := sx_ok (l := max a.length b.length) ha (by omega)
  obtain ⟨y, g1, g2, g3, g4⟩ := sx_ok (l := max a.length b.length) hb (by omega)
  exact ⟨x, y, by simp [sx2, h1, g1, Out.bind], h2, g2, h3, g3, fun η => ⟨h4 η, g4 η⟩⟩

theorem sx2_same {a b : List (Fn o)} (ha : a ≠ []) (h : a.length = b.length) : sx2 a b = .ok (a, b) := by
  obtain ⟨x, a, rfl⟩ := List.exists_cons_of_ne_nil ha
  obtain ⟨y, b, rfl⟩ := List.exists_cons_of_ne_nil (l := b) (by rintro rfl; simp at h)
  simp only [List.length_cons, Nat.add_right_cancel_iff] at h
  simp [sx2, sx, Out.bind, h]

theorem zx_ok {l : Nat} {bv : List (Fn o)} (h : bv.length ≤ l) :
    ∃ r, zx l bv = .ok r ∧ r.length = l ∧ ∀ η, unsigned r η = unsigned bv η := by
  refine ⟨List.replicate (l - bv.length) (ff o) ++ bv, ?_, by simp; omega, fun η => ?_⟩
  · unfold zx
    rw [if_neg (by omega)]
  · unfold unsigned
    rw [bits_append, bits_replicate, Bv.uv_append]
    simp [Bv.uv_replicate_false]

/-! ### Addition -/

/-- Value of a list with the least significant bit first. -/
def lv : List Bool → Nat
  | [] => 0
  | b :: bs => b.toNat + 2 * lv bs

theorem uv_reverse : ∀ (l : List Bool), uv l.reverse = lv l
  | [] => rfl
  | b :: l => by
    rw [List.reverse_cons, Bv.uv_append, uv_reverse l]
    simp [uv, lv]
    cases b <;> simp <;> omega

theorem addBits_spec (η : Env) : ∀ (a b : List (Fn o)) (c : Fn o), a.length = b.length →
    (addBits a b c).length = a.length + 1 ∧
    lv (bits (addBits a b c) η) = lv (bits a η) + lv (bits b η) + (c.ev η).toNat
  | [], [], c, _ => by simp [addBits, lv]
  | [], _ :: _, _, h => by simp at h
  | _ :: _, [], _, h => by simp at h
  | a :: as, b :: bs, c, h => by
    obtain ⟨h1, h2⟩ := addBits_spec η as bs (((a.and b).or (a.and c)).or (b.and c)) (by simpa using h)
    refine ⟨by simp [addBits, h1], ?_⟩
    simp only [addBits, bits_cons, lv, h2, or_ev, and_ev, xor_ev]
    cases a.ev η <;> cases b.ev η <;> cases c.ev η <;> simp <;> omega

theorem extGenBvadd_ok {a b : List (Fn o)} (c : Fn o) (h : a.length = b.length) :
    ∃ h0 t, extGenBvadd a b c = .ok (h0 :: t) ∧ t.length = a.length ∧
      ∀ η, (h0.ev η).toNat * 2 ^ a.length + unsigned t η = unsigned a η + unsigned b η + (c.ev η).toNat := by
  have hl : (addBits a.reverse b.reverse c).reverse.length = a.length + 1 := by
    rw [List.length_reverse]
    have := (addBits_spec (fun _ => false) a.reverse b.reverse c (by simpa using h)).1
    simpa using this
  obtain ⟨h0, t, ht⟩ := List.exists_cons_of_ne_nil (l := (addBits a.reverse b.reverse c).reverse)
    (by intro hh; rw [hh] at hl; simp at hl)
  have htl : t.length = a.length := by rw [ht] at hl; simpa using hl
  refine ⟨h0, t, by rw [extGenBvadd, if_neg (by omega), ht], htl, fun η => ?_⟩
  have h2 := (addBits_spec η a.reverse b.reverse c (by simpa using h)).2
  have e : unsigned (h0 :: t) η = lv (bits (addBits a.reverse b.reverse c) η) := by
    rw [← ht]; unfold unsigned; rw [bits_reverse, uv_reverse]
  have ea : lv (bits a.reverse η) = unsigned a η := by
    rw [← uv_reverse, bits_reverse, List.reverse_reverse]; rfl
  have eb : lv (bits b.reverse η) = unsigned b η := by
    rw [← uv_reverse, bits_reverse, List.reverse_reverse]; rfl
  rw [h2, ea, eb] at e
  rw [← e]
  simp only [unsigned, bits_cons, uv, bits_length, htl]
  cases h0.ev η <;> simp

theorem unsigned_lt (l : List (Fn o)) (η : Env) : unsigned l η < 2 ^ l.length := by
  have := Bv.uv_lt (bits l η)
  rwa [bits_length] at this

theorem uv_not : ∀ (l : List Bool), uv (l.map (!·)) + uv l + 1 = 2 ^ l.length
  | [] => by simp [uv]
  | b :: l => by
    have := uv_not l
    simp only [List.map_cons, uv, List.length_map, List.length_cons, pow_succ]
    cases b <;> simp <;> omega

theorem unsigned_not (l : List (Fn o)) (η : Env) : unsigned (l.map Fn.not) η + unsigned l η + 1 = 2 ^ l.length := by
  unfold unsigned
  rw [bits_not]
  have := uv_not (bits l η)
  rwa [bits_length] at this

theorem fbvadd_ok {a b : List (Fn o)} (h : a.length = b.length) :
    ∃ r, fbvadd a b = .ok r ∧ r.length = a.length ∧
      ∀ η, unsigned r η = (unsigned a η + unsigned b η) % 2 ^ a.length := by
  obtain ⟨h0, t, h1, h2, h3⟩ := extGenBvadd_ok (ff o) h
  refine ⟨t, by simp [fbvadd, h1, Out.bind, tl], h2, fun η => ?_⟩
  have h3 := h3 η
  simp only [const_ev, Bool.toNat_false, Nat.add_zero] at h3
  rw [← h3, Nat.add_comm, Nat.add_mul_mod_self_right, Nat.mod_eq_of_lt]
  rw [← h2]
  exact unsigned_lt t η

theorem fbvsub_ok {a b : List (Fn o)} (h : a.length = b.length) :
    ∃ r, fbvsub a b = .ok r ∧ r.length = a.length ∧
      ∀ η, (unsigned r η : Int) = ((unsigned a η : Int) - unsigned b η) % 2 ^ a.length := by
  obtain ⟨h0, t, h1, h2, h3⟩ := extGenBvadd_ok (a := a) (b := b.map Fn.not) (tt o) (by simpa using h)
  refine ⟨t, by simp [fbvsub, h1, Out.bind, tl], h2, fun η => ?_⟩
  have h3 := h3 η
  have hn := unsigned_not b η
  have hlt := unsigned_lt t η
  simp only [const_ev, Bool.toNat_true] at h3
  rw [h2] at hlt
  rw [← h] at hn
  have e : (unsigned a η : Int) - unsigned b η = unsigned t η + (((h0.ev η).toNat : Int) - 1) * 2 ^ a.length := by
    zify at h3 hn
    linarith
  rw [e, Int.add_mul_emod_self_right, Int.emod_eq_of_lt (by positivity)]
  exact_mod_cast hlt

/-- The number in two's complement and the number without sign are the same modulo the number of values. -/
theorem signed_mod (l : List (Fn o)) (η : Env) : ∃ k : Int, (unsigned l η : Int) = signed l η + k * 2 ^ l.length := by
  cases l with
  | nil => exact ⟨0, by simp [unsigned, signed, tc, uv]⟩
  | cons b l =>
    have := Bv.tc_eq (bits (b :: l) η) (by simp)
    simp only [bits_length] at this
    unfold unsigned signed
    split at this
    · exact ⟨1, by rw [this]; ring⟩
    · exact ⟨0, by rw [this]; ring⟩

theorem signed_bounds {l : List (Fn o)} (hne : l ≠ []) (η : Env) :
    -(2:Int) ^ (l.length - 1) ≤ signed l η ∧ signed l η < 2 ^ (l.length - 1) := by
  obtain ⟨b, l, rfl⟩ := List.exists_cons_of_ne_nil hne
  have := Bv.tc_bounds (b.ev η) (bits l η)
  simpa [signed] using this

theorem signed_of_mod {l : List (Fn o)} {η : Env} {n : Nat} {z k : Int} (hn : l.length = n + 1)
    (h : (unsigned l η : Int) = z + k * 2 ^ (n + 1)) (h1 : -(2:Int) ^ n ≤ z) (h2 : z < 2 ^ n) : signed l η = z :=
  Bv.tc_of_mod (bits l η) n z k (by simpa using hn) h h1 h2

theorem hd_ok {l : List (Fn o)} (h : l ≠ []) : ∃ b bs, l = b :: bs ∧ hd l = .ok b := by
  obtain ⟨b, bs, rfl⟩ := List.exists_cons_of_ne_nil h
  exact ⟨b, bs, rfl, rfl⟩

theorem signed_cons_same (b : Fn o) (l : List (Fn o)) (η : Env) : signed (b :: b :: l) η = signed (b :: l) η :=
  Bv.tc_cons_same _ _

theorem dbvadd_ok {a b : List (Fn o)} (ha : a ≠ []) (hb : b ≠ []) :
    ∃ r, dbvadd a b = .ok r ∧ r ≠ [] ∧ r.length ≤ max a.length b.length + 1 ∧ ∀ η, signed r η = signed a η + signed b η := by
  obtain ⟨x, y, h1, hx, hy, hxn, hyn, hv⟩ := sx2_ok ha hb
  obtain ⟨u, us, rfl, hu⟩ := hd_ok hxn
  obtain ⟨v, vs, rfl, hv'⟩ := hd_ok hyn
  obtain ⟨h0, t, h2, h3, h4⟩ := extGenBvadd_ok (a := u :: u :: us) (b := v :: v :: vs) (ff o) (by simp at hx hy ⊢; omega)
  have ht : t ≠ [] := by rintro rfl; simp at h3
  refine ⟨bvTrim t, ?_, bvTrim_ne_nil t, ?_, fun η => ?_⟩
  · simp [dbvadd, h1, Out.bind, hd, h2, tl]
  · have := bvTrim_length t ht
    simp at hx h3
    omega
  · rw [signed_bvTrim]
    obtain ⟨k1, e1⟩ := signed_mod (u :: u :: us) η
    obtain ⟨k2, e2⟩ := signed_mod (v :: v :: vs) η
    have b1 := signed_bounds (l := u :: us) (by simp) η
    have b2 := signed_bounds (l := v :: vs) (by simp) η
    have h4 := h4 η
    rw [← (hv η).1, ← (hv η).2]
    rw [signed_cons_same] at e1 e2
    have hl : us.length = vs.length := by simp at hx hy; omega
    simp only [List.length_cons, Nat.add_sub_cancel] at *
    rw [← hl] at b2 e2
    refine signed_of_mod (n := us.length + 1) (k := k1 + k2 - (h0.ev η).toNat) h3 ?_ ?_ ?_
    · simp only [const_ev, Bool.toNat_false] at h4
      zify at h4
      push_cast
      linarith
    · rw [pow_succ]; linarith [b1.1, b2.1]
    · rw [pow_succ]; linarith [b1.2, b2.2]

theorem dbvsub_ok {a b : List (Fn o)} (ha : a ≠ []) (hb : b ≠ []) :
    ∃ r, dbvsub a b = .ok r ∧ r ≠ [] ∧ r.length ≤ max a.length b.length + 1 ∧ ∀ η, signed r η = signed a η - signed b η := by
  obtain ⟨x, y, h1, hx, hy, hxn, hyn, hv⟩ := sx2_ok ha hb
  obtain ⟨u, us, rfl, hu⟩ := hd_ok hxn
  obtain ⟨v, vs, rfl, hv'⟩ := hd_ok hyn
  obtain ⟨h0, t, h2, h3, h4⟩ := extGenBvadd_ok (a := u :: u :: us) (b := (v :: v :: vs).map Fn.not) (tt o)
    (by simp at hx hy ⊢; omega)
  have ht : t ≠ [] := by rintro rfl; simp at h3
  refine ⟨bvTrim t, ?_, bvTrim_ne_nil t, ?_, fun η => ?_⟩
  · simp only [List.map_cons] at h2
    simp [dbvsub, h1, Out.bind, hd, h2, tl]
  · have := bvTrim_length t ht
    simp at hx h3
    omega
  · rw [signed_bvTrim]
    obtain ⟨k1, e1⟩ := signed_mod (u :: u :: us) η
    obtain ⟨k2, e2⟩ := signed_mod (v :: v :: vs) η
    have b1 := signed_bounds (l := u :: us) (by simp) η
    have b2 := signed_bounds (l := v :: vs) (by simp) η
    have h4 := h4 η
    have hn := unsigned_not (v :: v :: vs) η
    rw [← (hv η).1, ← (hv η).2]
    rw [signed_cons_same] at e1 e2
    have hl : us.length = vs.length := by simp at hx hy; omega
    simp only [List.length_cons, Nat.add_sub_cancel] at *
    rw [← hl] at b2 e2 hn
    refine signed_of_mod (n := us.length + 1) (k := k1 - k2 - (h0.ev η).toNat + 1) h3 ?_ ?_ ?_
    · simp only [const_ev, Bool.toNat_true] at h4
      zify at h4 hn
      linarith
    · rw [pow_succ]; linarith [b1.1, b2.2]
    · rw [pow_succ]; linarith [b1.2, b2.1]

end Voss.Gen
