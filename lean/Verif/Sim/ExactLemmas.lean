import Verif.Sim.BitsLemmas
import Verif.Sim.RelLemmas
/-
On known Boolean values the primitives compute the intended word operations.
-/
namespace Voss.Sim
open Voss.Bv (uv tc uv_lt uv_append)

/-- A known word. -/
def encW (w : List Bool) : List (DR Bool) := w.map enc
def encTW (w : List (Option Bool)) : List (DR Bool) := w.map encT

theorem encW_length (w : List Bool) : (encW w).length = w.length := by simp [encW]
theorem encTW_some (w : List Bool) : encTW (w.map some) = encW w := by simp [encTW, encW, encT]
theorem enc_swap (b : Bool) : (enc b).swap = enc (!b) := by cases b <;> rfl
theorem dr0_enc : dr0 boolOps = enc false := rfl
theorem dr1_enc : dr1 boolOps = enc true := rfl
theorem drX_enc : drX boolOps = encT none := rfl
theorem encW_cons (b : Bool) (w : List Bool) : encW (b :: w) = enc b :: encW w := rfl
theorem encW_nil : encW [] = [] := rfl
theorem encW_append (v w : List Bool) : encW (v ++ w) = encW v ++ encW w := by simp [encW]
theorem encW_take (n : Nat) (w : List Bool) : (encW w).take n = encW (w.take n) := by simp [encW, List.map_take]
theorem encW_drop (n : Nat) (w : List Bool) : (encW w).drop n = encW (w.drop n) := by simp [encW, List.map_drop]
theorem encW_replicate (n : Nat) (b : Bool) : List.replicate n (enc b) = encW (List.replicate n b) := by simp [encW]
theorem encW_swap (w : List Bool) : (encW w).map DR.swap = encW (w.map (!·)) := by
  simp [encW, Function.comp_def, enc_swap]

theorem cmpCell_enc (a b g : Bool) : cmpCell boolOps (enc a) (enc b) (enc g) = enc ((a && !b) || ((a || !b) && g)) := by
  cases a <;> cases b <;> cases g <;> rfl
theorem sumCell_enc (a b c : Bool) : sumCell boolOps (enc a) (enc b) (enc c) = enc (a ^^ b ^^ c) := by
  cases a <;> cases b <;> cases c <;> rfl
theorem carryCell_enc (a b c : Bool) : carryCell boolOps (enc a) (enc b) (enc c) = enc ((a && b) || (a && c) || (b && c)) := by
  cases a <;> cases b <;> cases c <;> rfl
theorem iteCell_encT (c : Bool) (a b : Option Bool) : iteCell boolOps (enc c) (encT a) (encT b) = encT (if c then a else b) := by
  cases c <;> rcases a with _ | a <;> rcases b with _ | b <;> (try cases a) <;> (try cases b) <;> rfl
theorem iteCell_enc (c a b : Bool) : iteCell boolOps (enc c) (enc a) (enc b) = enc (if c then a else b) := by
  cases c <;> cases a <;> cases b <;> rfl
theorem iteCellQuick_enc (c a b : Bool) : iteCellQuick boolOps (enc c) (enc a) (enc b) = enc (if c then a else b) := by
  cases c <;> cases a <;> cases b <;> rfl
theorem latCell_enc (a b : Bool) : latCell boolOps (enc a) (enc b) = enc (a == b) := by
  cases a <;> cases b <;> rfl
theorem eqCell_enc (e a b : Bool) : eqCell boolOps (enc e) (enc a, enc b) = enc (e && (a == b)) := by
  cases e <;> cases a <;> cases b <;> rfl

theorem cmpFn_enc (i : Bool) : ∀ (a b : List Bool), a.length = b.length →
    cmpFn boolOps (enc i) (encW a) (encW b) = enc (if i then decide (uv b ≤ uv a) else decide (uv b < uv a))
  | [], [], _ => by cases i <;> simp [encW, cmpFn, uv]
  | [], _ :: _, h => by simp at h
  | _ :: _, [], h => by simp at h
  | a :: as, b :: bs, h => by
    have hl : as.length = bs.length := by simpa using h
    have h1 := uv_lt as
    have h2 := uv_lt bs
    rw [encW_cons, encW_cons, cmpFn, cmpFn_enc i as bs hl, cmpCell_enc, uv, uv, hl]
    rw [hl] at h1
    congr 1
    cases a <;> cases b <;> cases i <;> simp <;> omega

theorem ripple_enc (c : Bool) : ∀ (a b : List Bool), a.length = b.length → ∃ s cout,
    ripple boolOps (enc c) (encW a) (encW b) = (encW s, enc cout) ∧ s.length = a.length ∧
    uv s + (if cout then 2^a.length else 0) = uv a + uv b + (if c then 1 else 0)
  | [], [], _ => ⟨[], c, by simp [encW, ripple], rfl, by cases c <;> simp [uv]⟩
  | [], _ :: _, h => by simp at h
  | _ :: _, [], h => by simp at h
  | a :: as, b :: bs, h => by
    have hl : as.length = bs.length := by simpa using h
    obtain ⟨s, co, h1, h2, h3⟩ := ripple_enc c as bs hl
    refine ⟨(a ^^ b ^^ co) :: s, (a && b) || (a && co) || (b && co), ?_, by simp [h2], ?_⟩
    · rw [encW_cons, encW_cons, ripple, h1]
      simp only [sumCell_enc, carryCell_enc, encW_cons]
    · simp only [uv, h2, ← hl, List.length_cons, pow_succ]
      cases a <;> cases b <;> cases co <;> simp at h3 ⊢ <;> omega

theorem add_enc (a b : List Bool) (h : a.length = b.length) :
    (ripple boolOps (enc false) (encW a) (encW b)).1 = encW (natBits a.length (uv a + uv b)) := by
  obtain ⟨s, co, h1, h2, h3⟩ := ripple_enc false a b h
  rw [h1]
  show encW s = _
  congr 1
  apply eq_natBits s _ _ h2
  have := uv_lt s
  rw [h2] at this
  cases co
  · simp at h3; rw [← h3, Nat.mod_eq_of_lt this]
  · simp at h3; rw [← h3, Nat.add_mod_right, Nat.mod_eq_of_lt this]

theorem sub_enc (a b : List Bool) (h : a.length = b.length) :
    subFn boolOps (encW a) (encW b) = encW (intBits a.length ((uv a : Int) - uv b)) := by
  obtain ⟨s, co, h1, h2, h3⟩ := ripple_enc true a (b.map (!·)) (by simpa using h)
  rw [subFn, dr1_enc, encW_swap, h1]
  have hn := uv_map_not b
  have hp : 0 < 2^b.length := by positivity
  show encW s = _
  congr 1
  apply eq_intBits s _ _ (if co then 0 else 1) h2
  have e : uv s + uv b + (if co then 2^a.length else 0) = uv a + 2^a.length := by
    rw [h] at h3 ⊢; simp only [if_true] at h3; omega
  have e' : (uv s : Int) + uv b + (if co then 2^a.length else 0) = uv a + 2^a.length := by exact_mod_cast e
  cases co <;> simp at e' ⊢ <;> linarith

theorem iteFn_enc (c : Bool) (a b : List Bool) (h : a.length = b.length) :
    iteFn boolOps (enc c) (encW a) (encW b) = encW (if c then a else b) := by
  have : iteFn boolOps (enc c) (encW a) (encW b) = encW (List.zipWith (fun x y => if c then x else y) a b) := by
    simp only [iteFn, encW, List.zipWith_map, List.map_zipWith, iteCell_enc]
  rw [this]
  congr 1
  clear this
  induction a generalizing b with
  | nil => cases b <;> simp at h ⊢
  | cons x a ih => cases b with
    | nil => simp at h
    | cons y b =>
      simp only [List.zipWith_cons_cons, ih b (by simpa using h)]
      cases c <;> rfl

theorem iteFn_encT (c : Bool) (a b : List (Option Bool)) (h : a.length = b.length) :
    iteFn boolOps (enc c) (encTW a) (encTW b) = encTW (if c then a else b) := by
  have : iteFn boolOps (enc c) (encTW a) (encTW b) = encTW (List.zipWith (fun x y => if c then x else y) a b) := by
    simp only [iteFn, encTW, List.zipWith_map, List.map_zipWith, iteCell_encT]
  rw [this]
  congr 1
  clear this
  induction a generalizing b with
  | nil => cases b <;> simp at h ⊢
  | cons x a ih => cases b with
    | nil => simp at h
    | cons y b =>
      simp only [List.zipWith_cons_cons, ih b (by simpa using h)]
      cases c <;> rfl

theorem shiftIn_enc (v : List Bool) (b : Bool) : shiftIn (encW v) (enc b) = encW (v.drop 1 ++ [b]) := by
  simp [shiftIn, encW]

/-- Shifting left by one in `n` bits when the top bit is 0. -/
theorem uv_shift1 (l : List Bool) (b : Bool) (hl : l ≠ []) (h : 2 * uv l < 2^l.length) :
    uv (l.drop 1 ++ [b]) = 2 * uv l + (if b then 1 else 0) := by
  cases l with
  | nil => exact absurd rfl hl
  | cons a l =>
    rw [List.length_cons, pow_succ] at h
    have ha : a = false := by
      cases a
      · rfl
      · simp [uv] at h; omega
    subst ha
    simp only [List.drop_succ_cons, List.drop_zero, uv_append, uv]
    cases b <;> simp <;> ring

/-- One division step on numbers. -/
theorem divStep_enc (b q r : List Bool) (a : Bool) (n : Nat) (hn : b.length = n) (hq : q.length = n) (hr : r.length = n) (h0 : 0 < n)
    (h2r : 2 * uv r < 2^n) (h2q : 2 * uv q < 2^n) :
    ∃ q' r', divStep boolOps (encW b) (encW q, encW r) (enc a) = (encW q', encW r') ∧ q'.length = n ∧ r'.length = n ∧
      (if uv b ≤ 2 * uv r + (if a then 1 else 0) then
        uv q' = 2 * uv q + 1 ∧ uv r' = 2 * uv r + (if a then 1 else 0) - uv b
       else uv q' = 2 * uv q ∧ uv r' = 2 * uv r + (if a then 1 else 0)) := by
  have hr0 : r ≠ [] := by rintro rfl; simp at hr; omega
  have hq0 : q ≠ [] := by rintro rfl; simp at hq; omega
  have e1 := uv_shift1 r a hr0 (by rw [hr]; exact h2r)
  have hl2 : (r.drop 1 ++ [a]).length = b.length := by simp [hr, hn]; omega
  unfold divStep
  simp only [shiftIn_enc]
  rw [geqFn, dr1_enc, cmpFn_enc true _ _ hl2, sub_enc _ _ hl2, iteFn_enc _ _ _ (by rw [intBits_length]), shiftIn_enc]
  simp only [if_true, e1]
  have e2 := uv_shift1 q (decide (uv b ≤ 2 * uv r + (if a then 1 else 0))) hq0 (by rw [hq]; exact h2q)
  refine ⟨_, _, rfl, by simp [hq]; omega, ?_, ?_⟩
  · rw [apply_ite List.length, intBits_length, hl2, hn, ite_self]
  · by_cases hc : uv b ≤ 2 * uv r + (if a then 1 else 0)
    · rw [if_pos hc]
      refine ⟨by rw [e2]; simp [hc], ?_⟩
      rw [if_pos (by simp [hc])]
      have : ((2 * uv r + (if a then 1 else 0) : Nat) : Int) - (uv b : Int) = ((2 * uv r + (if a then 1 else 0) - uv b : Nat) : Int) := by
        omega
      rw [this, intBits_natCast, uv_natBits, hl2, hn, Nat.mod_eq_of_lt]
      have h3 := uv_lt (r.drop 1 ++ [a])
      rw [e1, hl2, hn] at h3
      omega
    · rw [if_neg hc]
      refine ⟨by rw [e2]; simp [hc], ?_⟩
      rw [if_neg (by simpa using hc), e1]

/-- The division loop: after reading a prefix of the dividend, quotient and remainder of its value. -/
theorem divLoop_enc (b : List Bool) (n : Nat) (hn : b.length = n) : ∀ (rest : List Bool) (q r : List Bool) (pre : Nat) (k : Nat),
    q.length = n → r.length = n → k + rest.length ≤ n → pre < 2^k → uv q < 2^k → uv r < 2^k →
    (if uv b = 0 then uv q = 2^k - 1 ∧ uv r = pre else pre = uv q * uv b + uv r ∧ uv r < uv b) →
    ∃ q' r', (encW rest).foldl (divStep boolOps (encW b)) (encW q, encW r) = (encW q', encW r') ∧ q'.length = n ∧ r'.length = n ∧
      (if uv b = 0 then uv q' = 2^(k + rest.length) - 1 ∧ uv r' = pre * 2^rest.length + uv rest
       else pre * 2^rest.length + uv rest = uv q' * uv b + uv r' ∧ uv r' < uv b)
  | [], q, r, pre, k, hq, hr, _, hp, hq2, hr2, hi => ⟨q, r, rfl, hq, hr, by simpa [uv] using hi⟩
  | a :: rest, q, r, pre, k, hq, hr, hk, hp, hq2, hr2, hi => by
    have hk' : k + 1 ≤ n := by simp at hk; omega
    have hpow : (2:Nat)^(k+1) ≤ 2^n := Nat.pow_le_pow_right (by omega) hk'
    have hpk : (2:Nat)^(k+1) = 2 * 2^k := by rw [pow_succ]; ring
    obtain ⟨q1, r1, e, h1, h2, h3⟩ := divStep_enc b q r a n hn hq hr (by omega) (by omega) (by omega)
    obtain ⟨q', r', f1, f2, f3, f4⟩ := divLoop_enc b n hn rest q1 r1 (2 * pre + (if a then 1 else 0)) (k+1) h1 h2 (by simp at hk; omega)
      (by split <;> omega) (by
        revert h3; generalize (if a then 1 else 0) = x; split <;> (rintro ⟨h3, _⟩; omega)) (by
        have : (if a then 1 else 0 : Nat) ≤ 1 := by split <;> omega
        revert h3 this; generalize (if a then 1 else 0) = x; intro h3 hx; revert h3; split <;> (rintro ⟨_, h3⟩; omega)) (by
        have hx1 : (if a then 1 else 0 : Nat) ≤ 1 := by split <;> omega
        revert h3; generalize (if a then 1 else 0 : Nat) = x at *; intro h3
        by_cases hb0 : uv b = 0
        · rw [if_pos hb0] at hi ⊢
          rw [if_pos (by omega)] at h3
          have : 0 < 2^k := by positivity
          refine ⟨by omega, by omega⟩
        · rw [if_neg hb0] at hi ⊢
          by_cases hc : uv b ≤ 2 * uv r + x
          · rw [if_pos hc] at h3
            refine ⟨?_, by omega⟩
            rw [h3.1, h3.2, hi.1]
            have : (2 * uv q + 1) * uv b = 2 * (uv q * uv b) + uv b := by ring
            omega
          · rw [if_neg hc] at h3
            refine ⟨?_, by omega⟩
            rw [h3.1, h3.2, hi.1]
            have : (2 * uv q) * uv b = 2 * (uv q * uv b) := by ring
            omega)
    refine ⟨q', r', ?_, f2, f3, ?_⟩
    · rw [encW_cons, List.foldl_cons, e]; exact f1
    · have e1 : (2 * pre + (if a then 1 else 0)) * 2^rest.length + uv rest = pre * 2^(a :: rest).length + uv (a :: rest) := by
        rw [uv, List.length_cons, pow_succ]
        cases a <;> simp <;> ring
      rw [e1] at f4
      have e2 : k + 1 + rest.length = k + (a :: rest).length := by simp; omega
      rw [e2] at f4
      exact f4

theorem divMod_enc (a b : List Bool) (h : a.length = b.length) : divMod boolOps (encW a) (encW b) =
    (encW (if uv b = 0 then List.replicate a.length true else natBits a.length (uv a / uv b)),
     encW (if uv b = 0 then a else natBits a.length (uv a % uv b))) := by
  have hz : uv (List.replicate a.length false) = 0 := Voss.Bv.uv_replicate_false _
  obtain ⟨q, r, e, h1, h2, h3⟩ := divLoop_enc b a.length h.symm a (List.replicate a.length false) (List.replicate a.length false) 0 0
    (by simp) (by simp) (by simp) (by simp) (by rw [hz]; simp) (by rw [hz]; simp) (by rw [hz]; split <;> simp; omega)
  rw [divMod, encW_length, dr0_enc, encW_replicate, e]
  by_cases hb : uv b = 0
  · simp only [hb, if_true, zero_mul, zero_add] at h3 ⊢
    congr 2
    · exact uv_inj _ _ (by simp [h1]) (by rw [h3.1, uv_replicate_true])
    · exact uv_inj _ _ (by rw [h2]) h3.2
  · simp only [hb, if_false, zero_mul, zero_add] at h3 ⊢
    have hd : uv a / uv b = uv q ∧ uv a % uv b = uv r := by
      rw [h3.1]
      constructor
      · rw [mul_comm, Nat.mul_add_div (by omega), Nat.div_eq_of_lt h3.2, Nat.add_zero]
      · rw [mul_comm, Nat.mul_add_mod, Nat.mod_eq_of_lt h3.2]
    congr 2
    · rw [hd.1, ← h1, natBits_uv]
    · rw [hd.2, ← h2, natBits_uv]

theorem partial1_enc (k : Nat) (b : Bool) (a : List Bool) (hk : k ≤ a.length) :
    partial1 boolOps k (enc b) (encW a) = encW (natBits a.length (if b then uv a * 2^k else 0)) := by
  have e : partial1 boolOps k (enc b) (encW a) = encW ((a.drop k).map (fun x => b && x) ++ List.replicate k false) := by
    unfold partial1
    rw [encW_length, Nat.min_eq_left hk, dr0_enc, encW_replicate, encW_append]
    congr 1
    rw [encW_drop, encW, encW, List.map_map, List.map_map]
    apply List.map_congr_left
    intro x _
    cases b <;> cases x <;> rfl
  rw [e]
  congr 1
  apply eq_natBits
  · simp; omega
  · rw [uv_append, Voss.Bv.uv_replicate_false, List.length_replicate, Nat.add_zero]
    cases b
    · simp only [Bool.false_and, Bool.false_eq_true, if_false, Nat.zero_mod]
      have : (a.drop k).map (fun _ => false) = List.replicate (a.length - k) false := by
        rw [List.map_const', List.length_drop]
      rw [this, Voss.Bv.uv_replicate_false, Nat.zero_mul]
    · simp only [Bool.true_and, List.map_id', if_true]
      have h1 : uv a = uv (a.take k) * 2^(a.length - k) + uv (a.drop k) := by
        conv_lhs => rw [← List.take_append_drop k a]
        rw [uv_append, List.length_drop]
      have h2 := uv_lt (a.drop k)
      rw [List.length_drop] at h2
      have e2 : (2:Nat)^a.length = 2^(a.length - k) * 2^k := by rw [← pow_add]; congr 1; omega
      have : uv a * 2^k = uv (a.drop k) * 2^k + 2^a.length * uv (a.take k) := by
        rw [e2]
        conv_lhs => rw [h1]
        ring
      rw [this, Nat.add_mul_mod_self_left, Nat.mod_eq_of_lt]
      rw [e2]; exact Nat.mul_lt_mul_of_pos_right h2 (by positivity)

theorem mulFn_enc (a : List Bool) : ∀ (b : List Bool), b.length ≤ a.length →
    mulFn boolOps (encW a) (encW b) = encW (natBits a.length (uv a * uv b))
  | [], _ => by
    simp only [encW_nil, mulFn, uv, Nat.mul_zero, encW_length, dr0_enc, encW_replicate]
    congr 1
    apply eq_natBits _ _ _ (by simp)
    rw [Voss.Bv.uv_replicate_false]; simp
  | b :: bs, h => by
    have hl : bs.length ≤ a.length := by simp at h; omega
    rw [encW_cons, mulFn, mulFn_enc a bs hl, encW_length, partial1_enc _ _ _ hl, dr0_enc,
      add_enc _ _ (by rw [natBits_length, natBits_length]), natBits_length]
    congr 1
    apply eq_natBits _ _ _ (natBits_length ..)
    rw [uv_natBits, uv_natBits, uv_natBits, ← Nat.add_mod, uv]
    congr 1
    cases b <;> simp
    ring

/-! ### Shifts -/

theorem toInt32_small (n : Nat) (h : n < 2^31) : toInt32 n = n := by
  unfold toInt32
  rw [if_pos (by omega)]
  omega

theorem getD_encW (v : List Bool) (i : Nat) : (encW v).getD i (enc false) = enc (v.getD i false) := by
  simp only [encW, List.getD_eq_getElem?_getD, List.getElem?_map]
  cases v[i]? <;> rfl

theorem shl_enc (v : List Bool) (cnt : Nat) (hv : v.length < 2^31) (hc : cnt ≤ 2^31) :
    sshlFun boolOps (encW v) cnt = encW (natBits v.length (uv v * 2^cnt)) := by
  have e : sshlFun boolOps (encW v) cnt = encW (v.drop cnt ++ List.replicate (min cnt v.length) false) := by
    unfold sshlFun
    rw [encW_length]
    apply List.ext_getElem
    · simp [encW]; omega
    · intro i h1 h2
      simp only [List.length_map, List.length_range] at h1
      simp only [List.getElem_map, List.getElem_range, dr0_enc, encW]
      rw [show List.map enc v = encW v from rfl, getD_encW, List.getElem_append]
      by_cases hin : i + cnt < v.length
      · have : toInt32 (i + cnt) = ((i + cnt : Nat) : Int) := toInt32_small _ (by omega)
        rw [this, if_neg (by omega)]
        rw [dif_pos (by simp; omega)]
        simp only [List.getElem_drop, Int.toNat_natCast]
        congr 1
        rw [List.getD_eq_getElem?_getD, List.getElem?_eq_getElem (by omega), Option.getD_some]
        congr 1; omega
      · rw [dif_neg (by simp; omega), List.getElem_replicate]
        split
        · rfl
        · rename_i hne
          exfalso; apply hne
          unfold toInt32
          split <;> omega
  rw [e]
  congr 1
  apply eq_natBits
  · simp; omega
  · rw [uv_append, Voss.Bv.uv_replicate_false, List.length_replicate, Nat.add_zero]
    by_cases hk : cnt ≤ v.length
    · have h1 : uv v = uv (v.take cnt) * 2^(v.length - cnt) + uv (v.drop cnt) := by
        conv_lhs => rw [← List.take_append_drop cnt v]
        rw [uv_append, List.length_drop]
      have h2 := uv_lt (v.drop cnt)
      rw [List.length_drop] at h2
      have e2 : (2:Nat)^v.length = 2^(v.length - cnt) * 2^cnt := by rw [← pow_add]; congr 1; omega
      rw [Nat.min_eq_left hk]
      have : uv v * 2^cnt = uv (v.drop cnt) * 2^cnt + 2^v.length * uv (v.take cnt) := by
        rw [e2]
        conv_lhs => rw [h1]
        ring
      rw [this, Nat.add_mul_mod_self_left, Nat.mod_eq_of_lt]
      rw [e2]; exact Nat.mul_lt_mul_of_pos_right h2 (by positivity)
    · rw [List.drop_eq_nil_of_le (by omega)]
      simp only [uv, Nat.zero_mul]
      have : uv v * 2^cnt = 2^v.length * (uv v * 2^(cnt - v.length)) := by
        have : (2:Nat)^cnt = 2^v.length * 2^(cnt - v.length) := by rw [← pow_add]; congr 1; omega
        rw [this]; ring
      rw [this, Nat.mul_mod_right]

/-- The shift loop shifts by the amount with each power of two as the 32-bit counter holds it. -/
def amount : List Bool → Nat
  | [] => 0
  | b :: bs => (if b then shiftAmt bs.length else 0) + amount bs

theorem amount_small : ∀ (b : List Bool), b.length ≤ 32 → amount b = uv b
  | [], _ => rfl
  | b :: bs, h => by
    have h1 : bs.length < 32 := by simp at h; omega
    rw [amount, uv, amount_small bs (by omega), shiftAmt, Nat.mod_eq_of_lt (Nat.pow_lt_pow_right (by omega) h1)]

theorem shiftAmt_le (k : Nat) : shiftAmt k ≤ 2^31 := by
  unfold shiftAmt
  rcases Nat.lt_or_ge k 32 with h | h
  · have : (2:Nat)^k ≤ 2^31 := Nat.pow_le_pow_right (by omega) (by omega)
    exact le_trans (Nat.mod_le _ _) this
  · obtain ⟨d, rfl⟩ : ∃ d, k = 32 + d := ⟨k - 32, by omega⟩
    rw [pow_add, Nat.mul_mod_right]; omega

theorem shlLoop_enc (a : List Bool) (ha : a.length < 2^31) : ∀ (b : List Bool),
    shlLoop boolOps (encW a) (encW b) = encW (natBits a.length (uv a * 2^(amount b)))
  | [] => by simp [encW_nil, shlLoop, amount, natBits_uv]
  | b :: bs => by
    rw [encW_cons, shlLoop, shlLoop_enc a ha bs]
    rw [encW_length, shl_enc _ _ (by rw [natBits_length]; exact ha) (shiftAmt_le _),
      iteFn_enc _ _ _ (by simp [natBits_length]), natBits_length]
    congr 1
    cases b
    · simp [amount]
    · rw [if_pos rfl]
      apply eq_natBits _ _ _ (natBits_length ..)
      rw [uv_natBits, uv_natBits, Nat.mod_mul_mod]
      congr 1
      simp only [amount, if_true]
      rw [pow_add]; ring

theorem shr_enc (v : List Bool) (cnt : Nat) (f : Bool) (hv : v.length < 2^31) (hc : cnt < 2^31) :
    sshrFun (encW v) cnt (enc f) = some (encW (List.replicate (min cnt v.length) f ++ v.take (v.length - cnt))) := by
  unfold sshrFun
  have ht := toInt32_small cnt hc
  rw [encW_length, ht, if_neg]
  · congr 1
    apply List.ext_getElem
    · simp [encW]; omega
    · intro i h1 h2
      simp only [List.length_map, List.length_range] at h1
      simp only [List.getElem_map, List.getElem_range, encW]
      rw [List.getElem_append]
      by_cases hin : i < min cnt v.length
      · rw [if_pos (by omega), dif_pos (by simpa using hin), List.getElem_replicate]
      · rw [if_neg (by omega), dif_neg (by simpa using hin)]
        simp only [List.getElem_take, List.length_replicate]
        have e : ((i:Int) - (cnt:Int)).toNat = i - min cnt v.length := by omega
        rw [e, List.getD_eq_getElem?_getD, List.getElem?_eq_getElem (by simp; omega), Option.getD_some, List.getElem_map]
  · simp only [List.any_eq_true, List.mem_range, decide_eq_true_eq, not_exists, not_and]
    intro i hi
    omega

theorem uv_take (v : List Bool) (k : Nat) : uv (v.take (v.length - k)) = uv v / 2^(min k v.length) := by
  have h1 : uv v = uv (v.take (v.length - k)) * 2^(min k v.length) + uv (v.drop (v.length - k)) := by
    conv_lhs => rw [← List.take_append_drop (v.length - k) v]
    rw [uv_append, List.length_drop]
    congr 3; omega
  have h2 := uv_lt (v.drop (v.length - k))
  rw [List.length_drop, show v.length - (v.length - k) = min k v.length by omega] at h2
  rw [h1, Nat.add_comm, Nat.add_mul_div_right _ _ (by positivity), Nat.div_eq_of_lt h2, Nat.zero_add]

theorem div_pow_len (v : List Bool) (k : Nat) : uv v / 2^(min k v.length) = uv v / 2^k := by
  rcases Nat.le_total k v.length with h | h
  · rw [Nat.min_eq_left h]
  · have h1 := uv_lt v
    have h2 : (2:Nat)^v.length ≤ 2^k := Nat.pow_le_pow_right (by omega) h
    rw [Nat.min_eq_right h, Nat.div_eq_of_lt h1, Nat.div_eq_of_lt (by omega)]

theorem lshr_enc (v : List Bool) (cnt : Nat) (hv : v.length < 2^31) (hc : cnt < 2^31) :
    sshrFun (encW v) cnt (enc false) = some (encW (natBits v.length (uv v / 2^cnt))) := by
  rw [shr_enc v cnt false hv hc]
  congr 2
  apply eq_natBits
  · simp; omega
  · rw [uv_append, Voss.Bv.uv_replicate_false, Nat.zero_mul, Nat.zero_add, uv_take, div_pow_len, Nat.mod_eq_of_lt]
    exact lt_of_le_of_lt (Nat.div_le_self _ _) (uv_lt v)

theorem shiftAmt_lt (k : Nat) (h : k < 31) : shiftAmt k < 2^31 ∧ shiftAmt k = 2^k := by
  have : (2:Nat)^k < 2^31 := Nat.pow_lt_pow_right (by omega) h
  unfold shiftAmt
  rw [Nat.mod_eq_of_lt (by omega)]
  exact ⟨this, rfl⟩

theorem shrLoop_enc (a : List Bool) (ha : a.length < 2^31) : ∀ (b : List Bool), b.length ≤ 31 →
    shrLoop boolOps false (encW a) (encW b) = some (encW (natBits a.length (uv a / 2^(uv b))))
  | [], _ => by simp [encW_nil, shrLoop, uv, natBits_uv]
  | b :: bs, h => by
    have hb : bs.length < 31 := by simp at h; omega
    rw [encW_cons, shrLoop, shrLoop_enc a ha bs (by omega)]
    simp only [Option.bind_eq_bind, Option.bind_some, Bool.false_eq_true, if_false, dr0_enc]
    rw [encW_length, lshr_enc _ _ (by rw [natBits_length]; exact ha) (shiftAmt_lt _ hb).1]
    simp only [Option.bind_some]
    rw [iteFn_enc _ _ _ (by simp [natBits_length]), natBits_length]
    congr 2
    cases b
    · simp [uv]
    · rw [if_pos rfl]
      have hlt : ∀ k, uv a / 2^k < 2^a.length := fun k => lt_of_le_of_lt (Nat.div_le_self _ _) (uv_lt a)
      apply eq_natBits _ _ _ (natBits_length ..)
      rw [uv_natBits, uv_natBits, Nat.mod_eq_of_lt (hlt _)]
      congr 1
      rw [Nat.div_div_eq_div_mul, ← pow_add, (shiftAmt_lt _ hb).2, uv, if_pos rfl, Nat.add_comm]

theorem tc_cons_div (b : Bool) (l : List Bool) (k : Nat) :
    tc (List.replicate (min k (l.length + 1)) b ++ (b :: l).take (l.length + 1 - k)) = tc (b :: l) / 2^k := by
  by_cases hk : k ≤ l.length
  · obtain ⟨m, hm⟩ : ∃ m, l.length + 1 - k = m + 1 := ⟨l.length - k, by omega⟩
    rw [hm, List.take_succ_cons]
    have hrep := Voss.Bv.tc_replicate (min k (l.length + 1)) (b :: l.take m) (by simp)
    simp only [List.headD_cons] at hrep
    rw [hrep]
    have e : tc (b :: l) = tc (b :: l.take m) * 2^k + uv (l.drop m) := by
      have := Voss.Bv.tc_append (b :: l.take m) (l.drop m) (by simp)
      rw [List.cons_append, List.take_append_drop, List.length_drop, show l.length - m = k by omega] at this
      exact this
    have h2 := uv_lt (l.drop m)
    rw [List.length_drop, show l.length - m = k by omega] at h2
    have h3 : (uv (l.drop m) : Int) < 2^k := by exact_mod_cast h2
    exact (Voss.Bv.ediv_of_rem _ _ _ _ e (by positivity) h3).symm
  · rw [show l.length + 1 - k = 0 by omega, List.take_zero, List.append_nil, Nat.min_eq_right (by omega), List.replicate_succ']
    have hrep := Voss.Bv.tc_replicate l.length [b] (by simp)
    simp only [List.headD_cons] at hrep
    rw [hrep]
    have hb := Voss.Bv.tc_bounds b l
    have h2 : (2:Int)^l.length ≤ 2^k := by
      have : (2:Nat)^l.length ≤ 2^k := Nat.pow_le_pow_right (by omega) (by omega)
      exact_mod_cast this
    have h1 := uv_lt l
    have h1' : (uv l : Int) < 2^l.length := by exact_mod_cast h1
    have h0 : (0:Int) ≤ uv l := by positivity
    cases b
    · simp only [tc, uv, Bool.false_eq_true, if_false, List.length_nil, zero_add] at hb ⊢
      rw [Int.ediv_eq_zero_of_lt h0 (by omega)]; rfl
    · simp only [tc, uv, if_true, List.length_nil] at hb ⊢
      exact (Voss.Bv.ediv_of_rem _ (-1) (2^k - 2^l.length + uv l) _ (by ring) (by omega) (by omega)).symm

theorem ashr_enc (v : List Bool) (cnt : Nat) (hv : v.length < 2^31) (hc : cnt < 2^31) :
    ∃ w, sshrFun (encW v) cnt ((encW v).headD (enc false)) = some (encW w) ∧ w.length = v.length ∧ tc w = tc v / 2^cnt := by
  cases v with
  | nil => exact ⟨[], by simp [encW, sshrFun], rfl, by simp [tc]⟩
  | cons b l =>
    refine ⟨_, shr_enc (b :: l) cnt b hv hc, by simp; omega, ?_⟩
    simpa using tc_cons_div b l cnt

theorem tc_inj (l m : List Bool) (hl : l.length = m.length) (h : tc l = tc m) : l = m := by
  rw [eq_intBits_tc l m.length (tc m) 0 hl (by rw [h]; ring), ← eq_intBits_tc m m.length (tc m) 0 rfl (by ring)]

theorem ashrLoop_enc (a : List Bool) (ha : a.length < 2^31) : ∀ (b : List Bool), b.length ≤ 31 →
    ∃ w, shrLoop boolOps true (encW a) (encW b) = some (encW w) ∧ w.length = a.length ∧ tc w = tc a / 2^(uv b)
  | [], _ => ⟨a, by simp [encW_nil, shrLoop], rfl, by simp [uv]⟩
  | b :: bs, h => by
    have hb : bs.length < 31 := by simp at h; omega
    obtain ⟨w, h1, h2, h3⟩ := ashrLoop_enc a ha bs (by omega)
    obtain ⟨w', g1, g2, g3⟩ := ashr_enc w (shiftAmt bs.length) (by rw [h2]; exact ha) (shiftAmt_lt _ hb).1
    refine ⟨if b then w' else w, ?_, by cases b <;> simp [g2, h2], ?_⟩
    · rw [encW_cons, shrLoop, h1]
      simp only [Option.bind_eq_bind, Option.bind_some, if_true, dr0_enc]
      rw [encW_length, g1]
      simp only [Option.bind_some]
      rw [iteFn_enc _ _ _ g2]
    · cases b
      · simpa [uv] using h3
      · simp only [if_true, uv]
        rw [g3, h3, (shiftAmt_lt _ hb).2, Int.ediv_ediv_of_nonneg (by positivity), ← pow_add, Nat.add_comm]

end Voss.Sim
