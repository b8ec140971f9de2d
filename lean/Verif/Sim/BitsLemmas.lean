import Verif.Sim.Spec
import Verif.Bv.BitLemmas
import Mathlib.Tactic.Ring
import Mathlib.Tactic.Linarith
/-
Numbers and bit lists: a list of `n` bits is determined by its value.
-/
namespace Voss.Sim
open Voss.Bv (uv tc uv_lt uv_append)

theorem uv_inj : ∀ (l m : List Bool), l.length = m.length → uv l = uv m → l = m
  | [], [], _, _ => rfl
  | [], _ :: _, h, _ => by simp at h
  | _ :: _, [], h, _ => by simp at h
  | a :: l, b :: m, h, he => by
    have hl : l.length = m.length := by simpa using h
    have h1 := uv_lt l
    have h2 := uv_lt m
    rw [uv, uv, hl] at he
    rw [hl] at h1
    have hab : a = b := by cases a <;> cases b <;> simp at he ⊢ <;> omega
    subst hab
    rw [uv_inj l m hl (by omega)]

theorem natBits_length (n v : Nat) : (natBits n v).length = n := by simp [natBits]
theorem intBits_length (n : Nat) (v : Int) : (intBits n v).length = n := by simp [intBits]

theorem natBits_succ (n v : Nat) : natBits (n+1) v = v.testBit n :: natBits n v := by
  simp [natBits, List.range_succ]

theorem intBits_succ (n : Nat) (v : Int) : intBits (n+1) v = Arbi.ibit v n :: intBits n v := by
  simp [intBits, List.range_succ]

theorem uv_natBits (n v : Nat) : uv (natBits n v) = v % 2^n := by
  induction n with
  | zero => simp [natBits, uv, Nat.mod_one]
  | succ n ih =>
    rw [natBits_succ, uv, natBits_length, ih, Nat.mod_pow_succ, Nat.testBit_eq_decide_div_mod_eq]
    rcases Nat.mod_two_eq_zero_or_one (v / 2^n) with h | h <;> simp [h]
    omega

theorem eq_natBits (l : List Bool) (n v : Nat) (hl : l.length = n) (h : uv l = v % 2^n) : l = natBits n v :=
  uv_inj _ _ (by rw [hl, natBits_length]) (by rw [h, uv_natBits])

theorem natBits_uv (l : List Bool) : natBits l.length (uv l) = l :=
  (eq_natBits l _ _ rfl (by rw [Nat.mod_eq_of_lt (uv_lt l)])).symm

theorem ibit_natCast (v n : Nat) : Arbi.ibit (v : Int) n = v.testBit n := by
  rw [Nat.testBit_eq_decide_div_mod_eq, Arbi.ibit]
  have : ((v:Int) / 2^n % 2) = ((v / 2^n % 2 : Nat) : Int) := by push_cast; rfl
  rw [this]
  have h2 : v / 2^n % 2 = 0 ∨ v / 2^n % 2 = 1 := by omega
  rcases h2 with h | h <;> rw [h] <;> simp

theorem intBits_natCast (n v : Nat) : intBits n (v : Int) = natBits n v := by
  simp [intBits, natBits, ibit_natCast]

/-- The bits of an integer depend on it modulo `2^n` only. -/
theorem ibit_congr (z z' k : Int) (n i : Nat) (hi : i < n) (h : z = z' + k * 2^n) : Arbi.ibit z i = Arbi.ibit z' i := by
  unfold Arbi.ibit
  obtain ⟨d, rfl⟩ : ∃ d, n = i + 1 + d := ⟨n - (i+1), by omega⟩
  have : z = z' + (k * 2^d * 2) * 2^i := by rw [h, pow_add, pow_add]; ring
  rw [this, Int.add_mul_ediv_right _ _ (by positivity), Int.add_mul_emod_self_right]

theorem intBits_congr (n : Nat) (z z' k : Int) (h : z = z' + k * 2^n) : intBits n z = intBits n z' := by
  unfold intBits
  apply List.map_congr_left
  intro i hi
  exact ibit_congr z z' k n i (by simpa using hi) h

theorem eq_intBits (l : List Bool) (n : Nat) (z k : Int) (hl : l.length = n) (h : (uv l : Int) = z + k * 2^n) : l = intBits n z := by
  rw [← intBits_congr n _ z k h, intBits_natCast, ← hl, natBits_uv]

theorem tc_uv (l : List Bool) : ∃ k : Int, tc l = uv l + k * 2^l.length := by
  cases l with
  | nil => exact ⟨0, by simp [tc, uv]⟩
  | cons b l =>
    refine ⟨if b then -1 else 0, ?_⟩
    cases b <;> simp [tc, uv, pow_succ]
    ring

theorem eq_intBits_tc (l : List Bool) (n : Nat) (z k : Int) (hl : l.length = n) (h : tc l = z + k * 2^n) : l = intBits n z := by
  obtain ⟨j, hj⟩ := tc_uv l
  refine eq_intBits l n z (k - j) hl ?_
  rw [hl] at hj
  linarith [hj, h, sub_mul k j (2^n)]

theorem uv_map_not (l : List Bool) : uv (l.map (!·)) + uv l = 2^l.length - 1 := by
  induction l with
  | nil => simp [uv]
  | cons b l ih =>
    have := uv_lt l
    simp only [List.map_cons, uv, List.length_map, List.length_cons, pow_succ]
    cases b <;> simp <;> omega

theorem uv_replicate_true (n : Nat) : uv (List.replicate n true) = 2^n - 1 := by
  induction n with
  | zero => simp [uv]
  | succ n ih =>
    have : 0 < 2^n := by positivity
    simp only [List.replicate_succ, uv, List.length_replicate, ih, if_true]
    rw [pow_succ]; omega

end Voss.Sim
