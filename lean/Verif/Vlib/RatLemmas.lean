import Verif.Vlib.Rat
import Verif.Io.ScanLemmas
import Verif.Txt.Props
import Verif.Pre.IntsProps
import Mathlib.Data.Rat.Floor
import Mathlib.Tactic.FieldSimp
import Mathlib.Tactic.Linarith
import Mathlib.Tactic.Ring
import Mathlib.Tactic.Positivity
/- Lemmas for C93. -/
namespace Voss.Vlib
open Voss.Io (Out)

/-- The number that a rational stands for. -/
def Rt.val (r : Rt) : ℚ := r.d / r.n

/-- In lowest terms. -/
def Rt.Low (r : Rt) : Prop := r.n ≠ 0 ∧ Int.gcd r.d r.n = 1

/-- In lowest terms with a positive denominator: the usual form. -/
def Rt.Usual (r : Rt) : Prop := 0 < r.n ∧ Int.gcd r.d r.n = 1

theorem Rt.Usual.low {r : Rt} (h : r.Usual) : r.Low := ⟨by have := h.1; omega, h.2⟩

theorem mkRat_zero (d n : Int) : mkRat d n = .fail ↔ d = 0 ∧ n = 0 := by
  unfold mkRat
  dsimp only
  have : ((Int.gcd d n : Nat) : Int) = 0 ↔ d = 0 ∧ n = 0 := by
    rw [Int.natCast_eq_zero, Int.gcd_eq_zero_iff]
  split
  · next h => simp [this.1 h]
  · next h => simp only [reduceCtorEq, false_iff]; exact fun h' => h (this.2 h')

theorem mkRat_spec (d n : Int) (hn : n ≠ 0) : ∃ r, mkRat d n = .ok r ∧ r.Low ∧ r.val = (d : ℚ) / n ∧ (0 < n ↔ 0 < r.n) := by
  have hg : 0 < Int.gcd d n := Int.gcd_pos_of_ne_zero_right _ hn
  have hc : ((Int.gcd d n : Nat) : Int) ≠ 0 := by omega
  have hd := Int.gcd_dvd_left d n
  have hd' := Int.gcd_dvd_right d n
  refine ⟨⟨d.fdiv (Int.gcd d n), n.fdiv (Int.gcd d n)⟩, by unfold mkRat; dsimp only; rw [if_neg hc], ?_⟩
  have e1 : d.fdiv (Int.gcd d n) = d / (Int.gcd d n) := Int.fdiv_eq_ediv_of_nonneg _ (by omega)
  have e2 : n.fdiv (Int.gcd d n) = n / (Int.gcd d n) := Int.fdiv_eq_ediv_of_nonneg _ (by omega)
  rw [e1, e2]
  obtain ⟨a, ha⟩ := hd
  obtain ⟨b, hb⟩ := hd'
  have f1 : d / (Int.gcd d n) = a := Int.ediv_eq_of_eq_mul_right hc ha
  have f2 : n / (Int.gcd d n) = b := Int.ediv_eq_of_eq_mul_right hc hb
  have hco := Int.gcd_ediv_gcd_ediv_gcd hg
  rw [f1, f2] at hco ⊢
  have hb0 : b ≠ 0 := fun e => hn (by rw [hb, e, Int.mul_zero])
  refine ⟨⟨hb0, hco⟩, ?_, ?_⟩
  · show (a : ℚ) / b = d / n
    have g1 : (d : ℚ) = (Int.gcd d n : Nat) * a := by exact_mod_cast ha
    have g2 : (n : ℚ) = (Int.gcd d n : Nat) * b := by exact_mod_cast hb
    have g3 : ((Int.gcd d n : Nat) : ℚ) ≠ 0 := by exact_mod_cast hg.ne'
    rw [g1, g2, mul_div_mul_left _ _ g3]
  · show 0 < n ↔ 0 < b
    have hgi : (0 : Int) < (Int.gcd d n : Nat) := by omega
    constructor
    · intro h; rw [hb] at h; exact (mul_pos_iff_of_pos_left hgi).1 h
    · intro h; rw [hb]; exact mul_pos hgi h

theorem Rt.Usual.ext {r s : Rt} (hr : r.Usual) (hs : s.Usual) (h : r.val = s.val) : r = s := by
  have h1 : (r.n : ℚ) ≠ 0 := by exact_mod_cast hr.low.1
  have h2 : (s.n : ℚ) ≠ 0 := by exact_mod_cast hs.low.1
  unfold Rt.val at h
  rw [div_eq_div_iff h1 h2] at h
  have h : r.d * s.n = s.d * r.n := by exact_mod_cast h
  have d1 : r.n ∣ s.n := Int.dvd_of_dvd_mul_right_of_gcd_one (b := r.d) ⟨s.d, by rw [h]; ring⟩ (by rw [Int.gcd_comm]; exact hr.2)
  have d2 : s.n ∣ r.n := Int.dvd_of_dvd_mul_right_of_gcd_one (b := s.d) ⟨r.d, by rw [← h]; ring⟩ (by rw [Int.gcd_comm]; exact hs.2)
  have e : r.n = s.n := Int.dvd_antisymm hr.1.le hs.1.le d1 d2
  have e2 : r.d = s.d := by
    rw [e] at h
    exact mul_right_cancel₀ hs.low.1 h
  cases r; cases s; simp only at e e2; rw [e, e2]

theorem fdiv_floor (d n : Int) (hn : n ≠ 0) : d.fdiv n = ⌊(d : ℚ) / n⌋ := by
  rcases lt_or_gt_of_ne hn with h | h
  · have e : (d : ℚ) / n = ((-d : Int) : ℚ) / ((-n).toNat : Nat) := by
      have : (((-n).toNat : Nat) : ℚ) = -(n : ℚ) := by
        have : (((-n).toNat : Nat) : Int) = -n := by omega
        exact_mod_cast this
      rw [this]; push_cast; rw [neg_div_neg_eq]
    rw [e, Rat.floor_intCast_div_natCast]
    have : (((-n).toNat : Nat) : Int) = -n := by omega
    rw [this, ← Int.neg_fdiv_neg, Int.fdiv_eq_ediv_of_nonneg _ (by omega)]
  · have e : (d : ℚ) / n = (d : ℚ) / (n.toNat : Nat) := by
      have : ((n.toNat : Nat) : ℚ) = (n : ℚ) := by
        have : ((n.toNat : Nat) : Int) = n := by omega
        exact_mod_cast this
      rw [this]
    rw [e, Rat.floor_intCast_div_natCast]
    have : ((n.toNat : Nat) : Int) = n := by omega
    rw [this, Int.fdiv_eq_ediv_of_nonneg _ (by omega)]

/-! Digits -/

/-- The number that digits stand for. -/
def num (s : List Char) : Nat := s.foldl (fun a c => 10 * a + (c.toNat - '0'.toNat)) 0

def Digits (s : List Char) : Prop := ∀ c ∈ s, c.isDigit = true

theorem num_append (a b : List Char) : num (a ++ b) = num a * 10 ^ b.length + num b := by
  unfold num
  rw [List.foldl_append]
  have : ∀ (b : List Char) (x : Nat), b.foldl (fun a c => 10 * a + (c.toNat - '0'.toNat)) x =
      x * 10 ^ b.length + b.foldl (fun a c => 10 * a + (c.toNat - '0'.toNat)) 0 := by
    intro b
    induction b with
    | nil => simp
    | cons c b ih =>
      intro x
      rw [List.foldl_cons, List.foldl_cons, ih, ih (10 * 0 + _), List.length_cons, pow_succ]
      ring
  rw [this]

theorem digit_code {c : Char} (h : c.isDigit = true) : ∃ d < 10, c = Char.ofNat (48 + d) := by
  have h : 48 ≤ c.toNat ∧ c.toNat ≤ 57 := by
    simp only [Char.isDigit, Bool.and_eq_true, decide_eq_true_eq] at h
    exact ⟨UInt32.le_iff_toNat_le.1 h.1, UInt32.le_iff_toNat_le.1 h.2⟩
  exact ⟨c.toNat - 48, by omega, by rw [show 48 + (c.toNat - 48) = c.toNat by omega, Char.ofNat_toNat]⟩

theorem digit_facts {c : Char} (h : c.isDigit = true) : Io.inRange c 9 = true ∧ c ≠ '-' ∧ c ≠ '.' ∧ c ≠ '{' ∧ c ≠ '}' ∧
    Arbi.digitVal c = some (c.toNat - '0'.toNat) ∧ c.toNat - '0'.toNat < 10 := by
  obtain ⟨d, hd, rfl⟩ := digit_code h
  have : ∀ d < 10, Io.inRange (Char.ofNat (48 + d)) 9 = true ∧ Char.ofNat (48 + d) ≠ '-' ∧ Char.ofNat (48 + d) ≠ '.' ∧
      Char.ofNat (48 + d) ≠ '{' ∧ Char.ofNat (48 + d) ≠ '}' ∧
      Arbi.digitVal (Char.ofNat (48 + d)) = some ((Char.ofNat (48 + d)).toNat - '0'.toNat) ∧
      (Char.ofNat (48 + d)).toNat - '0'.toNat < 10 := by decide +kernel
  exact this d hd

theorem readNat_num (s : List Char) (h : Digits s) : Arbi.readNat 10 s = some (num s) := by
  unfold Arbi.readNat num
  suffices H : ∀ (s : List Char) (x : Nat), Digits s →
      s.foldl (fun acc c => acc.bind fun n => (Arbi.digitVal c).bind fun d => if d < 10 then some (n * 10 + d) else none) (some x) =
      some (s.foldl (fun a c => 10 * a + (c.toNat - '0'.toNat)) x) from H s 0 h
  intro s
  induction s with
  | nil => intro x _; rfl
  | cons c s ih =>
    intro x h
    obtain ⟨_, _, _, _, _, h1, h2⟩ := digit_facts (h c (by simp))
    rw [List.foldl_cons, List.foldl_cons, Option.bind_some, h1, Option.bind_some, if_pos h2, ih _ fun c hc => h c (List.mem_cons_of_mem _ hc)]
    congr 2
    ring

theorem s2i_num (s : List Char) (h : Digits s) (hl : s.length ≤ 130000) : s2i s = .ok (num s) := by
  have hg : Io.getInt 10 0 s = some ((num s : Int), []) := by
    unfold Io.getInt
    have e : ¬ (s.head? = some '-') := by
      cases s with
      | nil => simp
      | cons c s => simpa using (digit_facts (h c (by simp))).2.1
    simp only [e, if_false, if_true]
    have := Io.takeDigits_eq 9 s [] s.length (fun c hc => (digit_facts (h c hc)).1) (Or.inl rfl)
    rw [List.append_nil] at this
    rw [show (10 - 1 : Nat) = 9 from rfl, this]
    simp only [readNat_num s h]
    simp
  have hs : Io.sscanf "%d".toList [] s = .ok [.int (num s)] := by
    unfold Io.sscanf
    rw [List.take_of_length_le (by unfold Io.strBlock; omega)]
    have e1 : "%d".toList = ['%', 'd'] := by decide
    rw [e1, Io.scan, if_pos rfl, Io.scan]
    have e2 : Io.digit? 'd' = none := by decide
    rw [e2]
    simp only [show ('d' = '-') = False by decide, show ('d' = '*') = False by decide, if_false]
    have e3 : Io.sconv 'd' 0 s = .ok ([.int (num s)], []) := by
      unfold Io.sconv
      simp only [show ('d' = '%') = False by decide, show ('d' = 'b') = False by decide, show ('d' = 'o') = False by decide,
        show ('d' = 'x') = False by decide, if_false, if_true, hg]
    rw [e3]
    rfl
  unfold s2i
  rw [hs]

theorem pow10_eq (k : Nat) (h : k ≤ 130000) : pow10 k = .ok (10 ^ k) := by
  unfold pow10
  have h2 : (k : Int) < 2 ^ 129998 := by
    have : (130000 : Int) < 2 ^ 17 := by norm_num
    have h3 : (2 : Int) ^ 17 ≤ 2 ^ 129998 := pow_le_pow_right₀ (by norm_num) (by norm_num)
    omega
  rw [(Pre.c91_pow_partial 10 k).1 (by omega) h2]
  rfl

theorem not_mem_digits {s : List Char} (h : Digits s) : '.' ∉ s ∧ '{' ∉ s ∧ '}' ∉ s ∧ '-' ∉ s :=
  ⟨fun hc => (digit_facts (h _ hc)).2.2.1 rfl, fun hc => (digit_facts (h _ hc)).2.2.2.1 rfl,
    fun hc => (digit_facts (h _ hc)).2.2.2.2.1 rfl, fun hc => (digit_facts (h _ hc)).2.1 rfl⟩

theorem Digits.append {a b : List Char} (ha : Digits a) (hb : Digits b) : Digits (a ++ b) := fun c hc =>
  (List.mem_append.1 hc).elim (ha c) (hb c)

/-- A sign before a text. -/
def signed (b : Bool) (t : List Char) : List Char := if b then '-' :: t else t

def sgn (b : Bool) : Int := if b then -1 else 1

theorem str2rat_signed (b : Bool) (t : List Char) (h : t.head? ≠ some '-') (hl : t.length ≤ 130000) :
    str2rat (signed b t) = unsigned (sgn b) t := by
  unfold str2rat signed sgn
  cases b with
  | true =>
    have h1 : Txt.isPrefix "-".toList ('-' :: t) = true := by
      unfold Txt.isPrefix
      rw [show "-".toList = ['-'] by decide]
      simp [Txt.strncmp]
    have h2 : Txt.substr ('-' :: t) 2 (-1) = .ok t := by
      unfold Txt.substr
      rw [Txt.withInt_of (by norm_num) (by norm_num), Txt.withInt_of (by norm_num) (by norm_num)]
      rw [if_neg (by norm_num)]
      split
      · next hc =>
        cases t with
        | nil => rfl
        | cons c t => simp at hc; omega
      · rw [if_pos (by norm_num)]
        rfl
    simp only [if_true, h1, h2, ofRes, bind]
  | false =>
    have h1 : Txt.isPrefix "-".toList t = false := by
      unfold Txt.isPrefix
      rw [show "-".toList = ['-'] by decide]
      cases t with
      | nil => simp [Txt.strncmp]
      | cons c t =>
        have hc : ¬ '-' = c := fun e => h (by simp [e.symm])
        simp only [List.length_cons, List.length_nil, Txt.strncmp, hc, if_false]
        split <;> rfl
    simp only [Bool.false_eq_true, if_false, h1, bind]

end Voss.Vlib
