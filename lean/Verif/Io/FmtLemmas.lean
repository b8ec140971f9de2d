import Verif.Io.FmtSpec
import Verif.Arbi.StrLemmas
/- Helper lemmas for formatted printing. -/
namespace Voss.Io
open Voss.Arbi

theorem app_fit (buf s : List Char) (h : buf.length + s.length ≤ strBlock) : app buf s = buf ++ s := by
  unfold app; rw [List.take_of_length_le (by omega)]

theorem app_prefix (buf s : List Char) : buf <+: app buf s := ⟨_, rfl⟩

theorem app_le (buf s : List Char) (h : buf.length ≤ strBlock) : (app buf s).length ≤ strBlock := by
  simp [app]; omega

theorem fill_fit (c : Char) : ∀ n buf, buf.length + n ≤ strBlock → fill c n buf = buf ++ List.replicate n c := by
  intro n
  induction n with
  | zero => intro buf _; simp [fill]
  | succ n ih =>
    intro buf h
    rw [fill, app_fit buf [c] (by simp; omega), ih _ (by simp; omega)]
    simp [List.replicate_succ]

/-- Padding that fits. -/
theorem prs_fit (buf s : List Char) (ljust zfill : Bool) (w : Nat) (t : List Char)
    (h : pad ljust zfill w [] s = some t) (hl : buf.length + t.length ≤ strBlock) :
    prs buf s ljust zfill w = some (buf ++ t) := by
  unfold pad at h
  unfold prs
  by_cases hw : w = 0
  · subst hw
    simp at h; subst h
    simp only [Int.natCast_zero, gt_iff_lt, lt_irrefl, false_and, if_false, Nat.sub_self, fill]
    cases ljust <;> simp [app_fit _ _ hl]
  · simp only [if_neg hw, List.length_nil, Nat.zero_add] at h
    split at h
    · cases h
    · rename_i hle
      rw [if_neg (by omega)]
      have hw' : ((w:Int) > 0) := by omega
      simp only [hw', if_true, Int.toNat_natCast]
      simp only [Option.some.injEq] at h
      cases ljust
      · cases zfill
        all_goals
          simp at h; subst h; simp at hl
          simp
          rw [fill_fit _ _ _ (by omega), app_fit _ _ (by simp; omega)]
          simp
      · simp at h; subst h; simp at hl
        simp
        rw [app_fit _ _ (by omega), fill_fit _ _ _ (by simp; omega)]
        simp

theorem prs_none (buf s : List Char) (ljust zfill : Bool) (w : Nat)
    (h : pad ljust zfill w [] s = none) : prs buf s ljust zfill w = none := by
  unfold pad at h
  split at h
  · cases h
  · simp only [List.length_nil, Nat.zero_add] at h
    split at h
    · unfold prs; rw [if_pos (by omega)]
    · cases h

/-! Directives -/

theorem digit_of (d : Nat) (hd : d < 10) : digit? (dchar d) = some d := by
  have : ∀ d < 10, digit? (dchar d) = some d := by decide +kernel
  exact this d hd

/-- The flags of a directive. -/
theorem run_flags (fl : List Flag) : ∀ (r : List Char) (d : Dir) (args : List Val) (buf : List Char), d.size = 0 →
    run (fl.map Flag.char ++ r) (some d) args buf =
      run r (some ⟨0, d.zfill || decide (Flag.zero ∈ fl), d.ljust || decide (Flag.minus ∈ fl)⟩) args buf := by
  induction fl with
  | nil => intro r d args buf h; obtain ⟨s, z, l⟩ := d; simp at h; subst h; simp
  | cons f fl ih =>
    intro r d args buf h
    obtain ⟨s, z, l⟩ := d
    simp at h; subst h
    cases f with
    | minus =>
      simp only [List.map_cons, List.cons_append, Flag.char]
      rw [run]
      have : digit? '-' = none := by decide
      simp only [this, if_true]
      rw [ih _ _ _ _ rfl]
      simp
    | zero =>
      simp only [List.map_cons, List.cons_append, Flag.char]
      rw [run]
      have : digit? '0' = some 0 := by decide
      have h0 : inInt (10 * 0 + (0:Nat)) = true := by decide
      simp only [this, h0, if_true]
      rw [ih _ _ _ _ (by simp)]
      simp

theorem inInt_nat (n : Nat) (h : n < 2147483648) : inInt n = true := by
  unfold inInt
  simp only [Bool.and_eq_true, decide_eq_true_eq]
  constructor <;> omega

theorem run_digs : ∀ (n : Nat) (z l : Bool) (r : List Char) (args : List Val) (buf : List Char), 0 < n → n < 2147483648 →
    run (digs 10 n ++ r) (some ⟨0, z, l⟩) args buf = run r (some ⟨n, z, l⟩) args buf := by
  intro n
  induction n using Nat.strongRecOn with
  | ind n ih =>
    intro z l r args buf h0 h
    rw [digs_step 10 n (by omega) h0, List.append_assoc]
    have hd := digit_of (n % 10) (Nat.mod_lt _ (by omega))
    have step : ∀ m : Nat, m = n / 10 → run ([dchar (n % 10)] ++ r) (some ⟨m, z, l⟩) args buf = run r (some ⟨n, z, l⟩) args buf := by
      intro m hm
      rw [List.singleton_append, run, hd]
      simp only
      have e : 10 * (m:Int) + ((n % 10 : Nat) : Int) = (n:Int) := by omega
      rw [e, inInt_nat n h, if_pos rfl]
      congr 3
      by_cases hz : n % 10 = 0
      · have : m ≠ 0 := by omega
        simp [this]
      · simp [hz]
    by_cases hq : n / 10 = 0
    · rw [hq, digs_zero, List.nil_append]
      have := step 0 (by omega)
      simpa using this
    · rw [ih (n / 10) (by omega) z l _ args buf (by omega) (by omega)]
      exact step _ rfl

theorem bmod_nat (w : Nat) (h : w < 2147483648) : (w:Int).bmod (2^32) = w := by
  rw [Int.bmod_def, Int.emod_eq_of_lt (by omega) (by push_cast; omega), if_pos (by push_cast; omega)]

theorem starSize_nat (w : Nat) (h : w < 2147483648) : starSize w = some (w:Int) := by
  unfold starSize
  rw [if_pos (by omega), bmod_nat w h]

theorem star_nat (w : Nat) (h : w < 2147483648) (args : List Val) : star (.int w :: args) = some ((w:Int), args) := by
  rw [star, starSize_nat w h, Option.map_some]

/-- Flags and width of a directive. -/
theorem run_opts (o : Opts) (ho : o.Ok) (r : List Char) (args : List Val) (buf : List Char) :
    run ('%' :: o.fmt ++ r) none (o.args ++ args) buf = run r (some ⟨o.w, o.zeros, o.left⟩) args buf := by
  obtain ⟨fl, w⟩ := o
  rw [List.cons_append, run, if_pos rfl]
  unfold Opts.fmt Opts.args Opts.w Opts.zeros Opts.left
  unfold Opts.Ok at ho
  simp only [List.append_assoc]
  rw [run_flags fl _ Dir.start _ _ rfl]
  cases w with
  | none => simp [Dir.start]
  | num w =>
    simp only at ho
    simp only [Dir.start, Bool.false_or, List.nil_append]
    rw [numeral_eq _ _ (by omega), run_digs _ _ _ _ _ _ ho.1 ho.2]
  | star w =>
    simp only at ho
    simp only [Dir.start, Bool.false_or]
    rw [List.singleton_append, List.singleton_append, run]
    have : digit? '*' = none := by decide
    simp only [this, (by decide : '*' ≠ '-'), if_false, if_true, star_nat w ho]

/-! Signed numbers -/

theorem dchar_ne_zero (d : Nat) (h : d < 36) (h0 : d ≠ 0) : dchar d ≠ '0' := by
  have : ∀ d < 36, d ≠ 0 → dchar d ≠ '0' := by decide +kernel
  exact this d h h0

theorem dchar_ne_blank (d : Nat) (h : d < 36) : dchar d ≠ ' ' := by
  have : ∀ d < 36, dchar d ≠ ' ' := by decide +kernel
  exact this d h

theorem digs_head (b : Nat) (hb : 2 ≤ b) (hb2 : b ≤ 36) : ∀ n, 0 < n → ∃ c r, digs b n = c :: r ∧ c ≠ '0' ∧ c ≠ ' ' := by
  intro n
  induction n using Nat.strongRecOn with
  | ind n ih =>
    intro h0
    rw [digs_step b n hb h0]
    by_cases hq : n / b = 0
    · rw [hq, digs_zero]
      have hlt : n < b := by
        rcases Nat.div_eq_zero_iff.mp hq with h | h <;> omega
      refine ⟨_, _, rfl, dchar_ne_zero _ ?_ ?_, dchar_ne_blank _ ?_⟩
      · rw [Nat.mod_eq_of_lt hlt]; omega
      · rw [Nat.mod_eq_of_lt hlt]; omega
      · rw [Nat.mod_eq_of_lt hlt]; omega
    · obtain ⟨c, r, e, h1, h2⟩ := ih (n / b) (Nat.div_lt_self h0 (by omega)) (Nat.pos_of_ne_zero hq)
      exact ⟨c, r ++ [dchar (n % b)], by rw [e]; rfl, h1, h2⟩

theorem takeWhile_blank (n : Nat) (c : Char) (r : List Char) (hc : c ≠ ' ') :
    (List.replicate n ' ' ++ c :: r).takeWhile (· = ' ') = List.replicate n ' ' := by
  induction n with
  | zero => simp [hc]
  | succ n ih => simp [List.replicate_succ, ih]

theorem set_last_blank (n : Nat) (c : Char) (r : List Char) :
    (List.replicate (n + 1) ' ' ++ r).set n c = List.replicate n ' ' ++ c :: r := by
  induction n with
  | zero => simp
  | succ n ih => rw [List.replicate_succ]; simp [List.replicate_succ] at ih ⊢; exact ih

theorem setSign_zeros (n : Nat) (s : List Char) :
    setSign (List.replicate (n + 1) '0' ++ s) = some ('-' :: List.replicate n '0' ++ s) := by
  simp [setSign, List.replicate_succ]

theorem setSign_blanks (n : Nat) (c : Char) (r : List Char) (hc : c ≠ ' ') :
    setSign (List.replicate (n + 1) ' ' ++ c :: r) = some (List.replicate n ' ' ++ '-' :: c :: r) := by
  unfold setSign
  rw [takeWhile_blank _ _ _ hc]
  have : (List.replicate (n + 1) ' ' ++ c :: r).head? = some ' ' := by simp [List.replicate_succ]
  rw [this]
  simp only [Option.some.injEq, (by decide : ' ' ≠ '0'), if_false, List.length_replicate]
  rw [if_neg (by omega)]
  simp only [Nat.add_sub_cancel]
  rw [set_last_blank]

theorem setSign_none (s : List Char) (h : ∀ c ∈ s.head?, c ≠ '0' ∧ c ≠ ' ') : setSign s = none := by
  cases s with
  | nil => rfl
  | cons c r =>
    have := h c (by simp)
    simp [setSign, this.1, this.2]

theorem numeral_pos (b n : Nat) (hb : 2 ≤ b) (hb2 : b ≤ 36) : 0 < (numeral b n).length := by
  by_cases hn : n = 0
  · simp [numeral, hn]
  · rw [numeral_eq _ _ hn]
    obtain ⟨c, r, e, _⟩ := digs_head b hb hb2 n (by omega)
    simp [e]

theorem pad_some (left zeros : Bool) (w : Nat) (sign body t : List Char)
    (h : pad left zeros w sign body = some t) : (w = 0 ∧ t = sign ++ body) ∨
      (0 < w ∧ sign.length + body.length ≤ w ∧ t.length = w ∧
        t = if left then sign ++ body ++ List.replicate (w - (sign.length + body.length)) ' '
          else if zeros then sign ++ List.replicate (w - (sign.length + body.length)) '0' ++ body
          else List.replicate (w - (sign.length + body.length)) ' ' ++ sign ++ body) := by
  unfold pad at h
  split at h
  · left; simp at h; exact ⟨by assumption, h.symm⟩
  · split at h
    · cases h
    · right
      simp only [Option.some.injEq] at h
      refine ⟨by omega, by omega, ?_, h.symm⟩
      rw [← h]
      split
      · simp; omega
      · split <;> simp <;> omega

theorem putInt_fit (b : Nat) (hb : 2 ≤ b) (hb2 : b ≤ 36) (buf : List Char) (z : Int) (ljust zfill : Bool) (w : Nat)
    (t : List Char) (h : pad ljust zfill w (if z < 0 then ['-'] else []) (numeral b z.natAbs) = some t)
    (hl : buf.length + t.length ≤ strBlock) : putInt b buf z ljust zfill w = some (buf ++ t) := by
  unfold putInt
  have hpos := numeral_pos b z.natAbs hb hb2
  by_cases hz : z < 0
  · rw [if_pos hz] at h
    rcases pad_some _ _ _ _ _ _ h with ⟨hw, ht⟩ | ⟨hw, hle, htl, ht⟩
    · subst hw
      rw [if_pos ⟨hz, Or.inl rfl⟩]
      subst ht
      simp only [List.length_append, List.length_singleton] at hl
      rw [app_fit _ _ (by simp; omega)]
      simp only [Int.natCast_zero, Int.zero_ne_one, if_false, gt_iff_lt, lt_irrefl]
      have := prs_fit (buf ++ ['-']) (numeral b z.natAbs) ljust zfill 0 (numeral b z.natAbs) (by simp [pad]) (by simp; omega)
      simp only [Int.natCast_zero] at this
      rw [this]; simp
    · simp only [List.length_singleton] at hle ht
      cases ljust with
      | true =>
        simp only [if_true] at ht
        rw [if_pos ⟨hz, Or.inr rfl⟩, app_fit _ _ (by simp; omega)]
        have h1 : ¬ ((w:Int) = 1) := by omega
        have h2 : (w:Int) > 0 := by omega
        simp only [h1, h2, if_true, if_false]
        have h3 : (w:Int) - 1 = ((w - 1 : Nat) : Int) := by omega
        rw [h3, prs_fit (buf ++ ['-']) (numeral b z.natAbs) true zfill (w - 1)
          (numeral b z.natAbs ++ List.replicate (w - 1 - (numeral b z.natAbs).length) ' ')]
        · rw [ht]; simp
          omega
        · unfold pad
          rw [if_neg (by omega), if_neg (by simp; omega)]
          simp
        · simp
          omega
      | false =>
        simp only [Bool.false_eq_true, if_false] at ht
        rw [if_neg (by rintro ⟨_, h | h⟩; omega; cases h)]
        obtain ⟨c, r, e, hc0, hcb⟩ := digs_head b hb hb2 z.natAbs (by omega)
        have en : numeral b z.natAbs = c :: r := by rw [numeral_eq _ _ (by omega), e]
        obtain ⟨k, hk⟩ : ∃ k, w - (numeral b z.natAbs).length = k + 1 := ⟨w - (numeral b z.natAbs).length - 1, by omega⟩
        have hk' : w - (1 + (numeral b z.natAbs).length) = k := by omega
        rw [hk'] at ht
        rw [prs_fit buf (numeral b z.natAbs) false zfill w
          (List.replicate (k + 1) (if zfill then '0' else ' ') ++ numeral b z.natAbs)]
        · simp only [hz, if_true]
          rw [List.drop_left, List.take_left]
          cases zfill with
          | true =>
            simp only [if_true]
            rw [setSign_zeros]
            simp only [if_true] at ht
            rw [ht]; simp
          | false =>
            simp only [Bool.false_eq_true, if_false] at ht ⊢
            rw [en, setSign_blanks _ _ _ hcb, ht, en]
            simp
        · unfold pad
          rw [if_neg (by omega), if_neg (by simp; omega)]
          simp only [List.length_nil, Nat.zero_add, hk]
          cases zfill <;> simp
        · simp; omega
  · rw [if_neg hz] at h
    rw [if_neg (by rintro ⟨h, _⟩; exact hz h), prs_fit _ _ _ _ _ _ h hl]
    simp [hz]

theorem prs_same (buf s : List Char) (zfill : Bool) (w : Nat) (h : w = s.length) (h0 : 0 < w) :
    prs buf s false zfill w = some (app buf s) := by
  unfold prs
  rw [if_neg (by omega)]
  have : (w:Int) > 0 := by omega
  subst h
  simp only [this, if_true, Int.toNat_natCast, Nat.sub_self, fill, Bool.false_eq_true, if_false]

theorem pad_none (left zeros : Bool) (w : Nat) (sign body : List Char)
    (h : pad left zeros w sign body = none) : 0 < w ∧ w < sign.length + body.length := by
  unfold pad at h
  split at h
  · cases h
  · split at h
    · exact ⟨by omega, by assumption⟩
    · cases h

theorem putInt_none (b : Nat) (hb : 2 ≤ b) (hb2 : b ≤ 36) (buf : List Char) (z : Int) (ljust zfill : Bool) (w : Nat)
    (h : pad ljust zfill w (if z < 0 then ['-'] else []) (numeral b z.natAbs) = none) :
    putInt b buf z ljust zfill w = none := by
  obtain ⟨hw, hlt⟩ := pad_none _ _ _ _ _ h
  unfold putInt
  by_cases hz : z < 0
  · simp only [hz, if_true, List.length_singleton] at hlt
    cases ljust with
    | true =>
      rw [if_pos ⟨hz, Or.inr rfl⟩]
      simp only
      split
      · rfl
      · have : (w:Int) > 0 := by omega
        rw [if_pos this]
        unfold prs
        rw [if_pos (by omega)]
    | false =>
      rw [if_neg (by rintro ⟨_, h | h⟩; omega; cases h)]
      by_cases hlt2 : w < (numeral b z.natAbs).length
      · unfold prs
        rw [if_pos (by omega)]
      · rw [prs_same _ _ _ _ (by omega) (by omega)]
        simp only [hz, if_true]
        have : setSign ((app buf (numeral b z.natAbs)).drop buf.length) = none := by
          apply setSign_none
          unfold app
          rw [List.drop_left]
          obtain ⟨c, r, e, hc0, hcb⟩ := digs_head b hb hb2 z.natAbs (by omega)
          rw [numeral_eq _ _ (by omega), e]
          intro c' hc'
          cases hm : strBlock - buf.length with
          | zero => rw [hm] at hc'; simp at hc'
          | succ m => rw [hm] at hc'; simp at hc'; subst hc'; exact ⟨hc0, hcb⟩
        rw [this]; rfl
  · simp only [hz, if_false, List.length_nil] at hlt
    rw [if_neg (by rintro ⟨h, _⟩; exact hz h)]
    unfold prs
    rw [if_pos (by omega)]

/-! Binary numbers -/

def flip (c : Char) : Char := if c = '1' then '0' else '1'

theorem complement_one (s : List Char) : complement (s ++ ['1']) = s.map flip ++ ['1'] := by
  unfold complement
  simp [flip]

theorem complement_zero (s : List Char) : complement (s ++ ['0']) = complement s ++ ['0'] := by
  unfold complement
  simp only [List.reverse_append, List.reverse_singleton, List.singleton_append]
  rw [List.takeWhile_cons_of_pos (by decide)]
  simp only [List.length_cons, List.length_append, List.length_nil, Nat.zero_add]
  by_cases h : (s.reverse.takeWhile (· ≠ '1')).length = s.length
  · rw [if_pos (by omega), if_pos h]
  · have hle : (s.reverse.takeWhile (· ≠ '1')).length ≤ s.length := by
      have := (List.takeWhile_sublist (l := s.reverse) (· ≠ '1')).length_le
      simpa using this
    rw [if_neg (by omega), if_neg h]
    have e : s.length + 1 - 1 - ((s.reverse.takeWhile (· ≠ '1')).length + 1) = s.length - 1 - (s.reverse.takeWhile (· ≠ '1')).length := by omega
    rw [e, List.take_append_of_le_length (by omega), List.drop_append_of_le_length (by omega), List.append_assoc]

theorem bits_length : ∀ w z, (bits w z).length = w := by
  intro w; induction w with
  | zero => intro z; rfl
  | succ w ih => intro z; simp [bits, ih]

theorem bits_flip : ∀ (w : Nat) (z : Int), (bits w z).map flip = bits w (-z - 1) := by
  intro w; induction w with
  | zero => intro z; rfl
  | succ w ih =>
    intro z
    simp only [bits, List.map_append, ih, List.map_cons, List.map_nil]
    have e : -(z / 2) - 1 = (-z - 1) / 2 := by omega
    rw [e]
    congr 2
    by_cases h : z % 2 = 1
    · rw [if_pos h, if_neg (by omega)]; rfl
    · rw [if_neg h, if_pos (by omega)]; rfl

theorem bits_neg : ∀ (w : Nat) (z : Int), complement (bits w z) = bits w (-z) := by
  intro w; induction w with
  | zero => intro z; rfl
  | succ w ih =>
    intro z
    simp only [bits]
    by_cases h : z % 2 = 1
    · rw [if_pos h, if_pos (by omega), complement_one, bits_flip]
      have e : -(z / 2) - 1 = -z / 2 := by omega
      rw [e]
    · rw [if_neg h, if_neg (by omega), complement_zero, ih]
      have e : -(z / 2) = -z / 2 := by omega
      rw [e]

theorem bits_zero : ∀ w, bits w 0 = List.replicate w '0' := by
  intro w; induction w with
  | zero => rfl
  | succ w ih => simp only [bits, Int.zero_ediv, ih, List.replicate_succ']; rfl

theorem digs2_length (n : Nat) : (digs 2 n).length = bitLength n := by
  induction n using Nat.strongRecOn with
  | ind n ih =>
    by_cases h0 : n = 0
    · subst h0; simp [digs_zero, bitLength]
    · rw [digs_step 2 n (by omega) (by omega), List.length_append, ih _ (by omega)]
      unfold bitLength
      rw [if_neg h0]
      by_cases h1 : n / 2 = 0
      · rw [if_pos h1]
        have : n = 1 := by omega
        subst this; decide
      · rw [if_neg h1]
        rw [Nat.log2_def n, if_pos (by omega)]
        simp

theorem bits_digs : ∀ (w n : Nat), bitLength n ≤ w → List.replicate (w - bitLength n) '0' ++ digs 2 n = bits w n := by
  intro w; induction w with
  | zero =>
    intro n h
    have hl := digs2_length n
    rw [Nat.le_zero.mp h] at hl
    rw [List.length_eq_zero_iff.mp hl]; simp [bits]
  | succ w ih =>
    intro n h
    by_cases h0 : n = 0
    · subst h0; rw [digs_zero]; simp [bits_zero, bitLength]
    · have hb : bitLength n = bitLength (n / 2) + 1 := by
        rw [← digs2_length, digs_step 2 n (by omega) (by omega), List.length_append, digs2_length]; rfl
      rw [digs_step 2 n (by omega) (by omega), ← List.append_assoc, bits]
      have e : ((n:Int) / 2) = ((n / 2 : Nat) : Int) := by omega
      rw [e, ← ih (n / 2) (by omega)]
      have e2 : w + 1 - bitLength n = w - bitLength (n / 2) := by omega
      rw [e2]
      congr 2
      rcases Nat.mod_two_eq_zero_or_one n with h | h
      · rw [h, if_neg (by omega)]; decide
      · rw [h, if_pos (by omega)]; decide

theorem bitLength_zero : bitLength 0 = 0 := rfl

theorem bitLength_pos (n : Nat) (h : n ≠ 0) : 0 < bitLength n := by unfold bitLength; rw [if_neg h]; omega

theorem numeral2 (n : Nat) : numeral 2 n = if n = 0 then ['0'] else digs 2 n := by
  by_cases h : n = 0
  · simp [numeral, h]
  · rw [if_neg h, numeral_eq _ _ h]

theorem binText_pad (w : Nat) (hw : 0 < w) (n : Nat) :
    pad false true w [] (numeral 2 n) = if w < bitLength n then none else some (bits w n) := by
  unfold pad
  rw [if_neg (by omega), numeral2]
  by_cases hn : n = 0
  · subst hn
    simp [bitLength, bits_zero]
    refine ⟨by omega, ?_⟩
    rw [← List.replicate_succ']
    congr 1; omega
  · rw [if_neg hn]
    simp only [List.length_nil, Nat.zero_add, digs2_length]
    split
    · rfl
    · simp only [Bool.false_eq_true, if_false, if_true, List.nil_append]
      rw [bits_digs w n (by omega)]

theorem putBin_fit (buf : List Char) (z : Int) (ljust zfill : Bool) (w : Nat) (t : List Char)
    (hz0 : w = 0 → zfill = false) (h : binText w z = some t) (hl : buf.length + t.length ≤ strBlock) :
    putBin buf z ljust zfill w = some (buf ++ t) := by
  unfold binText at h
  unfold putBin
  by_cases hw : w = 0
  · subst hw
    rw [hz0 rfl]
    simp only [if_true, Option.some.injEq] at h
    subst h
    rw [bits_length] at hl
    simp only [Int.natCast_zero, ne_eq, not_true_eq_false, if_false, Bool.not_false, if_true, Bool.true_and]
    have key : z ≠ 0 → '0' :: numeral 2 z.natAbs = bits (bitLength z.natAbs + 1) (z.natAbs : Int) := by
      intro h0
      rw [← bits_digs _ _ (by omega), numeral2, if_neg (by omega)]
      simp
    have hln : z ≠ 0 → (numeral 2 z.natAbs).length = bitLength z.natAbs := by
      intro h0; rw [numeral2, if_neg (by omega), digs2_length]
    by_cases hz : z < 0
    · rw [if_pos hz, app_fit _ _ (by simp; omega)]
      have := prs_fit (buf ++ ['0']) (numeral 2 z.natAbs) ljust false 0 (numeral 2 z.natAbs) (by simp [pad])
        (by rw [hln (by omega)]; simp; omega)
      simp only [Int.natCast_zero] at this
      rw [this]
      simp only [List.append_assoc, List.singleton_append, List.take_left, List.drop_left]
      rw [key (by omega), bits_neg]
      congr 3
      omega
    · rw [if_neg hz]
      by_cases h0 : z = 0
      · subst h0
        have := prs_fit buf (numeral 2 0) ljust false 0 ['0'] (by simp [pad, numeral]) (by simp [bitLength] at hl; simpa using hl)
        simp only [Int.natCast_zero] at this
        simp only [Int.natAbs_zero, not_true_eq_false, decide_false, Bool.false_eq_true, if_false]
        rw [this]; rfl
      · simp only [h0, not_false_eq_true, decide_true, if_true]
        rw [app_fit _ _ (by simp; omega)]
        have := prs_fit (buf ++ ['0']) (numeral 2 z.natAbs) ljust false 0 (numeral 2 z.natAbs) (by simp [pad])
          (by rw [hln (by omega)]; simp; omega)
        simp only [Int.natCast_zero] at this
        rw [this]
        simp only [List.append_assoc, List.singleton_append]
        rw [key (by omega)]
        congr 3
        omega
  · rw [if_neg hw] at h
    have hw' : (w:Int) ≠ 0 := by omega
    simp only [hw', ne_eq, not_false_eq_true, if_true, Bool.not_true, Bool.false_and, Bool.false_eq_true, if_false]
    split at h
    · cases h
    · rename_i hle
      simp only [Option.some.injEq] at h
      subst h
      rw [bits_length] at hl
      have hp := binText_pad w (by omega) z.natAbs
      rw [if_neg hle] at hp
      rw [prs_fit buf _ false true w _ hp (by rw [bits_length]; exact hl)]
      by_cases hz : z < 0
      · rw [if_pos hz]
        simp only [List.take_left, List.drop_left]
        rw [bits_neg]
        congr 3
        omega
      · rw [if_neg hz]
        congr 3
        omega

theorem putBin_none (buf : List Char) (z : Int) (ljust zfill : Bool) (w : Nat) (h : binText w z = none) :
    putBin buf z ljust zfill w = none := by
  unfold binText at h
  split at h
  · cases h
  · rename_i hw
    split at h
    · rename_i hlt
      have hp := binText_pad w (by omega) z.natAbs
      rw [if_pos hlt] at hp
      unfold putBin
      have hw' : (w:Int) ≠ 0 := by omega
      simp only [hw', ne_eq, not_false_eq_true, if_true, Bool.not_true, Bool.false_and, Bool.false_eq_true, if_false,
        prs_none _ _ _ _ _ hp]
      split <;> rfl
    · cases h

/-! Lists -/

theorem putAll_fit (left zeros : Bool) (w : Nat) : ∀ (l : List (List Char)) (ts : List (List Char)) (sep buf : List Char),
    padAll left zeros w l = some ts → sep.length ≤ 2 →
    buf.length + (ts.flatMap fun t => [',', ' '] ++ t).length ≤ strBlock →
    putAll left zeros w sep l buf = some (buf ++ match ts with
      | [] => []
      | t :: ts => sep ++ t ++ ts.flatMap fun t => [',', ' '] ++ t) := by
  intro l
  induction l with
  | nil => intro ts sep buf h _ _; simp [padAll] at h; subst h; simp [putAll]
  | cons s ss ih =>
    intro ts sep buf h hs hl
    unfold padAll at h
    split at h
    · rename_i t ts' e1 e2
      simp only [Option.some.injEq] at h
      subst h
      simp only [List.flatMap_cons, List.length_append, List.length_cons, List.length_nil] at hl
      unfold putAll
      rw [app_fit _ _ (by omega), prs_fit _ _ _ _ _ _ e1 (by simp; omega)]
      simp only
      rw [ih ts' [',', ' '] _ e2 (by simp) (by simp only [List.length_append]; omega)]
      cases ts' <;> simp
    · cases h

theorem putAll_none (left zeros : Bool) (w : Nat) : ∀ (l : List (List Char)) (sep buf : List Char),
    padAll left zeros w l = none → putAll left zeros w sep l buf = none := by
  intro l
  induction l with
  | nil => intro sep buf h; simp [padAll] at h
  | cons s ss ih =>
    intro sep buf h
    unfold padAll at h
    unfold putAll
    cases e1 : pad left zeros w [] s with
    | none => rw [prs_none _ _ _ _ _ e1]
    | some t =>
      rw [e1] at h
      cases e2 : padAll left zeros w ss with
      | some ts => rw [e2] at h; cases h
      | none =>
        split
        · rfl
        · exact ih _ _ e2

theorem intercalate_cons (t : List Char) (ts : List (List Char)) :
    [',', ' '].intercalate (t :: ts) = t ++ ts.flatMap fun t => [',', ' '] ++ t := by
  induction ts generalizing t with
  | nil => simp [List.intercalate]
  | cons u us ih =>
    rw [List.intercalate_cons_cons, ih]
    simp

theorem putList_fit (buf : List Char) (l : List (List Char)) (left zeros : Bool) (w : Nat) (t : List Char)
    (h : (padAll left zeros w l).map (fun ts => '[' :: [',', ' '].intercalate ts ++ [']']) = some t)
    (hl : buf.length + t.length ≤ strBlock) : putList buf l left zeros w = some (buf ++ t) := by
  unfold putList
  cases l with
  | nil =>
    simp [padAll, List.intercalate] at h
    subst h
    simp [app_fit _ _ hl]
  | cons s ss =>
    cases e : padAll left zeros w (s :: ss) with
    | none => rw [e] at h; cases h
    | some ts =>
      rw [e] at h
      simp only [Option.map_some, Option.some.injEq] at h
      rw [if_neg (by simp)]
      cases ts with
      | nil =>
        unfold padAll at e
        split at e <;> simp at e
      | cons t0 ts =>
        rw [intercalate_cons] at h
        subst h
        simp only [List.length_append, List.length_cons, List.length_nil] at hl
        rw [putAll_fit left zeros w _ _ ['['] buf e (by simp) (by simp only [List.flatMap_cons, List.length_append, List.length_cons, List.length_nil]; omega)]
        simp only [Option.map_some]
        rw [app_fit _ _ (by simp only [List.length_append, List.length_cons, List.length_nil]; omega)]
        simp

theorem putList_none (buf : List Char) (l : List (List Char)) (left zeros : Bool) (w : Nat)
    (h : (padAll left zeros w l).map (fun ts => '[' :: [',', ' '].intercalate ts ++ [']']) = none) :
    putList buf l left zeros w = none := by
  unfold putList
  cases l with
  | nil => simp [padAll] at h
  | cons s ss =>
    rw [Option.map_eq_none_iff] at h
    rw [if_neg (by simp), putAll_none _ _ _ _ _ _ h]; rfl

/-! Fields -/

theorem run_conv (c : Char) (r : List Char) (d : Dir) (args : List Val) (buf : List Char) (hd : digit? c = none)
    (h1 : c ≠ '-') (h2 : c ≠ '*') : run (c :: r) (some d) args buf = match conv c d args buf with
        | .ok (args, buf) => run r none args buf
        | .fail => .fail
        | .ub => .ub := by
  rw [run]
  simp only [hd, h1, h2, if_false]
  rfl

/-- The result of one of the printing functions. -/
def after (r : List Char) (args : List Val) : Option (List Char) → Out (List Char)
  | some buf => run r none args buf
  | none => .fail

theorem after_put (r : List Char) (args : List Val) (o : Option (List Char)) :
    (match put args o with
      | .ok (args, buf) => run r none args buf
      | .fail => .fail
      | .ub => .ub) = after r args o := by
  cases o <;> rfl

def Field.put (buf : List Char) : Field → Option (List Char)
  | .lit c => some (app buf [c])
  | .percent => some (app buf ['%'])
  | .num b o z => putInt b buf z o.left o.zeros o.w
  | .bin o z => putBin buf z o.left o.zeros o.w
  | .str o s => prs buf s o.left o.zeros o.w
  | .strs o l => putList buf l o.left o.zeros o.w
  | .bool o s => prs buf s o.left o.zeros o.w

theorem run_field (f : Field) (hf : f.Ok) (r : List Char) (args : List Val) (buf : List Char) :
    run (f.fmt ++ r) none (f.args ++ args) buf = after r args (f.put buf) := by
  cases f with
  | lit c =>
    simp only [Field.fmt, Field.args, List.singleton_append, List.nil_append, Field.put, after]
    rw [run, if_neg hf]
  | percent =>
    simp only [Field.fmt, Field.args, List.cons_append, List.nil_append, Field.put, after]
    rw [run, if_pos rfl, run_conv _ _ _ _ _ (by decide) (by decide) (by decide)]
    rfl
  | num b o z =>
    simp only [Field.fmt, Field.args, Field.put, List.append_assoc, List.cons_append]
    rw [← List.cons_append, run_opts o hf.2]
    rcases hf.1 with rfl | rfl | rfl
    · rw [show letter 8 = 'o' from rfl]
      simp only [List.nil_append]
      rw [run_conv _ _ _ _ _ (by decide) (by decide) (by decide)]
      exact after_put _ _ _
    · rw [show letter 10 = 'd' from rfl]
      simp only [List.nil_append]
      rw [run_conv _ _ _ _ _ (by decide) (by decide) (by decide)]
      exact after_put _ _ _
    · rw [show letter 16 = 'x' from rfl]
      simp only [List.nil_append]
      rw [run_conv _ _ _ _ _ (by decide) (by decide) (by decide)]
      exact after_put _ _ _
  | bin o z =>
    simp only [Field.fmt, Field.args, Field.put, List.append_assoc, List.cons_append]
    rw [← List.cons_append, run_opts o hf.1]
    simp only [List.nil_append]
    rw [run_conv _ _ _ _ _ (by decide) (by decide) (by decide)]
    exact after_put _ _ _
  | str o s =>
    simp only [Field.fmt, Field.args, Field.put, List.append_assoc, List.cons_append]
    rw [← List.cons_append, run_opts o hf]
    simp only [List.nil_append]
    rw [run_conv _ _ _ _ _ (by decide) (by decide) (by decide)]
    exact after_put _ _ _
  | strs o s =>
    simp only [Field.fmt, Field.args, Field.put, List.append_assoc, List.cons_append]
    rw [← List.cons_append, run_opts o hf]
    simp only [List.nil_append]
    rw [run_conv _ _ _ _ _ (by decide) (by decide) (by decide)]
    exact after_put _ _ _
  | bool o s =>
    simp only [Field.fmt, Field.args, Field.put, List.append_assoc, List.cons_append]
    rw [← List.cons_append, run_opts o hf]
    simp only [List.nil_append]
    rw [run_conv _ _ _ _ _ (by decide) (by decide) (by decide)]
    exact after_put _ _ _

theorem Field.put_fit (f : Field) (hf : f.Ok) (buf t : List Char) (h : f.text = some t)
    (hl : buf.length + t.length ≤ strBlock) : f.put buf = some (buf ++ t) := by
  cases f with
  | lit c => simp [Field.text] at h; subst h; simp [Field.put, app_fit _ _ hl]
  | percent => simp [Field.text] at h; subst h; simp [Field.put, app_fit _ _ hl]
  | num b o z => exact putInt_fit b (by rcases hf.1 with h | h | h <;> omega) (by rcases hf.1 with h | h | h <;> omega) _ _ _ _ _ _ h hl
  | bin o z => exact putBin_fit _ _ _ _ _ _ hf.2 h hl
  | str o s => exact prs_fit _ _ _ _ _ _ h hl
  | strs o s => exact putList_fit _ _ _ _ _ _ h hl
  | bool o s => exact prs_fit _ _ _ _ _ _ h hl

theorem Field.put_none (f : Field) (hf : f.Ok) (buf : List Char) (h : f.text = none) : f.put buf = none := by
  cases f with
  | lit c => cases h
  | percent => cases h
  | num b o z => exact putInt_none b (by rcases hf.1 with h | h | h <;> omega) (by rcases hf.1 with h | h | h <;> omega) _ _ _ _ _ h
  | bin o z => exact putBin_none _ _ _ _ _ h
  | str o s => exact prs_none _ _ _ _ _ h
  | strs o s => exact putList_none _ _ _ _ _ h
  | bool o s => exact prs_none _ _ _ _ _ h

theorem run_fit : ∀ (fs : List Field) (buf t : List Char), (∀ f ∈ fs, f.Ok) → textOf fs = some t →
    buf.length + t.length ≤ strBlock → run (fmtOf fs) none (argsOf fs) buf = .ok (buf ++ t) := by
  intro fs
  induction fs with
  | nil => intro buf t _ h _; simp [textOf] at h; subst h; simp [fmtOf, argsOf, run]
  | cons f fs ih =>
    intro buf t hf h hl
    unfold textOf at h
    split at h
    · rename_i t1 t2 e1 e2
      simp only [Option.some.injEq] at h
      subst h
      simp only [List.length_append] at hl
      simp only [fmtOf, argsOf, List.flatMap_cons]
      rw [run_field f (hf f (by simp)), Field.put_fit f (hf f (by simp)) buf t1 e1 (by omega), after]
      rw [← List.append_assoc]
      exact ih _ _ (fun g hg => hf g (by simp [hg])) e2 (by simp; omega)
    · cases h

theorem run_none : ∀ (fs : List Field) (buf : List Char), (∀ f ∈ fs, f.Ok) → textOf fs = none →
    run (fmtOf fs) none (argsOf fs) buf = .fail := by
  intro fs
  induction fs with
  | nil => intro buf _ h; simp [textOf] at h
  | cons f fs ih =>
    intro buf hf h
    simp only [fmtOf, argsOf, List.flatMap_cons]
    rw [run_field f (hf f (by simp))]
    cases e : f.put buf with
    | none => rfl
    | some b =>
      simp only [after]
      cases e1 : f.text with
      | none => rw [Field.put_none f (hf f (by simp)) buf e1] at e; cases e
      | some t1 =>
        apply ih _ (fun g hg => hf g (by simp [hg]))
        unfold textOf at h
        rw [e1] at h
        cases e2 : textOf fs with
        | none => rfl
        | some _ => rw [e2] at h; cases h

theorem run_defined : ∀ (fs : List Field) (buf : List Char), (∀ f ∈ fs, f.Ok) →
    run (fmtOf fs) none (argsOf fs) buf ≠ .ub := by
  intro fs
  induction fs with
  | nil => intro buf _; simp [fmtOf, argsOf, run]
  | cons f fs ih =>
    intro buf hf
    simp only [fmtOf, argsOf, List.flatMap_cons]
    rw [run_field f (hf f (by simp))]
    cases e : f.put buf with
    | none => simp [after]
    | some b => exact ih b (fun g hg => hf g (by simp [hg]))

end Voss.Io
