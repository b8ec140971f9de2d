import Verif.Io.FmtLemmas
/- Helper lemmas for formatted scanning. -/
namespace Voss.Io
open Voss.Arbi

theorem scan_flags (fl : List Flag) : ∀ (r : List Char) (args : List Val) (inp : List Char),
    scan (fl.map Flag.char ++ r) (some 0) args inp = scan r (some 0) args inp := by
  induction fl with
  | nil => intro r args inp; rfl
  | cons f fl ih =>
    intro r args inp
    cases f with
    | minus =>
      simp only [List.map_cons, List.cons_append, Flag.char]
      rw [scan]
      have : digit? '-' = none := by decide
      simp only [this, if_true]
      exact ih _ _ _
    | zero =>
      simp only [List.map_cons, List.cons_append, Flag.char]
      rw [scan]
      have : digit? '0' = some 0 := by decide
      have h0 : inInt (10 * 0 + (0:Nat)) = true := by decide
      simp only [this, h0, if_true]
      exact ih _ _ _

theorem scan_digs : ∀ (n : Nat) (r : List Char) (args : List Val) (inp : List Char), 0 < n → n < 2147483648 →
    scan (digs 10 n ++ r) (some 0) args inp = scan r (some (n:Int)) args inp := by
  intro n
  induction n using Nat.strongRecOn with
  | ind n ih =>
    intro r args inp h0 h
    rw [digs_step 10 n (by omega) h0, List.append_assoc]
    have hd := digit_of (n % 10) (Nat.mod_lt _ (by omega))
    have step : ∀ m : Nat, m = n / 10 → scan ([dchar (n % 10)] ++ r) (some (m:Int)) args inp = scan r (some (n:Int)) args inp := by
      intro m hm
      rw [List.singleton_append, scan, hd]
      simp only
      have e : 10 * (m:Int) + ((n % 10 : Nat) : Int) = (n:Int) := by omega
      rw [e, inInt_nat n h, if_pos rfl]
    by_cases hq : n / 10 = 0
    · rw [hq, digs_zero, List.nil_append]
      have := step 0 (by omega)
      simpa using this
    · rw [ih (n / 10) (by omega) _ args inp (by omega) (by omega)]
      exact step _ rfl

theorem scan_none (fl : List Flag) (r : List Char) (args : List Val) (inp : List Char) :
    scan ('%' :: Opts.fmt ⟨fl, .none⟩ ++ r) none args inp = scan r (some 0) args inp := by
  rw [List.cons_append, scan, if_pos rfl]
  simp only [Opts.fmt, List.append_nil]
  exact scan_flags _ _ _ _

theorem scan_num (fl : List Flag) (w : Nat) (h0 : 0 < w) (h : w < 2147483648) (r : List Char) (args : List Val) (inp : List Char) :
    scan ('%' :: Opts.fmt ⟨fl, .num w⟩ ++ r) none args inp = scan r (some (w:Int)) args inp := by
  rw [List.cons_append, scan, if_pos rfl]
  simp only [Opts.fmt, List.append_assoc]
  rw [scan_flags, numeral_eq _ _ (by omega), scan_digs _ _ _ _ h0 h]

/-! Numbers -/

theorem inRange_mem (c : Char) (max : Nat) (h : inRange c max = true) : c ∈ "0123456789:abcdefgABCDEFG".toList := by
  have hc : c = Char.ofNat c.toNat := (Char.ofNat_toNat c).symm
  have key : ∀ n < 128, (48 ≤ n ∧ n ≤ 58 ∨ 97 ≤ n ∧ n ≤ 103 ∨ 65 ≤ n ∧ n ≤ 71) → Char.ofNat n ∈ "0123456789:abcdefgABCDEFG".toList := by
    decide +kernel
  have h0 : ('0'.toNat : Int) = 48 := by decide
  have ha : ('a'.toNat : Int) = 97 := by decide
  have hA : ('A'.toNat : Int) = 65 := by decide
  unfold inRange at h
  rw [h0, ha, hA] at h
  rw [hc]
  simp only at h
  split at h
  · simp only [Bool.and_eq_true, decide_eq_true_eq] at h
    exact key _ (by omega) (by omega)
  · simp only [Bool.and_eq_true, Bool.or_eq_true, decide_eq_true_eq] at h
    exact key _ (by omega) (by omega)

/-- The bases that occur. -/
def Base (b : Nat) : Prop := b = 2 ∨ b = 8 ∨ b = 10 ∨ b = 16

theorem dchar_range (b d : Nat) (hb : Base b) (hd : d < b) : inRange (dchar d) (b - 1) = true ∧ dchar d ≠ '-' := by
  have : ∀ b ∈ [2, 8, 10, 16], ∀ d < b, inRange (dchar d) (b - 1) = true ∧ dchar d ≠ '-' := by decide +kernel
  exact this b (by simp only [List.mem_cons, List.not_mem_nil, or_false]; exact hb) d hd

theorem Base.two {b : Nat} (h : Base b) : 2 ≤ b := by rcases h with h | h | h | h <;> omega
theorem Base.le {b : Nat} (h : Base b) : b ≤ 36 := by rcases h with h | h | h | h <;> omega

theorem digs_range (b : Nat) (hb : Base b) (n : Nat) : ∀ c ∈ digs b n, inRange c (b - 1) = true ∧ c ≠ '-' := by
  intro c hc
  unfold digs at hc
  simp only [List.mem_reverse, List.mem_map] at hc
  obtain ⟨d, hd, rfl⟩ := hc
  exact dchar_range b d hb (Nat.digits_lt_base (by have := hb.two; omega) hd)

/-- A text that reads as a number. -/
def DText (b n : Nat) (s : List Char) : Prop := s ≠ [] ∧ ∃ k, s = List.replicate k '0' ++ digs b n

theorem DText.range {b n : Nat} {s : List Char} (hb : Base b) (h : DText b n s) : ∀ c ∈ s, inRange c (b - 1) = true ∧ c ≠ '-' := by
  obtain ⟨_, k, rfl⟩ := h
  intro c hc
  rcases List.mem_append.mp hc with hc | hc
  · rw [(List.mem_replicate.mp hc).2]
    exact dchar_range b 0 hb (by have := hb.two; omega)
  · exact digs_range b hb n c hc

theorem DText.read {b n : Nat} {s : List Char} (hb : Base b) (h : DText b n s) : readNat b s = some n := by
  obtain ⟨_, k, rfl⟩ := h
  have hz : (digitVal '0') = some 0 := by decide +kernel
  unfold readNat
  rw [List.foldl_append]
  have : ∀ k, List.foldl (fun (acc : Option Nat) c => acc.bind fun n => (digitVal c).bind fun d => if d < b then some (n * b + d) else none) (some 0) (List.replicate k '0') = some 0 := by
    intro k
    induction k with
    | zero => rfl
    | succ k ih =>
      rw [List.replicate_succ, List.foldl_cons]
      have hb2 := hb.two
      simp only [Option.bind_some, hz, if_pos (show 0 < b by omega), Nat.zero_mul, Nat.zero_add]
      exact ih
  rw [this]
  exact readNat_digs b hb.two hb.le n

theorem DText.numeral (b n : Nat) (hb : Base b) : DText b n (numeral b n) := by
  refine ⟨fun h => ?_, ?_⟩
  · have := numeral_pos b n hb.two hb.le
    rw [h] at this; simp at this
  · by_cases hn : n = 0
    · refine ⟨1, ?_⟩
      subst hn; rw [digs_zero]; rfl
    · exact ⟨0, by rw [numeral_eq _ _ hn]; rfl⟩

theorem DText.zeros {b n : Nat} {s : List Char} (k : Nat) (h : DText b n s) : DText b n (List.replicate k '0' ++ s) := by
  obtain ⟨h0, j, rfl⟩ := h
  refine ⟨by simpa using fun _ => h0, k + j, ?_⟩
  rw [List.replicate_add, List.append_assoc]

theorem DText.bits (w n : Nat) (hw : 0 < w) (h : bitLength n ≤ w) : DText 2 n (bits w n) := by
  refine ⟨fun he => ?_, _, (bits_digs w n h).symm⟩
  have := bits_length w n
  rw [he] at this; simp at this; omega

/-- The digits end here. -/
def StopAt (max n : Nat) (ds t : List Char) : Prop :=
  n = ds.length ∨ (ds.length ≤ n ∧ ∀ c ∈ t.head?, inRange c max = false)

theorem takeDigits_eq (max : Nat) : ∀ (ds t : List Char) (n : Nat), (∀ c ∈ ds, inRange c max = true) → StopAt max n ds t →
    takeDigits max n (ds ++ t) = (ds, t) := by
  intro ds
  induction ds with
  | nil =>
    intro t n _ h
    cases n with
    | zero => simp [takeDigits]
    | succ n =>
      rcases h with h | ⟨_, h⟩
      · simp at h
      · cases t with
        | nil => simp [takeDigits]
        | cons c t => simp [takeDigits, h c (by simp)]
  | cons d ds ih =>
    intro t n hd h
    cases n with
    | zero => rcases h with h | ⟨h, _⟩ <;> simp at h
    | succ n =>
      rw [List.cons_append, takeDigits, if_pos (hd d (by simp)), ih t n (fun c hc => hd c (by simp [hc]))]
      rcases h with h | ⟨h, h'⟩
      · left; simpa using h
      · right; exact ⟨by simpa using h, h'⟩

theorem getInt_pos (b n : Nat) (hb : Base b) (size : Int) (s t : List Char) (h : DText b n s)
    (hs : StopAt (b - 1) (if size = 0 then (s ++ t).length else size.toNat) s t) :
    getInt b size (s ++ t) = some ((n:Int), t) := by
  unfold getInt
  have hr := h.range hb
  obtain ⟨c, r, rfl⟩ : ∃ c r, s = c :: r := by
    cases s with
    | nil => exact absurd rfl h.1
    | cons c r => exact ⟨c, r, rfl⟩
  have hc := (hr c (by simp)).2
  have e : ¬ ((c :: r ++ t).head? = some '-') := by simp [hc]
  simp only [e, if_false]
  rw [takeDigits_eq (b - 1) (c :: r) t _ (fun c hc => (hr c hc).1) hs]
  simp only [h.read hb]
  simp

theorem getInt_neg (b n : Nat) (hb : Base b) (s t : List Char) (h : DText b n s)
    (hs : ∀ c ∈ t.head?, inRange c (b - 1) = false) :
    getInt b 0 ('-' :: s ++ t) = some (-(n:Int), t) := by
  unfold getInt
  have hr := h.range hb
  simp only [List.cons_append, List.head?_cons, if_true, List.tail_cons]
  rw [takeDigits_eq (b - 1) s t _ (fun c hc => (hr c hc).1) (Or.inr ⟨by simp; omega, hs⟩)]
  simp only [h.read hb]
  simp

/-! Words -/

theorem takeStr_eq : ∀ (s t : List Char) (n : Nat), (∀ c ∈ s, isSpace c = false) →
    (n = s.length ∨ (s.length < n ∧ ∃ c r, t = c :: r ∧ isSpace c = true)) → takeStr n (s ++ t) = some (s, t) := by
  intro s
  induction s with
  | nil =>
    intro t n _ h
    cases n with
    | zero => simp [takeStr]
    | succ n =>
      rcases h with h | ⟨_, c, r, rfl, hc⟩
      · simp at h
      · simp [takeStr, hc]
  | cons d s ih =>
    intro t n hd h
    cases n with
    | zero => rcases h with h | ⟨h, _⟩ <;> simp at h
    | succ n =>
      rw [List.cons_append, takeStr, if_neg (by rw [hd d (by simp)]; simp), ih t n (fun c hc => hd c (by simp [hc]))]
      · rfl
      · rcases h with h | ⟨h, h'⟩
        · left; simpa using h
        · right; exact ⟨by simpa using h, h'⟩

/-! Fields -/

/-- More values in front. -/
def prepend (v : List Val) : Out (List Val) → Out (List Val)
  | .ok vs => .ok (v ++ vs)
  | e => e

theorem prepend_prepend (v w : List Val) (o : Out (List Val)) : prepend v (prepend w o) = prepend (v ++ w) o := by
  cases o <;> simp [prepend]

theorem prepend_nil (o : Out (List Val)) : prepend [] o = o := by cases o <;> rfl

theorem scan_conv (c : Char) (r : List Char) (size : Int) (args : List Val) (inp inp' : List Char) (v : List Val) {vs : List Val} {o : Out (List Val)}
    (hd : digit? c = none) (h1 : c ≠ '-') (h2 : c ≠ '*') (h : sconv c size inp = .ok (v, inp'))
    (hr : scan r none args inp' = prepend vs o) : scan (c :: r) (some size) args inp = prepend (v ++ vs) o := by
  rw [scan]
  simp only [hd, h1, h2, if_false, h, hr]
  cases o <;> simp [prepend]

theorem closed_cons (f : Field) (fs : List Field) (h : closed (f :: fs) = true) : closed fs = true ∧ (fs = [] → f.closed = true) := by
  cases fs with
  | nil => exact ⟨rfl, fun _ => h⟩
  | cons g gs => exact ⟨h, fun h => by cases h⟩

theorem sconv_num (b : Nat) (hb : b = 8 ∨ b = 10 ∨ b = 16) (size : Int) (inp inp' : List Char) (z : Int)
    (h : getInt b size inp = some (z, inp')) : sconv (letter b) size inp = .ok ([.int z], inp') := by
  rcases hb with rfl | rfl | rfl
  · rw [show letter 8 = 'o' from rfl]; unfold sconv; simp [h]
  · rw [show letter 10 = 'd' from rfl]; unfold sconv; simp [h]
  · rw [show letter 16 = 'x' from rfl]; unfold sconv; simp [h]

theorem letter_ok (b : Nat) (hb : b = 8 ∨ b = 10 ∨ b = 16) : digit? (letter b) = none ∧ letter b ≠ '-' ∧ letter b ≠ '*' := by
  rcases hb with rfl | rfl | rfl <;> decide

theorem text_numEnd (fs : List Field) (h : numEnd fs) (t u : List Char) (ht : textOf fs = some t) (hu : u = [] ∨ fs ≠ []) (max : Nat) :
    ∀ c ∈ (t ++ u).head?, inRange c max = false := by
  intro c hc
  rw [Bool.eq_false_iff]
  intro hr
  have hm := inRange_mem c max hr
  unfold numEnd at h
  split at h
  · simp [textOf] at ht; subst ht
    rcases hu with rfl | hu
    · simp at hc
    · exact absurd rfl hu
  · rename_i d fs
    unfold textOf at ht
    simp only [Field.text] at ht
    split at ht
    · rename_i e _
      simp only [Option.some.injEq] at ht e
      subst ht; subst e
      simp at hc; subst hc
      exact h hm
    · cases ht
  · rename_i fs
    unfold textOf at ht
    simp only [Field.text] at ht
    split at ht
    · rename_i e _
      simp only [Option.some.injEq] at ht e
      subst ht; subst e
      simp at hc; subst hc
      revert hm; decide
    · cases ht
  · exact h.elim

theorem text_strEnd (fs : List Field) (h : strEnd fs) (t u : List Char) (ht : textOf fs = some t) (hu : u = [] ∨ fs ≠ []) :
    t ++ u = [] ∨ ∃ c r, t ++ u = c :: r ∧ isSpace c = true := by
  unfold strEnd at h
  split at h
  · simp [textOf] at ht; subst ht
    rcases hu with rfl | hu
    · left; rfl
    · exact absurd rfl hu
  · rename_i d fs
    unfold textOf at ht
    simp only [Field.text] at ht
    split at ht
    · rename_i e _
      simp only [Option.some.injEq] at ht e
      subst ht; subst e
      right
      exact ⟨_, _, rfl, by simpa [isSpace] using h⟩
    · cases ht
  · exact h.elim

theorem textOf_cons (f : Field) (fs : List Field) (t : List Char) (h : textOf (f :: fs) = some t) :
    ∃ t1 t2, f.text = some t1 ∧ textOf fs = some t2 ∧ t = t1 ++ t2 := by
  unfold textOf at h
  split at h
  · rename_i t1 t2 e1 e2
    simp only [Option.some.injEq] at h
    exact ⟨t1, t2, e1, e2, h.symm⟩
  · cases h

theorem isSpace_false (c : Char) (h : c ∉ [' ', '\t', '\n', '\x0b', '\x0c', '\r']) : isSpace c = false := by
  unfold isSpace; exact decide_eq_false h

theorem scan_all (fs : List Field) (hs : Scannable fs) : ∀ (t r u : List Char) (args : List Val), textOf fs = some t →
    (u = [] ∨ closed fs = true) → scan (fmtOf fs ++ r) none args (t ++ u) = prepend (valsOf fs) (scan r none args u) := by
  induction hs with
  | nil => intro t r u args h _; simp [textOf] at h; subst h; simp [fmtOf, valsOf, prepend_nil]
  | lit c fs hc hs ih =>
    intro t r u args h hu
    obtain ⟨t1, t2, e1, e2, rfl⟩ := textOf_cons _ _ _ h
    have hu1 : u = [] ∨ closed fs = true := hu.imp id fun h => (closed_cons _ _ h).1
    simp only [Field.text, Option.some.injEq] at e1
    subst e1
    simp only [fmtOf, valsOf, List.flatMap_cons, Field.fmt, Field.vals, List.cons_append, List.nil_append]
    rw [scan, if_neg hc]
    simp only [expect, if_true]
    exact ih _ r u args e2 hu1
  | percent fs hs ih =>
    intro t r u args h hu
    obtain ⟨t1, t2, e1, e2, rfl⟩ := textOf_cons _ _ _ h
    have hu1 : u = [] ∨ closed fs = true := hu.imp id fun h => (closed_cons _ _ h).1
    simp only [Field.text, Option.some.injEq] at e1
    subst e1
    simp only [fmtOf, valsOf, List.flatMap_cons, Field.fmt, Field.vals, List.cons_append, List.nil_append]
    rw [scan, if_pos rfl]
    exact scan_conv _ _ _ _ _ _ [] (by decide) (by decide) (by decide) rfl (ih _ r u args e2 hu1)
  | num b z fl fs hb he hs ih =>
    intro t r u args h hu
    obtain ⟨t1, t2, e1, e2, rfl⟩ := textOf_cons _ _ _ h
    have hu1 : u = [] ∨ closed fs = true := hu.imp id fun h => (closed_cons _ _ h).1
    have hu2 : u = [] ∨ fs ≠ [] := hu.imp id fun h hn => by have := (closed_cons _ _ h).2 hn; simp [Field.closed] at this
    simp only [fmtOf, valsOf, List.flatMap_cons, Field.fmt, Field.vals, List.append_assoc, List.cons_append]
    rw [← List.cons_append, scan_none]
    have hB : Base b := Or.inr hb
    have hend := text_numEnd fs he t2 u e2 hu2 (b - 1)
    have hl := letter_ok b hb
    refine scan_conv _ _ _ _ _ _ [.int z] hl.1 hl.2.1 hl.2.2 (sconv_num b hb 0 _ (t2 ++ u) z ?_) (ih _ r u args e2 hu1)
    simp only [Field.text, Opts.w, pad, if_true, Option.some.injEq] at e1
    subst e1
    by_cases hz : z < 0
    · rw [if_pos hz, List.singleton_append]
      rw [getInt_neg b z.natAbs hB _ (t2 ++ u) (DText.numeral b _ hB) hend]
      congr 2; omega
    · rw [if_neg hz, List.nil_append]
      rw [getInt_pos b z.natAbs hB 0 _ (t2 ++ u) (DText.numeral b _ hB) (Or.inr ⟨by simp, hend⟩)]
      congr 2; omega
  | numW b w fl z fs hb hw0 hw hf1 hf2 hz hs ih =>
    intro t r u args h hu
    obtain ⟨t1, t2, e1, e2, rfl⟩ := textOf_cons _ _ _ h
    have hu1 : u = [] ∨ closed fs = true := hu.imp id fun h => (closed_cons _ _ h).1
    simp only [fmtOf, valsOf, List.flatMap_cons, Field.fmt, Field.vals, List.append_assoc, List.cons_append]
    rw [← List.cons_append, scan_num _ _ hw0 hw]
    have hB : Base b := Or.inr hb
    have hl := letter_ok b hb
    refine scan_conv _ _ _ _ _ _ [.int z] hl.1 hl.2.1 hl.2.2 (sconv_num b hb w _ (t2 ++ u) z ?_) (ih _ r u args e2 hu1)
    simp only [Field.text] at e1
    rw [if_neg (by omega)] at e1
    rcases pad_some _ _ _ _ _ _ e1 with ⟨h0, _⟩ | ⟨_, hle, htl, ht⟩
    · simp only [Opts.w] at h0; omega
    · simp only [Opts.left, Opts.zeros, hf1, hf2, decide_true, decide_false, if_true, Bool.false_eq_true, if_false, List.nil_append] at ht
      simp only [Opts.w] at htl
      have hd : DText b z.natAbs t1 := by rw [ht]; exact (DText.numeral b _ hB).zeros _
      rw [getInt_pos b z.natAbs hB w t1 (t2 ++ u) hd (Or.inl ?_)]
      · congr 2; omega
      · rw [if_neg (by omega), Int.toNat_natCast, htl]
  | bin z fs hz he hs ih =>
    intro t r u args h hu
    obtain ⟨t1, t2, e1, e2, rfl⟩ := textOf_cons _ _ _ h
    have hu1 : u = [] ∨ closed fs = true := hu.imp id fun h => (closed_cons _ _ h).1
    have hu2 : u = [] ∨ fs ≠ [] := hu.imp id fun h hn => by have := (closed_cons _ _ h).2 hn; simp [Field.closed] at this
    simp only [fmtOf, valsOf, List.flatMap_cons, Field.fmt, Field.vals, List.append_assoc, List.cons_append]
    rw [← List.cons_append, scan_none]
    have hend := text_numEnd fs he t2 u e2 hu2 (2 - 1)
    simp only [Field.text, Opts.w, binText, if_true, Option.some.injEq] at e1
    refine scan_conv 'b' _ _ _ _ (t2 ++ u) [.int z] (by decide) (by decide) (by decide) ?_ (ih _ r u args e2 hu1)
    have hd := DText.bits (bitLength z.natAbs + 1) z.natAbs (by omega) (by omega)
    rw [show ((z.natAbs : Nat) : Int) = z by omega, e1] at hd
    have := getInt_pos 2 z.natAbs (Or.inl rfl) 0 t1 (t2 ++ u) hd (Or.inr ⟨by simp, hend⟩)
    unfold sconv
    simp [this]
    omega
  | binW w fl z fs hw0 hw hz hs ih =>
    intro t r u args h hu
    obtain ⟨t1, t2, e1, e2, rfl⟩ := textOf_cons _ _ _ h
    have hu1 : u = [] ∨ closed fs = true := hu.imp id fun h => (closed_cons _ _ h).1
    simp only [fmtOf, valsOf, List.flatMap_cons, Field.fmt, Field.vals, List.append_assoc, List.cons_append]
    rw [← List.cons_append, scan_num _ _ hw0 hw]
    change binText w z = some t1 at e1
    unfold binText at e1
    rw [if_neg (by omega)] at e1
    split at e1
    · cases e1
    · rename_i hle
      simp only [Option.some.injEq] at e1
      refine scan_conv 'b' _ _ _ _ (t2 ++ u) [.int z] (by decide) (by decide) (by decide) ?_ (ih _ r u args e2 hu1)
      have hd := DText.bits w z.natAbs (by omega) (by omega)
      rw [show ((z.natAbs : Nat) : Int) = z by omega, e1] at hd
      have hlen : t1.length = w := by rw [← e1, bits_length]
      have := getInt_pos 2 z.natAbs (Or.inl rfl) w t1 (t2 ++ u) hd (Or.inl (by rw [if_neg (by omega), Int.toNat_natCast, hlen]))
      unfold sconv
      simp [this]
      omega
  | str fl s fs hsp he hs ih =>
    intro t r u args h hu
    obtain ⟨t1, t2, e1, e2, rfl⟩ := textOf_cons _ _ _ h
    have hu1 : u = [] ∨ closed fs = true := hu.imp id fun h => (closed_cons _ _ h).1
    have hu2 : u = [] ∨ fs ≠ [] := hu.imp id fun h hn => by have := (closed_cons _ _ h).2 hn; simp [Field.closed] at this
    simp only [fmtOf, valsOf, List.flatMap_cons, Field.fmt, Field.vals, List.append_assoc, List.cons_append]
    rw [← List.cons_append, scan_none]
    simp only [Field.text, Opts.w, pad, if_true, Option.some.injEq, List.nil_append] at e1
    subst e1
    refine scan_conv 's' _ _ _ _ (t2 ++ u) [.str s] (by decide) (by decide) (by decide) ?_ (ih _ r u args e2 hu1)
    have := takeStr_eq s (t2 ++ u) (s ++ (t2 ++ u)).length (fun c hc => isSpace_false c (hsp c hc)) (by
      rcases text_strEnd fs he t2 u e2 hu2 with hn | ⟨c, r, hn, hc⟩
      · left; rw [hn]; simp
      · right; exact ⟨by rw [hn]; simp, c, r, hn, hc⟩)
    unfold sconv
    simp only [if_true, this]
    rfl
  | strW w fl s fs hsp hw0 hw hl hs ih =>
    intro t r u args h hu
    obtain ⟨t1, t2, e1, e2, rfl⟩ := textOf_cons _ _ _ h
    have hu1 : u = [] ∨ closed fs = true := hu.imp id fun h => (closed_cons _ _ h).1
    simp only [fmtOf, valsOf, List.flatMap_cons, Field.fmt, Field.vals, List.append_assoc, List.cons_append]
    rw [← List.cons_append, scan_num _ _ hw0 hw]
    have ht1 : t1 = s := by
      rcases pad_some _ _ _ _ _ _ e1 with ⟨h0, _⟩ | ⟨_, hle, htl, ht⟩
      · simp only [Opts.w] at h0; omega
      · rw [ht]; simp only [Opts.w, hl, List.length_nil, Nat.zero_add, Nat.sub_self, List.replicate_zero, List.append_nil, List.nil_append, ite_self]
    subst ht1
    refine scan_conv 's' _ _ _ _ (t2 ++ u) [.str t1] (by decide) (by decide) (by decide) ?_ (ih _ r u args e2 hu1)
    have := takeStr_eq t1 (t2 ++ u) w (fun c hc => isSpace_false c (hsp c hc)) (Or.inl hl.symm)
    have hw' : ¬ ((w:Int) = 0) := by omega
    unfold sconv
    simp only [hw', if_false, Int.toNat_natCast, this]
    rfl

theorem scan_lit (l : List Char) (hl : '%' ∉ l) : ∀ (r : List Char) (args : List Val) (inp : List Char), ¬ l <+: inp →
    scan (l ++ r) none args inp = .fail := by
  induction l with
  | nil => intro r args inp h; exact absurd (List.nil_prefix) h
  | cons c l ih =>
    intro r args inp h
    have hc : c ≠ '%' := fun h => hl (by simp [h])
    rw [List.cons_append, scan, if_neg hc]
    cases inp with
    | nil => rfl
    | cons i inp =>
      unfold expect
      by_cases hi : i = c
      · subst hi
        simp only [if_true]
        refine ih (fun h => hl (by simp [h])) _ _ _ (fun hp => h ?_)
        exact (List.cons_prefix_cons).mpr ⟨rfl, hp⟩
      · simp only [hi, if_false]

/-! The number of arguments -/

theorem arity_skip (l : List Char) (h : ∀ c ∈ l, (digit? c).isSome ∨ c = '-') (r : List Char) : arity (l ++ r) true = arity r true := by
  induction l with
  | nil => rfl
  | cons c l ih =>
    rw [List.cons_append, arity, if_pos (h c (by simp))]
    exact ih (fun d hd => h d (by simp [hd]))

theorem arity_opts (o : Opts) (ho : o.Ok) (r : List Char) :
    arity ('%' :: o.fmt ++ r) false = (arity r true).map (· + o.args.length) := by
  obtain ⟨fl, w⟩ := o
  rw [List.cons_append, arity]
  simp only [Opts.fmt, List.append_assoc, decide_true]
  rw [arity_skip _ (by
    intro c hc
    simp only [List.mem_map] at hc
    obtain ⟨f, _, rfl⟩ := hc
    cases f <;> simp [Flag.char] <;> decide)]
  cases w with
  | none => simp [Opts.args]
  | num w =>
    simp only [Opts.Ok] at ho
    simp only [Opts.args, List.length_nil, Nat.add_zero]
    rw [arity_skip]
    · cases arity r true <;> rfl
    · intro c hc
      left
      rw [numeral_eq _ _ (by omega)] at hc
      unfold digs at hc
      simp only [List.mem_reverse, List.mem_map] at hc
      obtain ⟨d, hd, rfl⟩ := hc
      rw [digit_of d (Nat.digits_lt_base (by omega) hd)]; rfl
  | star w =>
    simp only [Opts.args, List.length_singleton]
    rw [List.singleton_append, arity, if_neg (by decide), if_pos rfl]

theorem arity_letter (c : Char) (hc : c ∈ ['b', 'o', 'x', 'd', 's', 'B', 'S']) (r : List Char) :
    arity (c :: r) true = (arity r false).map (· + 1) := by
  have : ∀ c ∈ ['b', 'o', 'x', 'd', 's', 'B', 'S'], ¬ ((digit? c).isSome ∨ c = '-') ∧ c ≠ '*' := by decide
  rw [arity, if_neg (this c hc).1, if_neg (this c hc).2, if_pos hc]

theorem arity_field (f : Field) (hf : f.Ok) (r : List Char) :
    arity (f.fmt ++ r) false = (arity r false).map (· + f.args.length) := by
  have key : ∀ (o : Opts) (c : Char), o.Ok → c ∈ ['b', 'o', 'x', 'd', 's', 'B', 'S'] →
      arity ('%' :: o.fmt ++ [c] ++ r) false = (arity r false).map (· + (o.args.length + 1)) := by
    intro o c ho hc
    rw [List.append_assoc, arity_opts o ho, List.singleton_append, arity_letter c hc]
    cases arity r false with
    | none => rfl
    | some n => simp; omega
  cases f with
  | lit c =>
    have : c ≠ '%' := hf
    simp [Field.fmt, Field.args, arity, this]
  | percent =>
    have : digit? '%' = none := by decide
    simp [Field.fmt, Field.args, arity, this]
  | num b o z =>
    have := key o (letter b) hf.2 (by rcases hf.1 with rfl | rfl | rfl <;> decide)
    simpa [Field.fmt, Field.args] using this
  | bin o z => simpa [Field.fmt, Field.args] using key o 'b' hf.1 (by decide)
  | str o z => simpa [Field.fmt, Field.args] using key o 's' hf (by decide)
  | strs o z => simpa [Field.fmt, Field.args] using key o 'S' hf (by decide)
  | bool o z => simpa [Field.fmt, Field.args] using key o 'B' hf (by decide)

theorem arity_fields : ∀ (fs : List Field), (∀ f ∈ fs, f.Ok) → arity (fmtOf fs) false = some (argsOf fs).length := by
  intro fs
  induction fs with
  | nil => intro _; rfl
  | cons f fs ih =>
    intro hf
    have := ih (fun g hg => hf g (by simp [hg]))
    simp only [fmtOf, argsOf, List.flatMap_cons] at this ⊢
    rw [arity_field f (hf f (by simp)), this]
    simp; omega

end Voss.Io
