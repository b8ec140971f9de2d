import Verif.Pretty.Spec

namespace Voss.Pretty
open Doc

/-! ### Layouts -/

theorem shift_cons (k : Int) (x : Int × List Char) (l : Layout) :
    shift k (x :: l) = (x.1 + k, x.2) :: shift k l := rfl
theorem shift_nil (k : Int) : shift k [] = [] := rfl

theorem shift_shift (a b : Int) (l : Layout) : shift a (shift b l) = shift (b + a) l := by
  simp only [shift, List.map_map]
  apply List.map_congr_left
  intro x _
  simp only [Function.comp]
  rw [Int.add_assoc]

theorem shift_zero (l : Layout) : shift 0 l = l := by
  simp [shift]

theorem besideL_nil (b : Bool) : ∀ l : Layout, besideL b l [] = l
  | [] => rfl
  | [_] => rfl
  | x :: y :: l => by rw [besideL, besideL_nil b (y :: l)]

theorem aboveL_nil (b : Bool) : ∀ l : Layout, aboveL b l [] = l
  | [] => rfl
  | [_] => rfl
  | x :: y :: l => by rw [aboveL, aboveL_nil b (y :: l)]

theorem besideL_ne (b : Bool) : ∀ l m : Layout, l ≠ [] → besideL b l m ≠ []
  | [], _, h => absurd rfl h
  | [_], [], _ => by simp [besideL]
  | [_], _ :: _, _ => by simp [besideL]
  | _ :: _ :: _, _, _ => by simp [besideL]

theorem aboveL_ne (b : Bool) : ∀ l m : Layout, l ≠ [] → aboveL b l m ≠ []
  | [], _, h => absurd rfl h
  | [_], [], _ => by simp [aboveL]
  | [_], _ :: _, _ => by simp only [aboveL]; split <;> simp
  | _ :: _ :: _, _, _ => by simp [aboveL]

theorem besideL_eq_nil {b : Bool} {l m : Layout} (h : besideL b l m = []) : l = [] ∧ m = [] := by
  by_cases hl : l = []
  · subst hl; exact ⟨rfl, h⟩
  · exact absurd h (besideL_ne b l m hl)

theorem aboveL_eq_nil {b : Bool} {l m : Layout} (h : aboveL b l m = []) : l = [] ∧ m = [] := by
  by_cases hl : l = []
  · subst hl; exact ⟨rfl, h⟩
  · exact absurd h (aboveL_ne b l m hl)

theorem shift_eq_nil {k : Int} {l : Layout} : shift k l = [] ↔ l = [] := by
  simp [shift]

theorem shift_besideL (k : Int) (b : Bool) : ∀ l m : Layout, l ≠ [] →
    shift k (besideL b l m) = besideL b (shift k l) m
  | [], _, h => absurd rfl h
  | [_], [], _ => rfl
  | [(i, s)], (j, t) :: r, _ => by
    simp only [besideL, shift_cons, shift_nil, shift_shift]
    congr 2
    omega
  | x :: y :: l, m, _ => by
    simp only [besideL, shift_cons]
    rw [shift_besideL k b (y :: l) m (by simp), shift_cons]

theorem shift_aboveL (k : Int) (b : Bool) : ∀ l m : Layout,
    shift k (aboveL b l m) = aboveL b (shift k l) (shift k m)
  | [], _ => rfl
  | [_], [] => rfl
  | [(i, s)], (j, t) :: r => by
    simp only [aboveL, shift_cons, shift_nil]
    by_cases h : b = false ∧ i + (s.length : Int) < j
    · rw [if_pos h, if_pos ⟨h.1, by omega⟩, shift_cons,
        show j + k - (i + k + (s.length : Int)) = j - (i + s.length) by omega]
    · rw [if_neg h, if_neg (fun h' => h ⟨h'.1, by omega⟩), shift_cons, shift_cons]
  | x :: y :: l, m => by
    simp only [aboveL, shift_cons]
    rw [shift_aboveL k b (y :: l) m, shift_cons]

theorem besideL_assoc (b : Bool) : ∀ l m n : Layout,
    besideL b (besideL b l m) n = besideL b l (besideL b m n)
  | [], _, _ => rfl
  | [_], [], _ => rfl
  | [(i, s)], [(j, t)], [] => by simp [besideL, shift_nil]
  | [(i, s)], [(j, t)], (k, u) :: r => by
    simp only [besideL, shift_nil, shift_shift, List.append_assoc, List.length_append]
    congr 2
    omega
  | [(i, s)], (j, t) :: y :: m, n => by
    simp only [besideL, shift_cons]
    rw [shift_besideL _ b (y :: m) n (by simp), shift_cons]
  | x :: y :: l, m, n => by
    have ih := besideL_assoc b (y :: l) m n
    cases h : besideL b (y :: l) m with
    | nil => exact absurd h (besideL_ne b _ m (by simp))
    | cons z w =>
      simp only [besideL]
      rw [h, besideL, ← h, ih]

theorem aboveL_assoc (b c : Bool) : ∀ l m n : Layout, (m ≠ [] ∨ b = c) →
    aboveL c (aboveL b l m) n = aboveL b l (aboveL c m n)
  | [], _, _, _ => rfl
  | [x], [], n, h => by
    have : b = c := by simpa using h
    subst this
    rfl
  | [(i, s)], [(j, t)], [], _ => by simp only [aboveL]; split <;> rfl
  | [(i, s)], [(j, t)], (k, u) :: r, _ => by
    by_cases h1 : b = false ∧ i + (s.length : Int) < j
    · have e : i + ((s ++ (List.replicate (j - (i + (s.length : Int))).toNat ' ' ++ t)).length : Int)
          = j + t.length := by
        simp only [List.length_append, List.length_replicate]; omega
      by_cases h2 : c = false ∧ j + (t.length : Int) < k
      · simp only [aboveL, if_pos h1, if_pos h2, List.append_assoc, e]
      · simp only [aboveL, if_pos h1, if_neg h2, List.append_assoc, e]
    · by_cases h2 : c = false ∧ j + (t.length : Int) < k
      · simp only [aboveL, if_neg h1, if_pos h2]
      · simp only [aboveL, if_neg h1, if_neg h2]
  | [(i, s)], (j, t) :: y :: m, n, _ => by
    by_cases h1 : b = false ∧ i + (s.length : Int) < j
    · simp only [aboveL, if_pos h1]
    · simp only [aboveL, if_neg h1]
  | x :: y :: l, m, n, h => by
    have ih := aboveL_assoc b c (y :: l) m n h
    cases h' : aboveL b (y :: l) m with
    | nil => exact absurd h' (aboveL_ne b _ m (by simp))
    | cons z w =>
      simp only [aboveL]
      rw [h', aboveL, ← h', ih]

/-! ### Reduced documents and their layouts -/

/-- A text in front of the first line. -/
def pre (i : Int) (s : List Char) : Layout → Layout
  | [] => [(0, s)]
  | (_, t) :: r => (0, s ++ t) :: shift i r

/-- The layouts of a reduced document, relative to the column where it
begins. -/
def D : Doc → Layout → Prop
  | nil, l => l = [(0, [])]
  | nilAbove p, l => ∃ m, D p m ∧ l = (0, []) :: m
  | txt i s p, l => ∃ m, D p m ∧ l = pre i s m
  | .nest k p, l => ∃ m, D p m ∧ l = shift k m
  | union p q, l => D p l ∨ D q l
  | beside _ _ _, _ => False
  | above _ _ _, _ => False
  | empty, _ => False

/-- The shape of reduced documents: `none` at the beginning of a line, `some
e` within a line, where `e` says that the document may be impossible on this
line. -/
def Ok : Option Bool → Doc → Prop
  | none, .nest _ p => Ok none p
  | none, txt i s p => i = s.length ∧ Ok (some false) p
  | some _, nil => True
  | some _, nilAbove p => Ok none p
  | some e, txt i s p => i = s.length ∧ Ok (some e) p
  | some e, union p q => Ok (some true) p ∧ Ok (some e) q ∧ p ≠ nil ∧ q ≠ nil
  | some e, empty => e = true
  | _, _ => False

theorem D_ne : ∀ {d : Doc} {l : Layout}, D d l → l ≠ []
  | nil, _, h => by simp [D] at h; simp [h]
  | nilAbove _, _, ⟨_, _, h⟩ => by simp [h]
  | txt i s p, _, ⟨m, hm, h⟩ => by
    cases m with
    | nil => exact absurd rfl (D_ne hm)
    | cons x r => subst h; obtain ⟨a, b⟩ := x; simp [pre]
  | .nest _ _, _, ⟨m, hm, h⟩ => by
    subst h
    intro h0
    exact D_ne hm (shift_eq_nil.1 h0)
  | union _ _, _, h => by
    rcases h with h | h
    · exact D_ne h
    · exact D_ne h
  | beside _ _ _, _, h => h.elim
  | above _ _ _, _, h => h.elim
  | empty, _, h => h.elim

/-- Within a line documents begin at the current column. -/
theorem D_head {e : Bool} : ∀ {d : Doc} {i : Int} {t : List Char} {r : Layout},
    Ok (some e) d → D d ((i, t) :: r) → i = 0
  | nil, _, _, _, _, h => by simp [D] at h; exact h.1.1
  | nilAbove _, _, _, _, _, ⟨_, _, h⟩ => by simp at h; exact h.1.1
  | txt i s p, _, _, _, _, ⟨m, hm, h⟩ => by
    cases m with
    | nil => exact absurd rfl (D_ne hm)
    | cons x r =>
      obtain ⟨a, b⟩ := x
      simp [pre] at h
      exact h.1.1
  | union p q, _, _, _, hok, h => by
    have h1 : Ok (some true) p := hok.1
    have h2 : Ok (some e) q := hok.2.1
    rcases h with h | h
    · exact D_head h1 h
    · exact D_head h2 h
  | .nest _ _, _, _, _, hok, _ => by simp [Ok] at hok
  | beside _ _ _, _, _, _, _, h => h.elim
  | above _ _ _, _, _, _, _, h => h.elim
  | empty, _, _, _, _, h => h.elim

theorem Ok_mono : ∀ {e : Bool} {d : Doc}, Ok (some false) d → Ok (some e) d
  | _, nil, _ => trivial
  | _, nilAbove _, h => h
  | _, txt _ _ _, h => ⟨h.1, Ok_mono h.2⟩
  | _, union _ _, h => ⟨h.1, Ok_mono h.2.1, h.2.2⟩
  | _, empty, h => by simp [Ok] at h
  | _, .nest _ _, h => by simp [Ok] at h
  | _, beside _ _ _, h => by simp [Ok] at h
  | _, above _ _ _, h => by simp [Ok] at h

theorem pre_besideL (s : List Char) (b : Bool) (t : List Char) (r n : Layout) :
    pre s.length s (besideL b ((0, t) :: r) n) = besideL b (pre s.length s ((0, t) :: r)) n := by
  cases r with
  | nil =>
    cases n with
    | nil => rfl
    | cons y n =>
      obtain ⟨j, u⟩ := y
      simp only [besideL, pre, shift_nil, shift_shift, List.append_assoc, List.length_append]
      congr 2
      omega
  | cons y r =>
    simp only [besideL, pre, shift_cons]
    rw [shift_besideL _ b (y :: r) n (by simp), shift_cons]

theorem pre_aboveL (s : List Char) (b : Bool) (k : Int) (t : List Char) (r n : Layout) :
    pre s.length s (aboveL b ((0, t) :: r) (shift (k - s.length) n))
      = aboveL b (pre s.length s ((0, t) :: r)) (shift k n) := by
  cases r with
  | nil =>
    cases n with
    | nil => rfl
    | cons y n =>
      obtain ⟨j, u⟩ := y
      simp only [shift_cons, aboveL, pre, shift_nil, List.length_append]
      have e : shift (s.length : Int) (shift (k - s.length) n) = shift k n := by
        rw [shift_shift]; congr 1; omega
      by_cases h : b = false ∧ 0 + (t.length : Int) < j + (k - s.length)
      · rw [if_pos h, if_pos ⟨h.1, by omega⟩]
        simp only [e, List.append_assoc]
        congr 7
        omega
      · rw [if_neg h, if_neg (fun h' => h ⟨h'.1, by omega⟩)]
        simp only [shift_cons, e]
        congr 3
        omega
  | cons y r =>
    simp only [aboveL, pre, shift_cons]
    rw [shift_aboveL, shift_shift, shift_cons]
    congr 3
    omega

/-! ### Composition -/

/-- Results of `reduce`. -/
def R (d : Doc) : Prop := d = nil ∨ Ok none d
def DR (d : Doc) (l : Layout) : Prop := (d = nil ∧ l = []) ∨ (d ≠ nil ∧ D d l)

theorem Ok_ne {d : Doc} (h : Ok none d) : d ≠ nil := by
  intro e; subst e; exact h

theorem R_again {d : Doc} (h : R d) : again d = some d := by
  rcases h with h | h
  · subst h; rfl
  · cases d <;> first | rfl | exact (h : False).elim

theorem DR_line {d : Doc} {l : Layout} (h : Ok none d) (hd : D d l) : DR d l := .inr ⟨Ok_ne h, hd⟩

theorem DR_D {d : Doc} {l : Layout} (h : DR d l) (hd : d ≠ nil) : D d l := by
  rcases h with h | h
  · exact absurd h.1 hd
  · exact h.2

/-- A document at the beginning of a line is a text, nested. -/
theorem line_form : ∀ {d : Doc}, Ok none d →
    ∃ K i s p, (i = (s.length : Int) ∧ Ok (some false) p) ∧
      (∀ l, D d l ↔ ∃ m, D (txt i s p) m ∧ l = shift K m) ∧
      (∀ b, besideNil b d = besideNil b (txt i s p)) ∧
      (∀ b k, aboveNil b k d = aboveNil b (k + K) (txt i s p)) ∧
      (∀ k, nestGo k d = nestGo (k + K) (txt i s p))
  | .nest k d, h => by
    obtain ⟨K, i, s, p, h1, h2, h3, h4, h5⟩ := line_form (d := d) h
    refine ⟨k + K, i, s, p, h1, ?_, h3, ?_, ?_⟩
    · intro l
      constructor
      · rintro ⟨m, hm, rfl⟩
        obtain ⟨m', hm', rfl⟩ := (h2 m).1 hm
        exact ⟨m', hm', by rw [shift_shift]; congr 1; omega⟩
      · rintro ⟨m, hm, rfl⟩
        exact ⟨shift K m, (h2 _).2 ⟨m, hm, rfl⟩, by rw [shift_shift]; congr 1; omega⟩
    · intro b j
      rw [aboveNil, h4]
      congr 1; omega
    · intro j
      rw [nestGo, h5]
      congr 1; omega
  | txt i s p, h => ⟨0, i, s, p, h, by intro l; simp [shift_zero], fun _ => rfl,
      by intro b k; rw [Int.add_zero], by intro k; rw [Int.add_zero]⟩
  | nil, h => h.elim
  | nilAbove _, h => h.elim
  | union _ _, h => h.elim
  | beside _ _ _, h => h.elim
  | above _ _ _, h => h.elim
  | empty, h => h.elim

theorem besideNil_spec {e : Bool} (b : Bool) {q : Doc} (hq : R q) :
    Ok (some e) (besideNil b q) ∧ (besideNil b q = nil ↔ q = nil) ∧
    ∀ l, D (besideNil b q) l → ∃ lq, DR q lq ∧
      ∀ s : List Char, pre s.length s l = besideL b [(0, s)] lq := by
  rcases hq with hq | hq
  · subst hq
    refine ⟨by simp [besideNil, Ok], by simp [besideNil], ?_⟩
    intro l hl
    simp [besideNil, D] at hl
    subst hl
    exact ⟨[], .inl ⟨rfl, rfl⟩, by intro s; simp [pre, besideL, shift_nil]⟩
  · obtain ⟨K, i, s, p, ⟨hi, hp⟩, h2, h3, -, -⟩ := line_form hq
    rw [h3]
    have key : ∀ m, D (txt i s p) m → ∃ t r, m = (0, t) :: r := by
      rintro _ ⟨m, hm, rfl⟩
      cases m with
      | nil => exact absurd rfl (D_ne hm)
      | cons x r => obtain ⟨a, b⟩ := x; exact ⟨_, _, rfl⟩
    cases b with
    | true =>
      refine ⟨⟨rfl, hi, Ok_mono hp⟩, ?_, ?_⟩
      · constructor
        · intro h; simp [besideNil, mkTxt] at h
        · intro h; exact absurd h (Ok_ne hq)
      · rintro l ⟨m, hm, rfl⟩
        refine ⟨shift K m, DR_line hq ((h2 _).2 ⟨m, hm, rfl⟩), ?_⟩
        intro s'
        obtain ⟨t, r, rfl⟩ := key m hm
        simp only [pre, shift_cons, besideL, gap, if_true, shift_shift, List.append_assoc]
        congr 2
        simp; omega
    | false =>
      refine ⟨⟨hi, Ok_mono hp⟩, ?_, ?_⟩
      · constructor
        · intro h; simp [besideNil] at h
        · intro h; exact absurd h (Ok_ne hq)
      · intro l hm
        refine ⟨shift K l, DR_line hq ((h2 _).2 ⟨l, hm, rfl⟩), ?_⟩
        intro s'
        obtain ⟨t, r, rfl⟩ := key l hm
        simp only [pre, shift_cons, besideL, shift_shift, show gap false = [] from rfl,
          List.length_nil, List.append_nil]
        congr 2
        omega

theorem nestGo_spec {q : Doc} (hq : Ok none q) (k : Int) :
    Ok none (nestGo k q) ∧ ∀ l, D (nestGo k q) l → ∃ lq, D q lq ∧ l = shift k lq := by
  obtain ⟨K, i, s, p, ⟨hi, hp⟩, h2, -, -, h5⟩ := line_form hq
  rw [h5]
  simp only [nestGo]
  by_cases h0 : k + K = 0
  · rw [if_pos h0]
    refine ⟨⟨hi, hp⟩, ?_⟩
    intro l hl
    refine ⟨shift K l, (h2 _).2 ⟨l, hl, rfl⟩, ?_⟩
    rw [shift_shift, show K + k = 0 by omega, shift_zero]
  · rw [if_neg h0]
    refine ⟨⟨hi, hp⟩, ?_⟩
    rintro l ⟨m, hm, rfl⟩
    refine ⟨shift K m, (h2 _).2 ⟨m, hm, rfl⟩, ?_⟩
    rw [shift_shift]
    congr 1; omega

theorem nestR_spec {q : Doc} (hq : R q) (k : Int) :
    ∃ r, nestR k q = some r ∧ R r ∧ (r = nil ↔ q = nil) ∧
      ∀ l, DR r l → ∃ lq, DR q lq ∧ l = shift k lq := by
  refine ⟨nestGo k q, by rw [nestR, R_again hq]; rfl, ?_⟩
  rcases hq with hq | hq
  · subst hq
    refine ⟨.inl rfl, by simp [nestGo], ?_⟩
    intro l hl
    refine ⟨l, hl, ?_⟩
    rcases hl with hl | hl
    · rw [hl.2]; rfl
    · exact absurd rfl hl.1
  · have h := nestGo_spec hq k
    refine ⟨.inr h.1, ?_, ?_⟩
    · constructor
      · intro e; exact absurd e (Ok_ne h.1)
      · intro e; exact absurd e (Ok_ne hq)
    · intro l hl
      obtain ⟨lq, h1, h2⟩ := h.2 l (DR_D hl (Ok_ne h.1))
      exact ⟨lq, DR_line hq h1, h2⟩

theorem aboveNil_spec {e : Bool} (b : Bool) (k : Int) {q : Doc} (hq : R q) :
    ∃ r, aboveNil b k q = some r ∧ Ok (some e) r ∧ (r = nil ↔ q = nil) ∧
    ∀ l, D r l → ∃ lq, DR q lq ∧
      ∀ s : List Char, pre s.length s l = aboveL b [(0, s)] (shift (k + s.length) lq) := by
  rcases hq with hq | hq
  · subst hq
    refine ⟨nil, rfl, by simp [Ok], by simp, ?_⟩
    intro l hl
    simp [D] at hl
    subst hl
    exact ⟨[], .inl ⟨rfl, rfl⟩, by intro s; simp [pre, aboveL, shift_nil]⟩
  · obtain ⟨K, i, s, p, ⟨hi, hp⟩, h2, -, h4, -⟩ := line_form hq
    rw [h4]
    have key : ∀ m, D (txt i s p) m → ∃ t r, m = (0, t) :: r := by
      rintro _ ⟨m, hm, rfl⟩
      cases m with
      | nil => exact absurd rfl (D_ne hm)
      | cons x r => obtain ⟨a, b⟩ := x; exact ⟨_, _, rfl⟩
    by_cases hc : b = false ∧ 0 < k + K
    · refine ⟨mkTxt (indent (k + K)) (txt i s p), ?_, ⟨rfl, hi, Ok_mono hp⟩, ?_, ?_⟩
      · rw [aboveNil]
        · rw [if_pos (by simp [hc.1]; omega)]
        all_goals simp
      · constructor
        · intro h; simp [mkTxt] at h
        · intro h; exact absurd h (Ok_ne hq)
      · rintro l ⟨m, hm, rfl⟩
        refine ⟨shift K m, DR_line hq ((h2 _).2 ⟨m, hm, rfl⟩), ?_⟩
        intro s'
        obtain ⟨t, r, rfl⟩ := key m hm
        simp only [pre, shift_cons, aboveL, shift_shift]
        rw [if_pos ⟨hc.1, by omega⟩]
        simp only [indent, List.length_replicate, List.append_assoc]
        congr 1
        · congr 5; omega
        · congr 1; omega
    · have hn := nestGo_spec (q := txt i s p) ⟨hi, hp⟩ (k + K)
      refine ⟨nilAbove (nestGo (k + K) (txt i s p)), ?_, hn.1, ?_, ?_⟩
      · rw [aboveNil]
        · rw [if_neg]
          · rfl
          · simp only [Bool.and_eq_true, Bool.not_eq_true', decide_eq_true_eq]
            exact fun h => hc ⟨h.1, h.2⟩
        all_goals simp
      · constructor
        · intro h; simp at h
        · intro h; exact absurd h (Ok_ne hq)
      · rintro l ⟨m, hm, rfl⟩
        obtain ⟨lq, h6, rfl⟩ := hn.2 m hm
        refine ⟨shift K lq, DR_line hq ((h2 _).2 ⟨lq, h6, rfl⟩), ?_⟩
        intro s'
        obtain ⟨t, r, rfl⟩ := key lq h6
        simp only [pre, shift_cons, aboveL, shift_shift, List.append_nil]
        rw [if_neg (by intro h; apply hc; exact ⟨h.1, by omega⟩)]
        congr 2
        · congr 1; omega
        · congr 1; omega

theorem besideN_spec (b : Bool) {q : Doc} (hq : R q) : ∀ {m : Option Bool} {p : Doc}, Ok m p → p ≠ nil →
    ∃ r, besideN p b q = some r ∧ Ok m r ∧ r ≠ nil ∧
      ∀ l, D r l → ∃ lp lq, D p lp ∧ DR q lq ∧ l = besideL b lp lq
  | none, .nest k p, h, _ => by
    obtain ⟨r, h1, h2, h3, h4⟩ := besideN_spec b hq (m := none) (p := p) h (Ok_ne h)
    refine ⟨.nest k r, by simp [besideN, h1], h2, by simp, ?_⟩
    rintro l ⟨m, hm, rfl⟩
    obtain ⟨lp, lq, h5, h6, rfl⟩ := h4 m hm
    exact ⟨shift k lp, lq, ⟨lp, h5, rfl⟩, h6, shift_besideL k b lp lq (D_ne h5)⟩
  | none, txt i s p, ⟨hi, h⟩, _ => by
    subst hi
    exact besideN_txt b hq h (fun hp => besideN_spec b hq h hp)
  | some e, txt i s p, ⟨hi, h⟩, _ => by
    subst hi
    exact besideN_txt b hq h (fun hp => besideN_spec b hq h hp)
  | some _, nilAbove p, h, _ => by
    have h' : Ok none p := h
    obtain ⟨r, h1, h2, h3, h4⟩ := besideN_spec b hq h' (Ok_ne h')
    refine ⟨nilAbove r, by simp [besideN, h1], h2, by simp, ?_⟩
    rintro l ⟨m, hm, rfl⟩
    obtain ⟨lp, lq, h5, h6, rfl⟩ := h4 m hm
    refine ⟨(0, []) :: lp, lq, ⟨lp, h5, rfl⟩, h6, ?_⟩
    cases lp with
    | nil => exact absurd rfl (D_ne h5)
    | cons x y => rfl
  | some e, union p p', ⟨ha, hb, hc, hd⟩, _ => by
    obtain ⟨r, h1, h2, h3, h4⟩ := besideN_spec b hq ha hc
    obtain ⟨r', h1', h2', h3', h4'⟩ := besideN_spec b hq hb hd
    refine ⟨union r r', by simp [besideN, h1, h1'], ⟨h2, h2', h3, h3'⟩, by simp, ?_⟩
    rintro l (h | h)
    · obtain ⟨lp, lq, h5, h6, rfl⟩ := h4 l h
      exact ⟨lp, lq, .inl h5, h6, rfl⟩
    · obtain ⟨lp, lq, h5, h6, rfl⟩ := h4' l h
      exact ⟨lp, lq, .inr h5, h6, rfl⟩
  | some _, nil, _, h => absurd rfl h
  | some _, empty, h, _ => ⟨empty, rfl, h, by simp, fun l hl => hl.elim⟩
  | some _, .nest _ _, h, _ => by simp [Ok] at h
  | some _, beside _ _ _, h, _ => by simp [Ok] at h
  | some _, above _ _ _, h, _ => by simp [Ok] at h
  | none, nil, h, _ => h.elim
  | none, nilAbove _, h, _ => h.elim
  | none, union _ _, h, _ => h.elim
  | none, beside _ _ _, h, _ => h.elim
  | none, above _ _ _, h, _ => h.elim
  | none, empty, h, _ => h.elim
where
  besideN_txt (b : Bool) {q : Doc} (hq : R q) {e : Bool} {s : List Char} {p : Doc} {m : Option Bool}
      (h : Ok (some e) p)
      (ih : p ≠ nil → ∃ r, besideN p b q = some r ∧ Ok (some e) r ∧ r ≠ nil ∧
        ∀ l, D r l → ∃ lp lq, D p lp ∧ DR q lq ∧ l = besideL b lp lq) 
      (hm : ∀ r, Ok (some e) r → Ok m (txt s.length s r) := by intro r hr; exact ⟨rfl, hr⟩) :
      ∃ r, besideN (txt s.length s p) b q = some r ∧ Ok m r ∧ r ≠ nil ∧
        ∀ l, D r l → ∃ lp lq, D (txt s.length s p) lp ∧ DR q lq ∧ l = besideL b lp lq := by
    by_cases hp : p = nil
    · subst hp
      obtain ⟨h1, -, h3⟩ := besideNil_spec (e := e) b hq
      refine ⟨txt s.length s (besideNil b q), by simp [besideN], hm _ h1, by simp, ?_⟩
      rintro l ⟨m', hm', rfl⟩
      obtain ⟨lq, h5, h6⟩ := h3 m' hm'
      refine ⟨[(0, s)], lq, ⟨[(0, [])], rfl, by simp [pre, shift_nil]⟩, h5, h6 s⟩
    · obtain ⟨r, h1, h2, h3, h4⟩ := ih hp
      refine ⟨txt s.length s r, by simp [besideN, hp, h1], hm _ h2, by simp, ?_⟩
      rintro l ⟨m', hm', rfl⟩
      obtain ⟨lp, lq, h5, h6, rfl⟩ := h4 m' hm'
      refine ⟨pre s.length s lp, lq, ⟨lp, h5, rfl⟩, h6, ?_⟩
      cases lp with
      | nil => exact absurd rfl (D_ne h5)
      | cons x y =>
        obtain ⟨i, t⟩ := x
        have := D_head h h5
        subst this
        exact pre_besideL s b t y lq

theorem aboveNest_spec (b : Bool) {q : Doc} (hq : R q) : ∀ {m : Option Bool} {p : Doc} (k : Int),
    Ok m p → p ≠ nil →
    ∃ r, aboveNest p b k q = some r ∧ Ok m r ∧ r ≠ nil ∧
      ∀ l, D r l → ∃ lp lq, D p lp ∧ DR q lq ∧ l = aboveL b lp (shift k lq)
  | none, .nest j p, k, h, _ => by
    obtain ⟨r, h1, h2, h3, h4⟩ := aboveNest_spec b hq (m := none) (p := p) (k - j) h (Ok_ne h)
    refine ⟨.nest j r, by simp [aboveNest, h1], h2, by simp, ?_⟩
    rintro l ⟨m, hm, rfl⟩
    obtain ⟨lp, lq, h5, h6, rfl⟩ := h4 m hm
    refine ⟨shift j lp, lq, ⟨lp, h5, rfl⟩, h6, ?_⟩
    rw [shift_aboveL, shift_shift]
    congr 2; omega
  | none, txt i s p, k, ⟨hi, h⟩, _ => by
    subst hi
    exact aboveNest_txt b hq k h (fun hp => aboveNest_spec b hq _ h hp)
  | some e, txt i s p, k, ⟨hi, h⟩, _ => by
    subst hi
    exact aboveNest_txt b hq k h (fun hp => aboveNest_spec b hq _ h hp)
  | some _, nilAbove p, k, h, _ => by
    have h' : Ok none p := h
    obtain ⟨r, h1, h2, h3, h4⟩ := aboveNest_spec b hq k h' (Ok_ne h')
    refine ⟨nilAbove r, by simp [aboveNest, h1], h2, by simp, ?_⟩
    rintro l ⟨m, hm, rfl⟩
    obtain ⟨lp, lq, h5, h6, rfl⟩ := h4 m hm
    refine ⟨(0, []) :: lp, lq, ⟨lp, h5, rfl⟩, h6, ?_⟩
    cases lp with
    | nil => exact absurd rfl (D_ne h5)
    | cons x y => rfl
  | some e, union p p', k, ⟨ha, hb, hc, hd⟩, _ => by
    obtain ⟨r, h1, h2, h3, h4⟩ := aboveNest_spec b hq k ha hc
    obtain ⟨r', h1', h2', h3', h4'⟩ := aboveNest_spec b hq k hb hd
    refine ⟨union r r', by simp [aboveNest, h1, h1'], ⟨h2, h2', h3, h3'⟩, by simp, ?_⟩
    rintro l (h | h)
    · obtain ⟨lp, lq, h5, h6, rfl⟩ := h4 l h
      exact ⟨lp, lq, .inl h5, h6, rfl⟩
    · obtain ⟨lp, lq, h5, h6, rfl⟩ := h4' l h
      exact ⟨lp, lq, .inr h5, h6, rfl⟩
  | some _, nil, _, _, h => absurd rfl h
  | some _, empty, _, h, _ => ⟨empty, rfl, h, by simp, fun l hl => hl.elim⟩
  | some _, .nest _ _, _, h, _ => by simp [Ok] at h
  | some _, beside _ _ _, _, h, _ => by simp [Ok] at h
  | some _, above _ _ _, _, h, _ => by simp [Ok] at h
  | none, nil, _, h, _ => h.elim
  | none, nilAbove _, _, h, _ => h.elim
  | none, union _ _, _, h, _ => h.elim
  | none, beside _ _ _, _, h, _ => h.elim
  | none, above _ _ _, _, h, _ => h.elim
  | none, empty, _, h, _ => h.elim
where
  aboveNest_txt (b : Bool) {q : Doc} (hq : R q) (k : Int) {e : Bool} {s : List Char} {p : Doc}
      {m : Option Bool} (h : Ok (some e) p)
      (ih : p ≠ nil → ∃ r, aboveNest p b (k - s.length) q = some r ∧ Ok (some e) r ∧ r ≠ nil ∧
        ∀ l, D r l → ∃ lp lq, D p lp ∧ DR q lq ∧ l = aboveL b lp (shift (k - s.length) lq))
      (hm : ∀ r, Ok (some e) r → Ok m (txt s.length s r) := by intro r hr; exact ⟨rfl, hr⟩) :
      ∃ r, aboveNest (txt s.length s p) b k q = some r ∧ Ok m r ∧ r ≠ nil ∧
        ∀ l, D r l → ∃ lp lq, D (txt s.length s p) lp ∧ DR q lq ∧ l = aboveL b lp (shift k lq) := by
    by_cases hp : p = nil
    · subst hp
      obtain ⟨r, h0, h1, -, h3⟩ := aboveNil_spec (e := e) b (k - s.length) hq
      refine ⟨txt s.length s r, by simp [aboveNest, h0], hm _ h1, by simp, ?_⟩
      rintro l ⟨m', hm', rfl⟩
      obtain ⟨lq, h5, h6⟩ := h3 m' hm'
      refine ⟨[(0, s)], lq, ⟨[(0, [])], rfl, by simp [pre, shift_nil]⟩, h5, ?_⟩
      rw [h6 s]
      congr 2; omega
    · obtain ⟨r, h1, h2, h3, h4⟩ := ih hp
      refine ⟨txt s.length s r, by simp [aboveNest, hp, h1], hm _ h2, by simp, ?_⟩
      rintro l ⟨m', hm', rfl⟩
      obtain ⟨lp, lq, h5, h6, rfl⟩ := h4 m' hm'
      refine ⟨pre s.length s lp, lq, ⟨lp, h5, rfl⟩, h6, ?_⟩
      cases lp with
      | nil => exact absurd rfl (D_ne h5)
      | cons x y =>
        obtain ⟨i, t⟩ := x
        have := D_head h h5
        subst this
        exact pre_aboveL s b k t y lq

end Voss.Pretty
