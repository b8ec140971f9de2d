import Verif.Pline.Spec
import Mathlib.Data.List.Forall2

namespace Voss.Pline

/-- A line holds a text: its bytes are written and there is room for the end. -/
structure Holds (l : Line) (t : List Char) : Prop where
  used : l.used = t.length
  room : l.used < l.allocated
  buf : ∀ i, i < t.length → l.buf i = t[i]?

theorem holds_new : Holds newLine [] := ⟨rfl, by simp [newLine, lineSize], by simp⟩

theorem grow_spec (n col : Nat) : col + 1 < grow n col ∧ n ≤ grow n col := by
  induction n using grow.induct (col := col) with
  | case1 n h ih => rw [grow, if_pos h]; exact ⟨ih.1, by have := ih.2; omega⟩
  | case2 n h => rw [grow, if_neg h]; omega

theorem pad_spec (n : Nat) : ∀ (i : Nat) (l : Line), i + n ≤ l.allocated →
    ∃ l', pad i n l = some l' ∧ l'.allocated = l.allocated ∧ l'.used = l.used ∧
      (∀ j, j < i → l'.buf j = l.buf j) ∧ (∀ j, i ≤ j → j < i + n → l'.buf j = some ' ') ∧
      (∀ j, i + n ≤ j → l'.buf j = l.buf j) := by
  induction n with
  | zero => intro i l _; exact ⟨l, rfl, rfl, rfl, fun _ _ => rfl, by intros; omega, fun _ _ => rfl⟩
  | succ n ih =>
    intro i l h
    have hw : l.write i ' ' = some { l with buf := fun j => if j = i then some ' ' else l.buf j } := by
      simp only [Line.write]; rw [if_pos (by omega)]
    obtain ⟨l', h1, h2, h3, h4, h5, h6⟩ := ih (i + 1) { l with buf := fun j => if j = i then some ' ' else l.buf j }
      (by simp; omega)
    refine ⟨l', by rw [pad, hw]; exact h1, h2, h3, ?_, ?_, ?_⟩
    · intro j hj; rw [h4 j (by omega)]; simp; omega
    · intro j h1 h2
      by_cases e : j = i
      · subst e; rw [h4 j (by omega)]; simp
      · exact h5 j (by omega) (by omega)
    · intro j hj; rw [h6 j (by omega)]; simp; omega

theorem over_length (n : Nat) (c : Char) (l : List Char) : (over n c l).length = max l.length (n + 1) := by
  simp [over]; omega

theorem over_get (n : Nat) (c : Char) (l : List Char) (i : Nat) :
    (over n c l)[i]? = if i = n then some c else if i < l.length then l[i]? else if i < n then some ' ' else none := by
  unfold over
  have hl : ((l ++ List.replicate (n - l.length) ' ').take n).length = n := by simp; omega
  by_cases h : i < n
  · rw [List.getElem?_append_left (by omega), List.getElem?_take, if_pos h, if_neg (by omega)]
    by_cases h2 : i < l.length
    · rw [List.getElem?_append_left h2, if_pos h2]
    · rw [List.getElem?_append_right (by omega), if_neg h2, if_pos h, List.getElem?_replicate, if_pos (by omega)]
  · rw [List.getElem?_append_right (by omega), hl]
    by_cases e : i = n
    · subst e; simp
    · obtain ⟨k, hk⟩ : ∃ k, i - n = k + 1 := ⟨i - n - 1, by omega⟩
      rw [hk, List.getElem?_cons_succ, List.getElem?_drop, if_neg e, if_neg h]
      have : n + 1 + k = i := by omega
      rw [this]
      split
      · rfl
      · rw [List.getElem?_eq_none]; omega

theorem printChar_spec (col : Nat) (c : Char) (l : Line) (t : List Char) (h : Holds l t) :
    ∃ l', printChar col c l = some l' ∧ Holds l' (over col c t) := by
  obtain ⟨hu, hr, hb⟩ := h
  let m : Line := if col + 1 ≥ l.allocated then { l with allocated := grow (l.allocated + lineSize) col } else l
  have hm : col + 1 < m.allocated ∧ l.allocated ≤ m.allocated ∧ m.used = l.used ∧ m.buf = l.buf := by
    simp only [m]
    split
    · have := grow_spec (l.allocated + lineSize) col
      refine ⟨this.1, ?_, rfl, rfl⟩
      simp only; omega
    · refine ⟨by omega, Nat.le_refl _, rfl, rfl⟩
  obtain ⟨m1, m2, m3, m4⟩ := hm
  obtain ⟨p, h1, h2, h3, h4, h5, h6⟩ := pad_spec (col - m.used) m.used m (by omega)
  have hw : p.write col c = some { p with buf := fun j => if j = col then some c else p.buf j } := by
    simp only [Line.write]; rw [if_pos (by omega)]
  refine ⟨_, by
    simp only [printChar]
    show (pad m.used (col - m.used) m).bind _ = _
    rw [h1, Option.bind_some, hw, Option.bind_some], ?_⟩
  have hbuf : ∀ i, i < max t.length (col + 1) → (if i = col then some c else p.buf i) = (over col c t)[i]? := by
    intro i hi
    rw [over_get]
    by_cases e : i = col
    · simp [e]
    · rw [if_neg e, if_neg e]
      by_cases hlt : i < t.length
      · rw [if_pos hlt, ← hb i hlt, ← m4]
        exact h4 i (by omega)
      · rw [if_neg hlt, if_pos (by omega)]
        exact h5 i (by omega) (by omega)
  constructor
  · rw [over_length]; split
    · rename_i hc; simp only at hc ⊢; omega
    · rename_i hc; simp only at hc ⊢; omega
  · split
    · simp only; omega
    · simp only; omega
  · intro i hi
    rw [over_length] at hi
    rw [← hbuf i hi]
    split <;> rfl

theorem bytes_spec (l : Line) (t : List Char) (h : ∀ i, i < t.length → l.buf i = t[i]?) :
    bytes l t.length = some t := by
  have : ∀ n, n ≤ t.length → bytes l n = some (t.take n) := by
    intro n
    induction n with
    | zero => intro _; simp [bytes]
    | succ n ih =>
      intro hn
      rw [bytes, ih (by omega), Option.bind_some, h n (by omega), List.getElem?_eq_getElem (by omega), Option.bind_some,
        List.take_add_one, List.getElem?_eq_getElem (by omega)]
      rfl
  rw [this _ (Nat.le_refl _), List.take_length]

theorem lines_spec (ls : List Line) (ts : List (List Char)) (h : List.Forall₂ Holds ls ts) :
    lines ls = some (joinNl ts) := by
  induction h with
  | nil => rfl
  | @cons l t r u hl hr ih =>
    rw [lines, if_pos hl.room, hl.used, bytes_spec l t hl.buf, Option.bind_some, ih, Option.bind_some]
    cases hr <;> simp [joinNl]

/-- The lines of the list are the rows from `r` on, going in steps of `d`. -/
def Run (rows : Int → List Char) (d : Int) : Int → List Line → Prop
  | _, [] => True
  | r, l :: ls => Holds l (rows r) ∧ Run rows d (r + d) ls

theorem run_frame_up (rows rows' : Int → List Char) (r0 : Int) (hf : ∀ r, r ≠ r0 → rows' r = rows r) (ls : List Line)
    (r : Int) (hr : r < r0) (h : Run rows (-1) r ls) : Run rows' (-1) r ls := by
  induction ls generalizing r with
  | nil => trivial
  | cons l ls ih => exact ⟨by rw [hf r (by omega)]; exact h.1, ih _ (by omega) h.2⟩

theorem run_frame_down (rows rows' : Int → List Char) (r0 : Int) (hf : ∀ r, r ≠ r0 → rows' r = rows r) (ls : List Line)
    (r : Int) (hr : r0 < r) (h : Run rows 1 r ls) : Run rows' 1 r ls := by
  induction ls generalizing r with
  | nil => trivial
  | cons l ls ih => exact ⟨by rw [hf r (by omega)]; exact h.1, ih _ (by omega) h.2⟩

/-- The program's lines and the sheet. -/
structure Rel (s : St) (p : Sheet) : Prop where
  col : s.col = p.col
  above : Run p.rows (-1) (p.row - 1) s.above
  alen : (s.above.length : Int) = p.row - p.top
  cur : Holds s.cur (p.rows p.row)
  below : Run p.rows 1 (p.row + 1) s.below
  blen : (s.below.length : Int) = p.bot - p.row
  out : ∀ r, r < p.top ∨ p.bot < r → p.rows r = []

theorem rel_init : Rel ⟨0, [], newLine, []⟩ blank :=
  ⟨rfl, trivial, rfl, holds_new, trivial, rfl, fun _ _ => rfl⟩

theorem rel_up {s : St} {p : Sheet} (h : Rel s p) : Rel (moveUp s) (p.goto (p.row - 1)) := by
  obtain ⟨h1, h2, h3, h4, h5, h6, h7⟩ := h
  unfold moveUp
  cases ha : s.above with
  | nil =>
    rw [ha] at h3
    have e : p.row = p.top := by simp at h3; omega
    have hr : p.rows (p.row - 1) = [] := h7 _ (.inl (by omega))
    refine ⟨h1, trivial, ?_, ?_, ⟨?_, ?_⟩, ?_, ?_⟩
    · simp [Sheet.goto]; rw [if_pos (by omega)]; omega
    · simp only [Sheet.goto, hr]; exact holds_new
    · simpa [Sheet.goto] using h4
    · simpa [Sheet.goto] using h5
    · simp only [Sheet.goto, List.length_cons]; rw [if_neg (by omega)]; omega
    · intro r hr'; simp only [Sheet.goto] at hr' ⊢
      rw [if_pos (by omega), if_neg (by omega)] at hr'
      exact h7 r (by omega)
  | cons l a =>
    rw [ha] at h2 h3
    simp only [List.length_cons] at h3
    refine ⟨h1, ?_, ?_, ?_, ⟨?_, ?_⟩, ?_, ?_⟩
    · simpa [Sheet.goto, Int.sub_eq_add_neg] using h2.2
    · simp only [Sheet.goto]; rw [if_neg (by omega)]; omega
    · simpa [Sheet.goto] using h2.1
    · simpa [Sheet.goto] using h4
    · simpa [Sheet.goto] using h5
    · simp only [Sheet.goto, List.length_cons]; rw [if_neg (by omega)]; omega
    · intro r hr'; simp only [Sheet.goto] at hr' ⊢
      rw [if_neg (by omega), if_neg (by omega)] at hr'
      exact h7 r hr'

theorem rel_down {s : St} {p : Sheet} (h : Rel s p) : Rel (moveDown s) (p.goto (p.row + 1)) := by
  obtain ⟨h1, h2, h3, h4, h5, h6, h7⟩ := h
  unfold moveDown
  cases hb : s.below with
  | nil =>
    rw [hb] at h6
    have e : p.row = p.bot := by simp at h6; omega
    have hr : p.rows (p.row + 1) = [] := h7 _ (.inr (by omega))
    refine ⟨h1, ⟨?_, ?_⟩, ?_, ?_, trivial, ?_, ?_⟩
    · simpa [Sheet.goto] using h4
    · have e' : (p.goto (p.row + 1)).row - 1 + -1 = p.row - 1 := by simp [Sheet.goto]; omega
      rw [e']; exact h2
    · simp only [Sheet.goto, List.length_cons]; rw [if_neg (by omega)]; omega
    · simp only [Sheet.goto, hr]; exact holds_new
    · simp [Sheet.goto]; rw [if_pos (by omega)]; omega
    · intro r hr'; simp only [Sheet.goto] at hr' ⊢
      rw [if_neg (by omega), if_pos (by omega)] at hr'
      exact h7 r (by omega)
  | cons l b =>
    rw [hb] at h5 h6
    simp only [List.length_cons] at h6
    refine ⟨h1, ⟨?_, ?_⟩, ?_, ?_, ?_, ?_, ?_⟩
    · simpa [Sheet.goto] using h4
    · have e' : (p.goto (p.row + 1)).row - 1 + -1 = p.row - 1 := by simp [Sheet.goto]; omega
      rw [e']; exact h2
    · simp only [Sheet.goto, List.length_cons]; rw [if_neg (by omega)]; omega
    · simpa [Sheet.goto] using h5.1
    · simpa [Sheet.goto] using h5.2
    · simp only [Sheet.goto]; rw [if_neg (by omega)]; omega
    · intro r hr'; simp only [Sheet.goto] at hr' ⊢
      rw [if_neg (by omega), if_neg (by omega)] at hr'
      exact h7 r hr'

theorem rel_col {s : St} {p : Sheet} (h : Rel s p) (n : Nat) : Rel { s with col := n } { p with col := n } :=
  ⟨rfl, h.above, h.alen, h.cur, h.below, h.blen, h.out⟩

theorem rel_put {s : St} {p : Sheet} (h : Rel s p) (max : Int) (c : Char) (hc : c ≠ mark) :
    ∃ s', put c s = some s' ∧ Rel s' (exec max p (.put c)) := by
  obtain ⟨h1, h2, h3, h4, h5, h6, h7⟩ := h
  obtain ⟨l, e1, e2⟩ := printChar_spec s.col c s.cur _ h4
  have hf : ∀ r, r ≠ p.row → (exec max p (.put c)).rows r = p.rows r := by
    intro r hr; simp [exec, hr]
  refine ⟨{ s with cur := l, col := s.col + 1 }, by simp [put, hc, e1], ?_, ?_, h3, ?_, ?_, h6, ?_⟩
  · simp [exec, h1]
  · exact run_frame_up _ _ p.row hf _ _ (by show p.row - 1 < p.row; omega) h2
  · show Holds l (if p.row = p.row then over p.col c (p.rows p.row) else p.rows p.row)
    rw [if_pos rfl, ← h1]; exact e2
  · exact run_frame_down _ _ p.row hf _ _ (by show p.row < p.row + 1; omega) h5
  · intro r hr
    have hlen1 := h3; have hlen2 := h6
    have : r ≠ p.row := by
      have : r < p.top ∨ p.bot < r := hr
      omega
    rw [hf r this]; exact h7 r hr

theorem scan_spec (s : List Char) (rem : Int) : scan rem s ≤ 0 ↔ rem ≤ ahead s := by
  induction s generalizing rem with
  | nil => simp [scan, ahead]
  | cons c s ih =>
    rw [scan, ahead]
    by_cases hm : c = mark ∨ c = '\n'
    · rw [if_neg (by rintro ⟨_, a, b⟩; rcases hm with h | h <;> contradiction), if_pos hm]; simp
    · rw [if_neg hm]
      by_cases hr : 0 < rem
      · rw [if_pos ⟨hr, fun h => hm (.inl h), fun h => hm (.inr h)⟩, ih]; omega
      · rw [if_neg (fun h => hr h.1)]; omega

theorem run_rows_down (rows : Int → List Char) (ls : List Line) (r : Int) (h : Run rows 1 r ls) :
    List.Forall₂ Holds ls ((List.range ls.length).map fun (i : Nat) => rows (r + i)) := by
  induction ls generalizing r with
  | nil => exact .nil
  | cons l ls ih =>
    rw [List.length_cons, List.range_succ_eq_map, List.map_cons, List.map_map]
    refine .cons (by simpa using h.1) ?_
    have := ih (r + 1) h.2
    have e : ((fun (i : Nat) => rows (r + i)) ∘ Nat.succ) = fun (i : Nat) => rows (r + 1 + i) := by
      funext i; simp; congr 1; omega
    rw [e]; exact this

/-- A column of lines going up, turned round, is a column going down. -/
theorem run_reverse (rows : Int → List Char) (a b : List Line) (r : Int) (ha : Run rows (-1) (r - 1) a)
    (hb : Run rows 1 r b) : Run rows 1 (r - a.length) (a.reverse ++ b) := by
  induction a generalizing r b with
  | nil => simpa using hb
  | cons l a ih =>
    have := ih (l :: b) (r - 1) (by simpa [Int.sub_eq_add_neg] using ha.2) ⟨ha.1, by simpa using hb⟩
    simp only [List.reverse_cons, List.append_assoc, List.singleton_append, List.length_cons]
    have e : r - ((a.length + 1 : Nat) : Int) = r - 1 - a.length := by omega
    rw [e]; exact this

theorem rel_print {s : St} {p : Sheet} (h : Rel s p) :
    lines (s.above.reverse ++ s.cur :: s.below) = some (joinNl p.used) := by
  have h1 := run_reverse p.rows s.above (s.cur :: s.below) p.row h.above ⟨h.cur, h.below⟩
  have h2 := run_rows_down _ _ _ h1
  rw [lines_spec _ _ h2]
  have a := h.alen; have b := h.blen
  have e1 : p.row - (s.above.length : Int) = p.top := by omega
  have e2 : (s.above.reverse ++ s.cur :: s.below).length = (p.bot - p.top + 1).toNat := by simp; omega
  rw [e1, e2]; rfl

theorem mark_ne_esc : esc ≠ mark := by decide

theorem cmds_put (c : Char) (s : List Char) (h1 : c ≠ '\n') (h2 : c ≠ mark) (h3 : c ≠ esc) :
    cmds (c :: s) = .put c :: cmds s := by
  rw [cmds.eq_def]; simp only [if_neg h1, if_neg h2, if_neg h3]

theorem cmds_nl (s : List Char) : cmds ('\n' :: s) = .newline :: cmds s := by
  rw [cmds.eq_def]; simp

theorem cmds_mark (s : List Char) : cmds (mark :: s) = .brk (ahead s) :: cmds s := by
  rw [cmds.eq_def]; simp only [if_neg (show mark ≠ '\n' by decide), if_true]

theorem cmds_move (e : Char) (s : List Char) (k : Cmd)
    (h : (e = 'A' ∧ k = .up) ∨ (e = 'B' ∧ k = .down) ∨ (e = 'C' ∧ k = .right) ∨ (e = 'D' ∧ k = .left)) :
    cmds (esc :: '[' :: e :: s) = k :: cmds s := by
  rw [cmds.eq_def]; simp only [if_neg (show esc ≠ '\n' by decide), if_neg mark_ne_esc, if_true]
  rcases h with ⟨rfl, rfl⟩ | ⟨rfl, rfl⟩ | ⟨rfl, rfl⟩ | ⟨rfl, rfl⟩ <;> rfl

theorem cmds_esc (s : List Char)
    (h : ∀ e t, s = '[' :: e :: t → e ≠ 'A' ∧ e ≠ 'B' ∧ e ≠ 'C' ∧ e ≠ 'D') :
    cmds (esc :: s) = .put esc :: cmds s := by
  rw [cmds.eq_def]; simp only [if_neg (show esc ≠ '\n' by decide), if_neg mark_ne_esc, if_true]
  split
  · exact absurd rfl (h _ _ rfl).1
  · exact absurd rfl (h _ _ rfl).2.1
  · exact absurd rfl (h _ _ rfl).2.2.1
  · exact absurd rfl (h _ _ rfl).2.2.2
  · rfl

/-- The loop does what the commands say. -/
theorem go_spec (max : Int) (n : Nat) : ∀ (s : List Char), s.length ≤ n → ∀ (st : St) (p : Sheet), Rel st p →
    ∃ st', go max st s = some st' ∧ Rel st' ((cmds s).foldl (exec max) p) := by
  induction n with
  | zero => intro s hs st p h; have : s = [] := List.length_eq_zero_iff.1 (by omega); subst this; exact ⟨st, rfl, h⟩
  | succ n ih =>
    intro s hs st p h
    cases s with
    | nil => exact ⟨st, rfl, h⟩
    | cons c s =>
      simp only [List.length_cons] at hs
      by_cases h1 : c = '\n'
      · rw [go.eq_def]; simp only [if_pos h1]; rw [h1, cmds_nl, List.foldl_cons]
        exact ih s (by omega) _ _ (rel_col (rel_down h) 0)
      · by_cases h2 : c = mark
        · rw [show cmds (c :: s) = .brk (ahead s) :: cmds s by rw [h2]; exact cmds_mark s, List.foldl_cons]
          by_cases h0 : 0 < st.col
          · rw [go.eq_def]; simp only [if_neg h1, if_pos (show 0 < st.col ∧ c = mark from ⟨h0, h2⟩)]
            have hp : 0 < p.col := by rw [← h.col]; exact h0
            have hsc : scan (max - st.col - 1) s ≤ 0 ↔ max - 2 < p.col + ahead s := by
              rw [scan_spec, h.col]; omega
            by_cases hb : scan (max - st.col - 1) s ≤ 0
            · rw [if_pos hb]
              simp only [exec]
              rw [if_pos ⟨hp, hsc.1 hb⟩]
              exact ih s (by omega) _ _ (rel_col (rel_down h) 0)
            · rw [if_neg hb]
              simp only [exec]
              rw [if_neg (fun hh => hb (hsc.2 hh.2))]
              exact ih s (by omega) _ _ h
          · have hp : ¬ 0 < p.col := by rw [← h.col]; exact h0
            have hne : c ≠ esc := by rw [h2]; exact Ne.symm mark_ne_esc
            rw [go.eq_def]
            simp only [if_neg h1, if_neg hne]
            rw [if_neg (fun hh => h0 hh.1)]
            have : put c st = some st := by simp [put, h2]
            rw [this, Option.bind_some]
            simp only [exec]
            rw [if_neg (fun hh => hp hh.1)]
            exact ih s (by omega) _ _ h
        · obtain ⟨s1, e1, r1⟩ := rel_put h max c h2
          by_cases h3 : c = esc
          · have hm : ¬ (0 < st.col ∧ c = mark) := fun hh => h2 hh.2
            cases s with
            | nil =>
              refine ⟨s1, ?_, ?_⟩
              · rw [go.eq_def]; simp only [if_neg h1, if_neg hm, if_pos h3]; exact e1
              · rw [h3, cmds_esc [] (by simp), ← h3]; exact r1
            | cons d t =>
              simp only [List.length_cons] at hs
              by_cases hd : d = '['
              · subst hd
                obtain ⟨s2, e2, r2⟩ := rel_put r1 max '[' (by decide)
                cases t with
                | nil =>
                  refine ⟨s2, ?_, ?_⟩
                  · rw [go.eq_def]; simp only [if_neg h1, if_neg hm, if_pos h3, if_true]
                    rw [e1, Option.bind_some, e2]
                  · rw [h3, cmds_esc ['['] (by simp), cmds_put '[' _ (by decide) (by decide) (by decide), ← h3]
                    exact r2
                | cons e u =>
                  simp only [List.length_cons] at hs
                  rw [go.eq_def]; simp only [if_neg h1, if_neg hm, if_pos h3, if_true]
                  by_cases eA : e = 'A'
                  · subst eA
                    rw [h3, cmds_move 'A' u .up (by simp)]; simp only [if_true, List.foldl_cons]
                    exact ih u (by omega) _ _ (rel_up h)
                  rw [if_neg eA]
                  by_cases eB : e = 'B'
                  · subst eB
                    rw [h3, cmds_move 'B' u .down (by simp)]; simp only [if_true, List.foldl_cons]
                    exact ih u (by omega) _ _ (rel_down h)
                  rw [if_neg eB]
                  by_cases eC : e = 'C'
                  · subst eC
                    rw [h3, cmds_move 'C' u .right (by simp)]; simp only [if_true, List.foldl_cons]
                    refine ih u (by omega) _ _ ?_
                    have := rel_col h (st.col + 1)
                    simpa [exec, moveRight, h.col] using this
                  rw [if_neg eC]
                  by_cases eD : e = 'D'
                  · subst eD
                    rw [h3, cmds_move 'D' u .left (by simp)]; simp only [if_true, List.foldl_cons]
                    refine ih u (by omega) _ _ ?_
                    have := rel_col h (st.col - 1)
                    simpa [exec, moveLeft, h.col] using this
                  rw [if_neg eD, e1, Option.bind_some, e2, Option.bind_some]
                  have hc : cmds (c :: '[' :: e :: u) = .put c :: .put '[' :: cmds (e :: u) := by
                    rw [h3, cmds_esc _ (by
                      intro x y hxy; simp at hxy; rw [← hxy.1]; exact ⟨eA, eB, eC, eD⟩)]
                    rw [cmds_put '[' _ (by decide) (by decide) (by decide)]
                  rw [hc]
                  exact ih (e :: u) (by simp; omega) _ _ r2
              · rw [go.eq_def]; simp only [if_neg h1, if_neg hm, if_pos h3, if_neg hd]
                rw [e1, Option.bind_some]
                have hc : cmds (c :: d :: t) = .put c :: cmds (d :: t) := by
                  rw [h3, cmds_esc _ (by intro x y hxy; simp at hxy; exact absurd hxy.1 hd)]
                rw [hc]
                exact ih (d :: t) (by simp; omega) _ _ r1
          · rw [cmds_put c s h1 h2 h3, go.eq_def]
            simp only [if_neg h1, if_neg h3]
            rw [if_neg (fun hh => h2 hh.2), e1, Option.bind_some]
            exact ih s (by omega) _ _ r1

end Voss.Pline
