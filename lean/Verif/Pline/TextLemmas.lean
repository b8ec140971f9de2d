import Verif.Pline.Lemmas

namespace Voss.Pline

theorem joinNl_app (l : List (List Char)) (x : List Char) (c : Char) :
    joinNl (l ++ [x ++ [c]]) = joinNl (l ++ [x]) ++ [c] := by
  induction l with
  | nil => rfl
  | cons t l ih =>
    cases l with
    | nil => simp [joinNl]
    | cons u l => simp only [List.cons_append, joinNl] at ih ⊢; rw [ih]; simp

theorem joinNl_nl (l : List (List Char)) (x : List Char) : joinNl (l ++ [x] ++ [[]]) = joinNl (l ++ [x]) ++ ['\n'] := by
  induction l with
  | nil => simp [joinNl]
  | cons t l ih =>
    cases l with
    | nil => simp [joinNl]
    | cons u l => simp only [List.cons_append, joinNl] at ih ⊢; rw [ih]; simp

theorem over_end (c : Char) (l : List Char) : over l.length c l = l ++ [c] := by
  simp [over, List.drop_eq_nil_of_le]

/-- The cursor is at the end of the text `t`. -/
structure AtEnd (p : Sheet) (t : List Char) : Prop where
  top : p.top = 0
  row : p.row = p.bot
  bot : 0 ≤ p.bot
  col : p.col = (p.rows p.row).length
  out : ∀ r, p.bot < r → p.rows r = []
  text : joinNl p.used = t

theorem atEnd_blank : AtEnd blank [] := ⟨rfl, rfl, Int.le_refl _, rfl, fun _ _ => rfl, rfl⟩

theorem used_eq {p : Sheet} (h : p.top = 0) (hb : 0 ≤ p.bot) :
    p.used = ((List.range p.bot.toNat).map fun (i : Nat) => p.rows i) ++ [p.rows p.bot] := by
  have e : (p.bot - p.top + 1).toNat = p.bot.toNat + 1 := by omega
  have e2 : ((p.bot.toNat : Nat) : Int) = p.bot := by omega
  rw [Sheet.used, e, List.range_succ, List.map_append]; simp [h, e2]

theorem atEnd_put {p : Sheet} {t : List Char} (h : AtEnd p t) (max : Int) (c : Char) :
    AtEnd (exec max p (.put c)) (t ++ [c]) := by
  obtain ⟨h1, h2, h3, h4, h5, h6⟩ := h
  have hr : (exec max p (.put c)).rows p.bot = p.rows p.bot ++ [c] := by
    simp [exec, ← h2, h4, over_end]
  refine ⟨h1, h2, h3, ?_, ?_, ?_⟩
  · show p.col + 1 = ((exec max p (.put c)).rows p.row).length
    rw [h2, hr, h4, h2]; simp
  · intro r hr'
    have hr' : p.bot < r := hr'
    have : r ≠ p.row := by omega
    simp [exec, this, h5 r hr']
  · rw [used_eq (p := exec max p (.put c)) h1 h3]
    rw [used_eq h1 h3] at h6
    show joinNl (((List.range p.bot.toNat).map fun (i : Nat) => (exec max p (.put c)).rows i) ++ [(exec max p (.put c)).rows p.bot]) = _
    rw [hr, joinNl_app]
    have : ((List.range p.bot.toNat).map fun (i : Nat) => (exec max p (.put c)).rows i) =
        (List.range p.bot.toNat).map fun (i : Nat) => p.rows i := by
      apply List.map_congr_left
      intro i hi
      rw [List.mem_range] at hi
      have : (i : Int) ≠ p.row := by omega
      simp [exec, this]
    rw [this, h6]

theorem atEnd_nl {p : Sheet} {t : List Char} (h : AtEnd p t) :
    AtEnd { p.goto (p.row + 1) with col := 0 } (t ++ ['\n']) := by
  obtain ⟨h1, h2, h3, h4, h5, h6⟩ := h
  have eb : (p.goto (p.row + 1)).bot = p.bot + 1 := by simp [Sheet.goto, h2]; omega
  have et : (p.goto (p.row + 1)).top = 0 := by simp [Sheet.goto]; omega
  refine ⟨et, ?_, ?_, ?_, ?_, ?_⟩
  · show p.row + 1 = (p.goto (p.row + 1)).bot; omega
  · show 0 ≤ (p.goto (p.row + 1)).bot; omega
  · show 0 = (p.rows (p.row + 1)).length
    rw [h5 _ (by omega)]; rfl
  · intro r hr
    have hr : (p.goto (p.row + 1)).bot < r := hr
    exact h5 r (by omega)
  · rw [used_eq (p := { p.goto (p.row + 1) with col := 0 }) et (by show 0 ≤ (p.goto (p.row + 1)).bot; omega)]
    show joinNl (((List.range (p.goto (p.row + 1)).bot.toNat).map fun (i : Nat) => p.rows i) ++ [p.rows (p.goto (p.row + 1)).bot]) = _
    rw [eb, h5 (p.bot + 1) (by omega), show (p.bot + 1).toNat = p.bot.toNat + 1 by omega, List.range_succ,
      List.map_append]
    rw [used_eq h1 h3] at h6
    have e2 : ((p.bot.toNat : Nat) : Int) = p.bot := by omega
    simp only [List.map_cons, List.map_nil, e2]
    rw [joinNl_nl, h6]

/-- Without cursor movements, text is added at the end. -/
theorem run_text (max : Int) (s : List Char) (hs : esc ∉ s) : ∀ (p : Sheet) (t : List Char), AtEnd p t →
    ∃ u, Broken s u ∧ AtEnd ((cmds s).foldl (exec max) p) (t ++ u) := by
  induction s with
  | nil => intro p t h; exact ⟨[], .nil, by simpa [cmds] using h⟩
  | cons c s ih =>
    intro p t h
    have hs' : esc ∉ s := fun hh => hs (List.mem_cons_of_mem _ hh)
    have hc : c ≠ esc := fun hh => hs (hh ▸ List.mem_cons_self)
    by_cases h1 : c = '\n'
    · subst h1
      rw [cmds_nl, List.foldl_cons]
      obtain ⟨u, hu, hr⟩ := ih hs' _ _ (atEnd_nl h)
      exact ⟨'\n' :: u, .keep _ (by decide) hu, by simpa [exec] using hr⟩
    · by_cases h2 : c = mark
      · subst h2
        rw [cmds_mark, List.foldl_cons]
        simp only [exec]
        split
        · obtain ⟨u, hu, hr⟩ := ih hs' _ _ (atEnd_nl h)
          exact ⟨'\n' :: u, .newline hu, by simpa using hr⟩
        · obtain ⟨u, hu, hr⟩ := ih hs' _ _ h
          exact ⟨u, .drop hu, hr⟩
      · rw [cmds_put c s h1 h2 hc, List.foldl_cons]
        obtain ⟨u, hu, hr⟩ := ih hs' _ _ (atEnd_put h max c)
        exact ⟨c :: u, .keep _ h2 hu, by simpa using hr⟩

theorem broken_self {s u : List Char} (h : Broken s u) (hs : mark ∉ s) : u = s := by
  induction h with
  | nil => rfl
  | keep c _ _ ih => rw [ih (fun hh => hs (List.mem_cons_of_mem _ hh))]
  | drop _ _ => exact absurd List.mem_cons_self hs
  | newline _ _ => exact absurd List.mem_cons_self hs

theorem short_tail {w : Nat} {c : Char} {s : List Char} (h : Short w (c :: s)) (hp : c = mark ∨ c = '\n' ∨ ahead s ≤ w) :
    Short w s := by
  refine ⟨?_, fun a b d e hd => h.2 (c :: a) b d (by rw [e]; rfl) hd⟩
  rcases hp with hp | hp | hp
  · exact h.2 [] s c rfl (.inl hp)
  · exact h.2 [] s c rfl (.inr hp)
  · exact hp

/-- With places for a break close enough, no row gets longer. -/
theorem run_width (w : Nat) (s : List Char) (hs : esc ∉ s) (hw : Short w s) : ∀ (p : Sheet), p.col + ahead s ≤ w →
    (∀ r, (p.rows r).length ≤ w) → ∀ r, (((cmds s).foldl (exec (w + 2)) p).rows r).length ≤ w := by
  induction s with
  | nil => intro p _ h; simpa [cmds] using h
  | cons c s ih =>
    intro p hp h
    have hs' : esc ∉ s := fun hh => hs (List.mem_cons_of_mem _ hh)
    have hc : c ≠ esc := fun hh => hs (hh ▸ List.mem_cons_self)
    by_cases h1 : c = '\n'
    · subst h1
      have hw' := short_tail hw (.inr (.inl rfl))
      rw [cmds_nl, List.foldl_cons]
      exact ih hs' hw' _ (by simpa [exec] using hw'.1) h
    · by_cases h2 : c = mark
      · subst h2
        have hw' := short_tail hw (.inl rfl)
        rw [cmds_mark, List.foldl_cons]
        simp only [exec]
        split
        · exact ih hs' hw' _ (by simpa using hw'.1) h
        · rename_i hn
          refine ih hs' hw' _ ?_ h
          by_cases h0 : 0 < p.col
          · have : ¬ ((w : Int) + 2 - 2 < p.col + ahead s) := fun hh => hn ⟨h0, hh⟩
            omega
          · have := hw'.1; omega
      · have ha : ahead (c :: s) = ahead s + 1 := by rw [ahead, if_neg]; rintro (h | h) <;> contradiction
        rw [ha] at hp
        rw [cmds_put c s h1 h2 hc, List.foldl_cons]
        refine ih hs' (short_tail hw (.inr (.inr (by omega)))) _ (by simp [exec]; omega) ?_
        intro r
        simp only [exec]
        split
        · rw [over_length]; have := h r; omega
        · exact h r

end Voss.Pline
