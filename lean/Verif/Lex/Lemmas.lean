import Verif.Lex.Spec

/-! # Lemmas on conditional sections -/

namespace Voss.Lex

theorem dirArg_self (kw : List Char) (c : Char) (r : List Char) (h : isWhite c = true) :
    dirArg kw (kw ++ c :: r) = some r := by
  induction kw with
  | nil => simp [dirArg, h]
  | cons k kw ih => simp [dirArg, ih]

theorem dirArg_iff : ∀ (kw l r : List Char), dirArg kw l = some r ↔
    ∃ c, isWhite c = true ∧ l = kw ++ c :: r
  | [], [], r => by simp [dirArg]
  | [], c :: l, r => by
    rw [dirArg]
    by_cases h : isWhite c = true
    · rw [if_pos h]
      constructor
      · intro e; simp at e; exact ⟨c, h, by simp [e]⟩
      · rintro ⟨c', _, e⟩; simp at e; simp [e.2]
    · rw [if_neg h]
      constructor
      · intro e; simp at e
      · rintro ⟨c', h', e⟩; simp at e; rw [e.1] at h; exact absurd h' h
  | _ :: _, [], r => by simp [dirArg]
  | k :: kw, c :: l, r => by
    rw [dirArg]
    by_cases h : k = c
    · rw [if_pos h, dirArg_iff kw l r]; subst h; simp
    · rw [if_neg h]
      constructor
      · intro e; simp at e
      · rintro ⟨c', _, e⟩; simp at e; exact absurd e.1.symm h

theorem white_space {c : Char} (h : isWhite c = true) : isSpace c = true := by
  unfold isWhite at h; unfold isSpace
  rcases (Bool.or_eq_true _ _).mp h with h | h <;> simp [h]

theorem ident_name {b n : List Char} (hb : ∀ c ∈ b, isWhite c = true) (hn : okName n) :
    ident (b ++ n) = n ++ ['\n'] := by
  unfold ident
  induction b with
  | nil =>
    obtain ⟨h0, hn⟩ := hn
    cases n with
    | nil => exact absurd rfl h0
    | cons c n =>
      have := hn c (by simp)
      simp [this]
  | cons c b ih =>
    have hc := white_space (hb c (by simp))
    have := ih (fun c h => hb c (by simp [h]))
    simpa [List.dropWhile, hc] using this

theorem classify_define {b n : List Char} (hb : okBlanks b) (hn : okName n) :
    classify (kwDefine ++ b ++ n) = .define (n ++ ['\n']) := by
  obtain ⟨h0, hb⟩ := hb
  cases b with
  | nil => exact absurd rfl h0
  | cons c b =>
    have : dirArg kwDefine (kwDefine ++ (c :: b) ++ n) = some (b ++ n) := by
      rw [List.append_assoc]; exact dirArg_self _ c _ (hb c (by simp))
    unfold classify
    rw [this]
    simp only [ident_name (fun c h => hb c (List.mem_cons_of_mem _ h)) hn]

theorem classify_undefine {b n : List Char} (hb : okBlanks b) (hn : okName n) :
    classify (kwUndefine ++ b ++ n) = .undefine (n ++ ['\n']) := by
  obtain ⟨h0, hb⟩ := hb
  cases b with
  | nil => exact absurd rfl h0
  | cons c b =>
    have : dirArg kwUndefine (kwUndefine ++ (c :: b) ++ n) = some (b ++ n) := by
      rw [List.append_assoc]; exact dirArg_self _ c _ (hb c (by simp))
    have h2 : dirArg kwDefine (kwUndefine ++ (c :: b) ++ n) = none := by
      simp [dirArg, kwDefine, kwUndefine]
    unfold classify
    rw [h2]; dsimp only; rw [this]
    simp only [ident_name (fun c h => hb c (List.mem_cons_of_mem _ h)) hn]

theorem classify_ifdef {b n : List Char} (hb : okBlanks b) (hn : okName n) :
    classify (kwIfdef ++ b ++ n) = .ifdef (n ++ ['\n']) := by
  obtain ⟨h0, hb⟩ := hb
  cases b with
  | nil => exact absurd rfl h0
  | cons c b =>
    have : dirArg kwIfdef (kwIfdef ++ (c :: b) ++ n) = some (b ++ n) := by
      rw [List.append_assoc]; exact dirArg_self _ c _ (hb c (by simp))
    have h2 : dirArg kwDefine (kwIfdef ++ (c :: b) ++ n) = none := by
      simp [dirArg, kwDefine, kwIfdef]
    have h3 : dirArg kwUndefine (kwIfdef ++ (c :: b) ++ n) = none := by
      simp [dirArg, kwUndefine, kwIfdef]
    unfold classify
    rw [h2]; dsimp only; rw [h3]; dsimp only; rw [this]
    simp only [ident_name (fun c h => hb c (List.mem_cons_of_mem _ h)) hn]

theorem classify_else : classify kwElse = .els := by decide +kernel
theorem classify_endif : classify kwEndif = .endif := by decide +kernel

theorem run_line (l : List Char) (k : Src) (st : St) :
    run (.line l k) st = (step st l).bind (run k) := rfl

theorem run_load_skip {l name : List Char} {f k : Src} {st : St} (h : st.ign = true) :
    run (.load l name f k) st = (step st l).bind (run k) := by
  rw [run, if_neg (by simp [h])]

/-! ## One line -/

theorem step_text {st : St} {l : List Char} (h : classify l = .text) :
    step st l = some (doText st l) := by
  unfold step; rw [h]

theorem step_define {st : St} {b n : List Char} (hb : okBlanks b) (hn : okName n) :
    step st (kwDefine ++ b ++ n) =
      if st.ign then some { st with line := st.line + 1 }
      else some { st with defs := hashDefine st.defs (n ++ ['\n']), line := st.line + 1 } := by
  unfold step; rw [classify_define hb hn]

theorem step_undefine {st : St} {b n : List Char} (hb : okBlanks b) (hn : okName n) :
    step st (kwUndefine ++ b ++ n) =
      if st.ign then some { st with line := st.line + 1 }
      else some { st with defs := hashUndefine st.defs (n ++ ['\n']), line := st.line + 1 } := by
  unfold step; rw [classify_undefine hb hn]

theorem step_ifdef {st : St} {b n : List Char} (hb : okBlanks b) (hn : okName n) :
    step st (kwIfdef ++ b ++ n) = some (doIfdef st (n ++ ['\n'])) := by
  unfold step; rw [classify_ifdef hb hn]

theorem step_else {st : St} {p : Bool} {ps : List Bool} (h : st.pol = p :: ps) :
    step st kwElse =
      some { st with pol := (!p) :: ps, ign := ignoring ((!p) :: ps), line := st.line + 1 } := by
  unfold step doElse; rw [classify_else]; simp only [h]

theorem step_endif {st : St} {p : Bool} {ps : List Bool} (h : st.pol = p :: ps) :
    step st kwEndif = some { st with pol := ps, ign := ignoring ps, line := st.line + 1 } := by
  unfold step doEndif; rw [classify_endif]; simp only [h]

/-! ## Sections that are skipped -/

/-- The state after `k` lines that are skipped. -/
def St.skip (st : St) (k : Nat) : St := { st with line := st.line + k }

theorem skip_skip (st : St) (k j : Nat) : (st.skip k).skip j = st.skip (k + j) := by
  simp [St.skip, Nat.add_assoc]

theorem run_skip (d : Doc) : ∀ (k : Src) (st : St), d.ok → st.ign = true →
    ignoring st.pol = true → run (d.render k) st = run k (st.skip d.lines) := by
  induction d with
  | nil => intro k st _ _ _; simp [Doc.render, Doc.lines, St.skip]
  | text l r ih =>
    intro k st hd hi hp
    rw [Doc.render, run_line, step_text hd.1, doText, if_pos hi, Option.bind_some]
    refine Eq.trans (ih k (st.skip 1) hd.2 hi hp) ?_
    rw [skip_skip]
    rw [Doc.lines, Nat.add_comm]
  | define b n r ih =>
    intro k st hd hi hp
    rw [Doc.render, run_line, step_define hd.1 hd.2.1, if_pos hi, Option.bind_some]
    refine Eq.trans (ih k (st.skip 1) hd.2.2 hi hp) ?_
    rw [skip_skip]
    rw [Doc.lines, Nat.add_comm]
  | undefine b n r ih =>
    intro k st hd hi hp
    rw [Doc.render, run_line, step_undefine hd.1 hd.2.1, if_pos hi, Option.bind_some]
    refine Eq.trans (ih k (st.skip 1) hd.2.2 hi hp) ?_
    rw [skip_skip]
    rw [Doc.lines, Nat.add_comm]
  | load l name f last r _ ih =>
    intro k st hd hi hp
    rw [Doc.render, run_load_skip hi, step_text hd.1, doText, if_pos hi, Option.bind_some]
    refine Eq.trans (ih k (st.skip 1) hd.2.2 hi hp) ?_
    rw [skip_skip]
    rw [Doc.lines, Nat.add_comm]
  | ifdef b n t r iht ihr =>
    intro k st hd hi hp
    obtain ⟨h1, h2, h3, h4⟩ := hd
    rw [Doc.render, run_line, step_ifdef h1 h2, doIfdef, if_pos hi, Option.bind_some]
    refine Eq.trans (iht _ { st with pol := true :: st.pol, line := st.line + 1 } h3 hi
      (by simp [ignoring])) ?_
    rw [run_line, step_endif (p := true) (ps := st.pol) rfl,
      Option.bind_some]
    have := ihr k (st.skip (t.lines + 2)) h4 hi hp
    rw [skip_skip] at this
    rw [Doc.lines, show t.lines + r.lines + 2 = t.lines + 2 + r.lines by omega, ← this]
    simp only [St.skip, hp, hi, show st.line + 1 + t.lines + 1 = st.line + (t.lines + 2) by omega]
  | ifelse b n t e r iht ihe ihr =>
    intro k st hd hi hp
    obtain ⟨h1, h2, h3, h4, h5⟩ := hd
    have hp' : ignoring (false :: st.pol) = true := by simpa [ignoring] using hp
    rw [Doc.render, run_line, step_ifdef h1 h2, doIfdef, if_pos hi, Option.bind_some]
    refine Eq.trans (iht _ { st with pol := true :: st.pol, line := st.line + 1 } h3 hi
      (by simp [ignoring])) ?_
    rw [run_line, step_else (p := true) (ps := st.pol) rfl,
      Option.bind_some]
    simp only [Bool.not_true, hp']
    refine Eq.trans (ihe _ { st with
      pol := false :: st.pol, ign := true, line := st.line + 1 + t.lines + 1 } h4 rfl hp') ?_
    rw [run_line, step_endif (p := false) (ps := st.pol) rfl, Option.bind_some]
    have := ihr k (st.skip (t.lines + e.lines + 3)) h5 hi hp
    rw [skip_skip] at this
    rw [Doc.lines, show t.lines + e.lines + r.lines + 3 = t.lines + e.lines + 3 + r.lines by omega,
      ← this]
    simp only [St.skip, hp, hi, show st.line + 1 + t.lines + 1 + e.lines + 1 =
      st.line + (t.lines + e.lines + 3) by omega]

/-! ## Sections that are read -/

/-- The table holds the names that are defined. -/
def agrees (defs : List (List Char)) (e : List Char → Bool) : Prop :=
  ∀ n, okName n → (n ++ ['\n'] ∈ defs ↔ e n = true)

theorem agrees_define {defs : List (List Char)} {e : List Char → Bool} (h : agrees defs e)
    (n : List Char) : agrees (hashDefine defs (n ++ ['\n'])) (setName e n true) := by
  intro m hm
  unfold hashDefine setName
  rw [if_neg (by simp)]
  by_cases hmn : m = n
  · subst hmn
    rw [if_pos rfl]
    split
    · rename_i h'; simp [h']
    · simp
  · rw [if_neg hmn]
    split
    · exact h m hm
    · rw [List.mem_cons, h m hm]
      simp [hmn]

theorem agrees_undefine {defs : List (List Char)} {e : List Char → Bool} (h : agrees defs e)
    (n : List Char) : agrees (hashUndefine defs (n ++ ['\n'])) (setName e n false) := by
  intro m hm
  unfold hashUndefine setName
  rw [if_neg (by simp), List.mem_filter, h m hm]
  by_cases hmn : m = n
  · simp [hmn]
  · simp [hmn]

theorem agrees_isDefined {defs : List (List Char)} {e : List Char → Bool} (h : agrees defs e)
    {n : List Char} (hn : okName n) : isDefined defs (n ++ ['\n']) = e n := by
  unfold isDefined
  rw [if_neg (by simp), Bool.eq_iff_iff, decide_eq_true_iff]
  exact h n hn

/-- The state after a part of a file. -/
def St.after (st : St) (defs : List (List Char)) (k : Nat) (o : List Read) : St :=
  { st with defs := defs, line := st.line + k, out := st.out ++ o }

theorem after_line (st : St) (o : List Read) :
    { st with line := st.line + 1, out := st.out ++ o } = st.after st.defs 1 o := rfl

theorem after_after (st : St) (d1 d2 : List (List Char)) (k1 k2 : Nat) (o1 o2 : List Read) :
    (st.after d1 k1 o1).after d2 k2 o2 = st.after d2 (k1 + k2) (o1 ++ o2) := by
  simp [St.after, Nat.add_assoc]

theorem run_eof (last : List Char) (st : St) (h : st.ign = false) :
    run (.eof last) st = some { st with out := st.out ++ lastLine st.file st.line last } := by
  unfold run lastLine
  by_cases hl : last = []
  · simp [hl]
  · simp [hl, h]

theorem run_read (d : Doc) : ∀ (k : Src) (st : St) (e : List Char → Bool), d.ok →
    st.ign = false → ignoring st.pol = false → agrees st.defs e →
    ∃ defs, agrees defs (d.sem st.file st.line e).2 ∧
      run (d.render k) st = run k (st.after defs d.lines (d.sem st.file st.line e).1) := by
  induction d with
  | nil =>
    intro k st e _ _ _ ha
    exact ⟨st.defs, ha, by simp [Doc.render, Doc.lines, St.after, Doc.sem]⟩
  | text l r ih =>
    intro k st e hd hi hp ha
    obtain ⟨defs, h1, h2⟩ := ih k (st.after st.defs 1 [(st.file, st.line, l)]) e hd.2 hi hp ha
    refine ⟨defs, h1, ?_⟩
    rw [Doc.render, run_line, step_text hd.1, doText, if_neg (by simp [hi]), Option.bind_some]
    rw [after_after] at h2
    rw [Doc.lines, Nat.add_comm r.lines 1]
    exact h2
  | define b n r ih =>
    intro k st e hd hi hp ha
    obtain ⟨defs, h1, h2⟩ := ih k (st.after (hashDefine st.defs (n ++ ['\n'])) 1 []) _
      hd.2.2 hi hp (agrees_define ha n)
    refine ⟨defs, h1, ?_⟩
    rw [Doc.render, run_line, step_define hd.1 hd.2.1, if_neg (by simp [hi]), Option.bind_some]
    rw [after_after] at h2
    rw [Doc.lines, Nat.add_comm r.lines 1]
    refine Eq.trans ?_ h2
    simp [St.after]
  | undefine b n r ih =>
    intro k st e hd hi hp ha
    obtain ⟨defs, h1, h2⟩ := ih k (st.after (hashUndefine st.defs (n ++ ['\n'])) 1 []) _
      hd.2.2 hi hp (agrees_undefine ha n)
    refine ⟨defs, h1, ?_⟩
    rw [Doc.render, run_line, step_undefine hd.1 hd.2.1, if_neg (by simp [hi]), Option.bind_some]
    rw [after_after] at h2
    rw [Doc.lines, Nat.add_comm r.lines 1]
    refine Eq.trans ?_ h2
    simp [St.after]
  | load l name f last r ihf ihr =>
    intro k st e hd hi hp ha
    obtain ⟨defs, h1, h2⟩ := ihf (.eof last)
      { st with out := st.out ++ [(st.file, st.line, l)], file := name, line := 1, ign := false }
      e hd.2.1 rfl hp ha
    obtain ⟨defs', h3, h4⟩ := ihr k (st.after defs 1 ((st.file, st.line, l) ::
      (f.sem name 1 e).1 ++ lastLine name (1 + f.lines) last)) _ hd.2.2 hi hp h1
    refine ⟨defs', h3, ?_⟩
    rw [Doc.render, run, if_pos ⟨hd.1, hi⟩, h2, run_eof _ _ rfl, Option.bind_some]
    rw [after_after] at h4
    rw [Doc.lines, Nat.add_comm r.lines 1]
    refine Eq.trans ?_ h4
    simp [St.after, hi]
  | ifdef b n t r iht ihr =>
    intro k st e hd hi hp ha
    obtain ⟨g1, g2, g3, g4⟩ := hd
    have hf : ignoring (false :: st.pol) = false := by simpa [ignoring] using hp
    have ht : ignoring (true :: st.pol) = true := by simp [ignoring]
    rw [Doc.render, run_line, step_ifdef g1 g2, doIfdef, if_neg (by simp [hi]), Option.bind_some,
      agrees_isDefined ha g2]
    dsimp only
    rw [Doc.sem, Doc.lines, show t.lines + r.lines + 2 = t.lines + 2 + r.lines by omega]
    cases hv : e n with
    | true =>
      rw [Bool.not_true, hf, if_pos rfl]
      dsimp only
      obtain ⟨defs, h1, h2⟩ := iht (.line kwEndif (r.render k))
        { st with pol := false :: st.pol, ign := false, line := st.line + 1 } e g3 rfl hf ha
      obtain ⟨defs', h3, h4⟩ := ihr k
        (st.after defs (t.lines + 2) (t.sem st.file (st.line + 1) e).1) _ g4 hi hp h1
      refine ⟨defs', h3, ?_⟩
      rw [h2, run_line, step_endif (p := false) (ps := st.pol) rfl, Option.bind_some]
      rw [after_after] at h4
      refine Eq.trans ?_ h4
      simp only [St.after, hp, hi, show st.line + 1 + t.lines + 1 = st.line + (t.lines + 2) by omega]
    | false =>
      rw [Bool.not_false, ht, if_neg (by simp)]
      dsimp only
      obtain ⟨defs', h3, h4⟩ := ihr k (st.after st.defs (t.lines + 2) []) e g4 hi hp ha
      refine ⟨defs', h3, ?_⟩
      rw [run_skip t _ _ g3 rfl ht, run_line, step_endif (p := true) (ps := st.pol) rfl,
        Option.bind_some]
      rw [after_after] at h4
      refine Eq.trans ?_ h4
      simp only [St.after, St.skip, hp, hi, List.append_nil,
        show st.line + 1 + t.lines + 1 = st.line + (t.lines + 2) by omega]
  | ifelse b n t s r iht ihs ihr =>
    intro k st e hd hi hp ha
    obtain ⟨g1, g2, g3, g4, g5⟩ := hd
    have hf : ignoring (false :: st.pol) = false := by simpa [ignoring] using hp
    have ht : ignoring (true :: st.pol) = true := by simp [ignoring]
    rw [Doc.render, run_line, step_ifdef g1 g2, doIfdef, if_neg (by simp [hi]), Option.bind_some,
      agrees_isDefined ha g2]
    dsimp only
    rw [Doc.sem, Doc.lines,
      show t.lines + s.lines + r.lines + 3 = t.lines + s.lines + 3 + r.lines by omega,
      show st.line + t.lines + s.lines + 3 = st.line + (t.lines + s.lines + 3) by omega]
    cases hv : e n with
    | true =>
      rw [Bool.not_true, hf, if_pos rfl]
      dsimp only
      obtain ⟨defs, h1, h2⟩ := iht (.line kwElse (s.render (.line kwEndif (r.render k))))
        { st with pol := false :: st.pol, ign := false, line := st.line + 1 } e g3 rfl hf ha
      obtain ⟨defs', h3, h4⟩ := ihr k
        (st.after defs (t.lines + s.lines + 3) (t.sem st.file (st.line + 1) e).1) _ g5 hi hp h1
      refine ⟨defs', h3, ?_⟩
      rw [h2, run_line, step_else (p := false) (ps := st.pol) rfl, Option.bind_some,
        Bool.not_false, ht, run_skip s _ _ g4 rfl ht, run_line,
        step_endif (p := true) (ps := st.pol) rfl, Option.bind_some]
      rw [after_after] at h4
      refine Eq.trans ?_ h4
      simp only [St.after, St.skip, hp, hi,
        show st.line + 1 + t.lines + 1 + s.lines + 1 = st.line + (t.lines + s.lines + 3) by omega]
    | false =>
      rw [Bool.not_false, ht, if_neg (by simp)]
      dsimp only
      have hl : st.line + 1 + t.lines + 1 = st.line + t.lines + 2 := by omega
      obtain ⟨defs, h1, h2⟩ := ihs (.line kwEndif (r.render k))
        { st with pol := false :: st.pol, ign := false, line := st.line + t.lines + 2 }
        e g4 rfl hf ha
      obtain ⟨defs', h3, h4⟩ := ihr k
        (st.after defs (t.lines + s.lines + 3) (s.sem st.file (st.line + t.lines + 2) e).1) _
        g5 hi hp h1
      refine ⟨defs', h3, ?_⟩
      rw [run_skip t _ _ g3 rfl ht, run_line, step_else (p := true) (ps := st.pol) rfl,
        Option.bind_some, Bool.not_true, hf]
      simp only [St.skip, hl]
      rw [h2, run_line, step_endif (p := false) (ps := st.pol) rfl, Option.bind_some]
      rw [after_after] at h4
      refine Eq.trans ?_ h4
      simp only [St.after, hp, hi, show st.line + t.lines + 2 + s.lines + 1 =
        st.line + (t.lines + s.lines + 3) by omega]

end Voss.Lex
