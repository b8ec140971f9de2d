import Verif.Lex.Lemmas

/-! # Lemmas on files that are not properly nested -/

namespace Voss.Lex

/-! ## Line numbers -/

theorem step_out {st st' : St} {l : List Char} (h : step st l = some st') :
    st'.file = st.file ∧ st'.line = st.line + 1 ∧
      (st'.out = st.out ∨ st'.out = st.out ++ [(st.file, st.line, l)]) := by
  unfold step at h
  split at h
  · split at h <;> (cases h; simp)
  · split at h <;> (cases h; simp)
  · cases h; unfold doIfdef; split <;> simp
  · unfold doElse at h
    split at h
    · cases h
    · cases h; simp
  · unfold doEndif at h
    split at h
    · cases h
    · cases h; simp
  · cases h; unfold doText; split <;> simp

theorem run_numbered (src : Src) : ∀ (st st' : St), run src st = some st' →
    ∃ o, st'.out = st.out ++ o ∧ o.Sublist (src.numbered st.file st.line) := by
  have key : ∀ (l : List Char) (r : Src) (d : List Read)
      (_ : ∀ (st st' : St), run r st = some st' →
        ∃ o, st'.out = st.out ++ o ∧ o.Sublist (r.numbered st.file st.line))
      (st st' : St), (step st l).bind (run r) = some st' →
      ∃ o, st'.out = st.out ++ o ∧
        o.Sublist ((st.file, st.line, l) :: (d ++ r.numbered st.file (st.line + 1))) := by
    intro l r d ih st st' h
    cases hs : step st l with
    | none => rw [hs] at h; cases h
    | some st1 =>
      rw [hs, Option.bind_some] at h
      obtain ⟨o, h1, h2⟩ := ih st1 st' h
      obtain ⟨g1, g2, g3⟩ := step_out hs
      rw [g1, g2] at h2
      have h2' := h2.trans (List.sublist_append_right d _)
      rcases g3 with g3 | g3
      · exact ⟨o, by rw [h1, g3], h2'.cons _⟩
      · exact ⟨(st.file, st.line, l) :: o, by rw [h1, g3]; simp, h2'.cons_cons _⟩
  induction src with
  | eof last =>
    intro st st' h
    unfold run at h
    split at h
    · cases h; exact ⟨[], by simp, by simp⟩
    · cases h; exact ⟨[(st.file, st.line, last)], rfl, by simp [Src.numbered]⟩
  | line l r ih =>
    intro st st' h
    exact key l r [] ih st st' h
  | load l name f r ihf ihr =>
    intro st st' h
    rw [run] at h
    split at h
    · obtain ⟨st1, hf, h⟩ := Option.bind_eq_some_iff.mp h
      obtain ⟨o1, h1, h2⟩ := ihf _ _ hf
      obtain ⟨o2, h3, h4⟩ := ihr _ _ h
      refine ⟨(st.file, st.line, l) :: (o1 ++ o2), ?_, ?_⟩
      · rw [h3]; dsimp only; rw [h1]; simp
      · exact (h2.append h4).cons_cons _
    · exact key l r _ ihr st st' h

/-! ## Directives without an `#ifdef` -/

theorem run_eof_some (last : List Char) (st : St) : run (.eof last) st ≠ none := by
  unfold run; split <;> simp

theorem step_pol (st : St) (l : List Char) :
    (step st l = none ∧ st.pol = [] ∧ (isElse l = true ∨ isEndif l = true)) ∨
    ∃ st', step st l = some st' ∧
      st'.pol.length + (if isEndif l then 1 else 0) = st.pol.length + (if isIfdef l then 1 else 0) ∧
      (isElse l = true ∨ isEndif l = true → st.pol ≠ []) := by
  unfold step isElse isEndif isIfdef
  cases hc : classify l with
  | define id => right; dsimp only; split <;> exact ⟨_, rfl, by simp, by simp⟩
  | undefine id => right; dsimp only; split <;> exact ⟨_, rfl, by simp, by simp⟩
  | ifdef id =>
    right
    refine ⟨_, rfl, ?_, by simp⟩
    unfold doIfdef; split <;> simp
  | els =>
    cases hp : st.pol with
    | nil => left; simp [doElse, hp]
    | cons p ps => right; simp [doElse, hp]
  | endif =>
    cases hp : st.pol with
    | nil => left; simp [doEndif, hp]
    | cons p ps => right; simp [doEndif, hp]
  | text =>
    right
    refine ⟨_, rfl, ?_, by simp⟩
    unfold doText; split <;> simp

theorem run_none_iff (last : List Char) (ls : List (List Char)) : ∀ st : St,
    run (Src.ofLines last ls) st = none ↔
      ∃ pre l post, ls = pre ++ l :: post ∧ (isElse l = true ∨ isEndif l = true) ∧
        pre.countP isIfdef + st.pol.length = pre.countP isEndif := by
  induction ls with
  | nil => intro st; simp [Src.ofLines, run_eof_some]
  | cons l ls ih =>
    intro st
    rw [Src.ofLines, run_line]
    rcases step_pol st l with ⟨h1, h2, h3⟩ | ⟨st', h1, h2, h3⟩
    · rw [h1]
      simp only [Option.bind_none, true_iff]
      exact ⟨[], l, ls, rfl, h3, by simp [h2]⟩
    · rw [h1, Option.bind_some, ih st']
      constructor
      · rintro ⟨pre, x, post, g1, g2, g3⟩
        refine ⟨l :: pre, x, post, by rw [g1]; rfl, g2, ?_⟩
        rw [List.countP_cons, List.countP_cons]
        omega
      · rintro ⟨pre, x, post, g1, g2, g3⟩
        cases pre with
        | nil =>
          simp only [List.nil_append, List.cons.injEq] at g1
          rw [← g1.1] at g2
          have := h3 g2
          have g3' : st.pol.length = 0 := by simpa using g3
          exact absurd (List.length_eq_zero_iff.mp g3') this
        | cons y pre =>
          simp only [List.cons_append, List.cons.injEq] at g1
          obtain ⟨rfl, g1⟩ := g1
          refine ⟨pre, x, post, g1, g2, ?_⟩
          rw [List.countP_cons, List.countP_cons] at g3
          omega

/-! ## Files one after the other -/

theorem loadAll_read (fs : List (List Char × Doc × List Char)) : ∀ (st : St) (e : List Char → Bool),
    (∀ f ∈ fs, f.2.1.ok) → st.ign = false → ignoring st.pol = false → agrees st.defs e →
    ∃ defs, agrees defs (semAll fs e).2 ∧
      loadAll st (fs.map fun f => (f.1, f.2.1.render (.eof f.2.2))) =
        some { st with defs := defs, out := st.out ++ (semAll fs e).1 } := by
  induction fs with
  | nil => intro st e _ _ _ ha; exact ⟨st.defs, ha, by simp [loadAll, semAll]⟩
  | cons f fs ih =>
    obtain ⟨g, d, last⟩ := f
    intro st e hok hi hp ha
    obtain ⟨defs, h1, h2⟩ := run_read d (.eof last)
      { st with file := g, line := 1, ign := false } e (hok (g, d, last) (by simp)) rfl hp ha
    obtain ⟨defs', h3, h4⟩ := ih { st with
      defs := defs, out := st.out ++ ((d.sem g 1 e).1 ++ lastLine g (1 + d.lines) last) } _
      (fun f hf => hok f (by simp [hf])) hi hp h1
    refine ⟨defs', h3, ?_⟩
    rw [List.map_cons, loadAll, loadFile]
    dsimp only
    rw [h2, run_eof _ _ rfl, Option.map_some, Option.bind_some]
    refine Eq.trans ?_ (Eq.trans h4 ?_)
    · simp [St.after, hi]
    · simp [semAll]

end Voss.Lex
