import Verif.Pretty.FitLemmas

/-
C106: what the pretty printer writes is one of the layouts that the
combinators allow.
-/

namespace Voss.Pretty

/-- The indentation that a line should have. -/
def spaces (k : Int) : List Char := List.replicate k.toNat ' '

/-- C106, every document: making it and printing it does not fail, for any
width and ribbon, and what is written is a layout of the document, except
that `$+$` may have been taken for `$-$`. -/
theorem c106_total (e : Expr) : ∃ d, e.build = some d ∧ ∀ w r fin, ∃ l, e.Spec true l ∧
    render d w r fin = some (showL blanks l ++ fin) := by
  letI : Mode := ⟨true⟩
  obtain ⟨d, h1, h2, h3⟩ := build_spec true e (by intro h; cases h) (by intro h; cases h)
  refine ⟨d, h1, fun w r fin => ?_⟩
  obtain ⟨l, h4, h5⟩ := render_spec h2.1 w r fin
  exact ⟨l, h3 l h4, h5⟩

/-- C106, every document: the texts are written, all of them and in the order
of the document, with nothing but white space between them. -/
theorem c106_texts (e : Expr) : ∃ d, e.build = some d ∧ ∀ w r fin, ∃ out,
    render d w r fin = some out ∧ ink out = ink e.words ++ ink fin := by
  obtain ⟨d, h1, h2⟩ := c106_total e
  refine ⟨d, h1, fun w r fin => ?_⟩
  obtain ⟨l, h3, h4⟩ := h2 w r fin
  exact ⟨_, h4, by rw [ink_append, ink_showL, spec_ink e l h3]⟩

/-- C106, part: if `$+$` and `vcat` are not both used, what is written is one
of the layouts of the document.  What is missing: `c106_plus_violated`. -/
theorem c106_layout_partial (e : Expr) (h : e.plus = false ∨ e.usesVcat = false) :
    ∃ d, e.build = some d ∧ ∀ w r fin, ∃ l, e.Spec false l ∧
      render d w r fin = some (showL blanks l ++ fin) := by
  letI : Mode := ⟨false⟩
  have key : ∃ d, e.build = some d ∧ U d ∧ ∀ l, DU d l → e.Spec false l := by
    rcases h with h | h
    · obtain ⟨d, h1, h2, h3⟩ := build_spec true e (fun _ _ => h) (by intro _ h'; cases h')
      exact ⟨d, h1, h2.1, h3⟩
    · obtain ⟨d, h1, h2, h3⟩ := build_spec false e (by intro _ h'; cases h') (fun _ _ => h)
      exact ⟨d, h1, h2.1, h3⟩
  obtain ⟨d, h1, h2, h3⟩ := key
  refine ⟨d, h1, fun w r fin => ?_⟩
  obtain ⟨l, h4, h5⟩ := render_spec h2 w r fin
  exact ⟨l, h3 l h4, h5⟩

/-- The document `vcat [text "a"] $+$ nest 5 (text "b")`. -/
def plusExample : Expr :=
  .above (.vcat (.cons (.text ['a']) .nil)) true (.nest 5 (.text ['b']))

/-- C106, `$+$` is violated: after `vcat`, the second document is put on the
last line of the first one, which `$+$` is meant to exclude. -/
theorem c106_plus_violated : ∃ d, plusExample.build = some d ∧
    render d 100 67 [] = some [' ', 'a', ' ', ' ', ' ', ' ', 'b'] ∧
    (∀ l, plusExample.Spec false l → l = [(0, ['a']), (5, ['b'])]) ∧
    ¬ ∃ l, plusExample.Spec false l ∧ render d 100 67 [] = some (showL blanks l) := by
  have hs : ∀ l, plusExample.Spec false l → l = [(0, ['a']), (5, ['b'])] := by
    rintro l ⟨c, m, n, hc, ⟨ls, ⟨m', ms, h1, h2, rfl⟩, rfl⟩, ⟨n', h3, rfl⟩, rfl⟩
    have h1 : m' = [(0, ['a'])] := h1
    have h2 : ms = [] := h2
    have h3 : n' = [(0, ['b'])] := h3
    have hc : c = true := by simpa using hc
    subst h1; subst h2; subst h3; subst hc
    rfl
  refine ⟨_, rfl, by decide +kernel, hs, ?_⟩
  rintro ⟨l, h1, h2⟩
  rw [hs l h1] at h2
  revert h2
  decide +kernel

/-- C106, part: a line is written with its indentation, if that is at least
1. -/
theorem c106_indent_partial (k : Int) (h : 1 ≤ k) : blanks k = spaces k := by
  unfold blanks spaces
  congr 1
  omega

/-- C106, indentation is violated: a line that is not indented gets a blank in
front, so that it cannot be told from one that is indented by 1, and lines
moved to the left of the margin go to the right. -/
theorem c106_indent_violated :
    (∀ s : List Char, ∃ d, (Expr.text s).build = some d ∧
      ∀ w r, render d w r [] = some (' ' :: s)) ∧
    (∃ d, (Expr.nest (-3) (.text ['a'])).build = some d ∧
      ∀ w r, render d w r [] = some [' ', ' ', ' ', 'a']) := by
  constructor
  · intro s
    refine ⟨_, rfl, fun w r => ?_⟩
    simp [render, text, mkTxt, reduce, nice, doc2print, blanks]
  · refine ⟨_, rfl, fun w r => ?_⟩
    simp [render, text, mkTxt, reduce, nestGo, nice, doc2print, blanks]

/-- C106, `sep` and `cat` of texts: they are put on one line if it is not
longer than the width and the ribbon, and one below the other otherwise. -/
theorem c106_fits (b : Bool) (s : List Char) (ss : List (List Char)) (hs : ss ≠ []) (w r : Int)
    (fin : List Char) :
    ∃ d, sepSpace b ((s :: ss).map text) = some d ∧
      render d w r fin = some (showL blanks
        (if ((s ++ (ss.map fun x => gap b ++ x).flatten).length : Int) ≤ min w r
          then [(0, s ++ (ss.map fun x => gap b ++ x).flatten)]
          else (s :: ss).map fun x => (0, x)) ++ fin) :=
  sep_fits b s ss hs w r fin

/-! ### The hypotheses can be met -/

/-- `hang (text "if") 4 (sep [text "a", text "b"]) $-$ text "end"`. -/
def hangExample : Expr :=
  .above (.hang (.text ['i', 'f']) 4
    (.sep true (.punctuate (.text [',']) (.cons (.text ['a']) (.cons (.text ['b']) .nil))))) false
    (.text ['e', 'n', 'd'])

example : hangExample.plus = false ∨ hangExample.usesVcat = false := .inl rfl
example : (hangExample.build.bind fun d => render d 80 80 ['\n'])
    = some (" if a, b\n end\n".toList) := by decide +kernel
example : (hangExample.build.bind fun d => render d 4 80 ['\n'])
    = some (" if  a,\n    b\n end\n".toList) := by decide +kernel
example : hangExample.words = "ifa,bend".toList := by decide +kernel
example : (sepSpace true ((["ab".toList, "c".toList]).map text)).bind (fun d => render d 4 80 [])
    = some (" ab c".toList) := by decide +kernel
example : (sepSpace true ((["ab".toList, "c".toList]).map text)).bind (fun d => render d 3 80 [])
    = some (" ab\n c".toList) := by decide +kernel
example : blanks 3 = "   ".toList := by decide +kernel

open Doc in
/-- C106, the test of a layout: it is taken if its first line, up to the end or the first new line, is not longer than
what is left. -/
theorem c106_first_line (ts : List (Int × List Char)) (h : ∀ t ∈ ts, 0 ≤ t.1) (m : Int) (tail : Doc)
    (ht : tail = nil ∨ ∃ p, tail = nilAbove p) :
    fits m (ts.foldr (fun t d => txt t.1 t.2 d) tail) = some (decide ((ts.map Prod.fst).sum ≤ m)) := by
  induction ts generalizing m with
  | nil =>
    have e : fits m tail = some (if m < 0 then false else true) := by
      rcases ht with rfl | ⟨p, rfl⟩ <;> rfl
    simp only [List.foldr_nil, List.map_nil, List.sum_nil, e, Option.some.injEq]
    by_cases hm : m < 0
    · rw [if_pos hm, eq_comm, decide_eq_false_iff_not]; omega
    · rw [if_neg hm, eq_comm, decide_eq_true_eq]; omega
  | cons t ts ih =>
    have h0 := h t (by simp)
    have hs : 0 ≤ (ts.map Prod.fst).sum := by
      have h' : ∀ x ∈ ts, 0 ≤ x.1 := fun x hx => h x (by simp [hx])
      clear ih h h0
      induction ts with
      | nil => simp
      | cons x ts ih =>
        have := h' x (by simp)
        have := ih fun y hy => h' y (by simp [hy])
        simp only [List.map_cons, List.sum_cons]
        omega
    rw [List.foldr_cons, fits, List.map_cons, List.sum_cons]
    by_cases hm : m < 0
    · rw [if_pos hm, Option.some.injEq, eq_comm, decide_eq_false_iff_not]; omega
    · rw [if_neg hm, ih (fun x hx => h x (by simp [hx]))]
      congr 2
      apply propext
      omega

open Doc in
example : fits 3 (txt 2 ['a', 'b'] (txt 2 ['c', 'd'] (nilAbove nil))) = some false ∧
    fits 4 (txt 2 ['a', 'b'] (txt 2 ['c', 'd'] (nilAbove nil))) = some true := by decide

end Voss.Pretty
