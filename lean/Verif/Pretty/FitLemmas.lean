import Verif.Pretty.OutLemmas

namespace Voss.Pretty
open Doc

/-! ### Texts that are separated by `sep` or `cat` -/

/-- The texts after the first one, on one line. -/
def flat (b : Bool) (ss : List (List Char)) : List Char := (ss.map fun s => gap b ++ s).flatten

def H (b : Bool) : List (List Char) → Doc
  | [] => nil
  | s :: ss => txt s.length s (besideNil b (H b ss))

theorem H_hcat (b : Bool) : ∀ ss : List (List Char),
    ∃ c, horizontalReduce ((ss.map text).foldr (fun p q => beside p b q) nil) = (false, c) ∧
      reduce c = some (H b ss)
  | [] => ⟨nil, rfl, rfl⟩
  | s :: ss => by
    obtain ⟨c, h1, h2⟩ := H_hcat b ss
    refine ⟨beside (text s) b c, ?_, ?_⟩
    · simp only [List.map_cons, List.foldr, horizontalReduce, h1]
      rfl
    · simp [reduce, h2, text, mkTxt, besideRed, besideN, H]

theorem Y_cons (b : Bool) (s : List Char) (ss : List (List Char)) :
    besideNil b (H b (s :: ss)) = (if b then txt 1 [' '] else id)
      (txt s.length s (besideNil b (H b ss))) := by
  cases b <;> rfl

theorem fits_txt (m : Int) (s : List Char) (p : Doc) (n : Nat)
    (h : ∀ m : Int, fits m p = some (decide ((n : Int) ≤ m))) :
    fits m (txt s.length s p) = some (decide (((s.length + n : Nat) : Int) ≤ m)) := by
  rw [fits]
  by_cases hm : m < 0
  · rw [if_pos hm]
    congr 1
    symm
    rw [decide_eq_false_iff_not]
    omega
  · rw [if_neg hm, h]
    congr 1
    rw [decide_eq_decide]
    omega

theorem Y_spec (b : Bool) (r : Int) : ∀ ss : List (List Char),
    oneLine (besideNil b (H b ss)) = some (besideNil b (H b ss)) ∧
    (∀ c w, nice r (some c) w (besideNil b (H b ss)) = some (besideNil b (H b ss))) ∧
    (∀ m : Int, fits m (besideNil b (H b ss)) = some (decide (((flat b ss).length : Int) ≤ m))) ∧
    (∀ l, D (besideNil b (H b ss)) l → l = [(0, flat b ss)]) ∧
    Ok (some false) (besideNil b (H b ss)) ∧ NU (besideNil b (H b ss))
  | [] => by
    refine ⟨by cases b <;> rfl, by intro c w; cases b <;> simp [H, besideNil, nice], ?_, ?_, ?_, ?_⟩
    · intro m
      have e : besideNil b (H b []) = nil := by cases b <;> rfl
      rw [e, fits]
      congr 1
      by_cases hm : m < 0
      · rw [if_pos hm]; symm; rw [decide_eq_false_iff_not]; simp [flat]; omega
      · rw [if_neg hm]; symm; rw [decide_eq_true_iff]; simp [flat]; omega
    · intro l hl
      have e : besideNil b (H b []) = nil := by cases b <;> rfl
      rw [e] at hl
      exact hl
    · cases b <;> exact trivial
    · cases b <;> exact trivial
  | s :: ss => by
    obtain ⟨h1, h2, h3, h4, h5, h6⟩ := Y_spec b r ss
    rw [Y_cons]
    have hD : ∀ l, D (txt s.length s (besideNil b (H b ss))) l → l = [(0, s ++ flat b ss)] := by
      rintro l ⟨m, hm, rfl⟩
      rw [h4 m hm]; rfl
    cases b with
    | false =>
      refine ⟨?_, ?_, ?_, ?_, ⟨rfl, h5⟩, h6⟩
      · simp [oneLine, h1]
      · intro c w; simp [nice, h2]
      · intro m
        refine Eq.trans (fits_txt m s _ _ h3) ?_
        simp [flat, gap]
      · intro l hl
        rw [hD l hl]
        simp [flat, gap]
    | true =>
      refine ⟨?_, ?_, ?_, ?_, ⟨rfl, rfl, h5⟩, h6⟩
      · simp [oneLine, h1]
      · intro c w; simp [nice, h2]
      · intro m
        refine Eq.trans (fits_txt m [' '] _ _ (fun m' => fits_txt m' s _ _ h3)) ?_
        congr 2
        simp [flat, gap]
        congr 1
        omega
      · rintro l ⟨m, hm, rfl⟩
        rw [hD m hm]
        simp [flat, gap, pre, shift_nil]

theorem texts_inv [Mode] {v : Bool} (ss : List (List Char)) : ∀ d ∈ ss.map text, Inv v d := by
  intro d hd
  obtain ⟨s, -, rfl⟩ := List.mem_map.1 hd
  exact Inv_R (.inr ⟨rfl, trivial⟩)

theorem texts_DU [Mode] : ∀ (ss : List (List Char)) (ls : List Layout), DUs (ss.map text) ls →
    vcatL ls = ss.map fun s => (0, s)
  | [], _, h => by
    have h : _ = [] := h
    subst h; rfl
  | s :: ss, _, ⟨l, ls, h1, h2, rfl⟩ => by
    have h3 := texts_DU ss ls h2
    have h : Ok none (text s) := ⟨rfl, trivial⟩
    obtain ⟨m, hm, rfl⟩ := DR_D (((R_facts (.inr h)).2.1 l).1 h1) (Ok_ne h)
    have hm : m = [(0, [])] := hm
    subst hm
    show aboveL false (pre s.length s [(0, [])]) (vcatL ls) = _
    rw [h3]
    cases ss with
    | nil => simp [pre, shift_nil, aboveL]
    | cons s' ss => simp [pre, shift_nil, aboveL]

theorem sep_fits (b : Bool) (s : List Char) (ss : List (List Char)) (hs : ss ≠ []) (w r : Int) (fin : List Char) :
    ∃ d, sepSpace b ((s :: ss).map text) = some d ∧
      render d w r fin = some (showL blanks
        (if ((s ++ flat b ss).length : Int) ≤ min w r then [(0, s ++ flat b ss)]
          else (s :: ss).map fun x => (0, x)) ++ fin) := by
  letI : Mode := ⟨false⟩
  obtain ⟨c, c1, c2⟩ := H_hcat b ss
  obtain ⟨y1, y2, y3, y4, y5, y6⟩ := Y_spec b r ss
  obtain ⟨u, u1, u2, -, -, u4⟩ := vcat_spec (v := true) (texts_inv ss)
  obtain ⟨⟨W, w1, w2, w3⟩, -, -⟩ := red_spec u2
  obtain ⟨z, z1, z2, z3, z4⟩ := aboveNil_spec (e := false) false (0 - s.length) w2
  obtain ⟨z', n1, n2, n3, n4⟩ := nice_inner r s.length w z2
  have hy : besideNil b (H b ss) ≠ nil := by
    cases ss with
    | nil => exact absurd rfl hs
    | cons a as => rw [Y_cons]; cases b <;> simp
  have hj : join (besideNil b (H b ss)) z = union (besideNil b (H b ss)) z := by
    rw [join]; exact hy
  refine ⟨txt s.length s (union (besideNil b (H b ss)) z), ?_, ?_⟩
  · simp only [List.map_cons, sepSpace, text, mkTxt, reduce, Option.bind_some, sepLine, if_true, sepEnd]
    simp only [hcat, vcat, c1, c2, Option.bind_some, y1, u1, w1, z1, Option.map_some, hj]
  · have hr : reduce (txt s.length s (union (besideNil b (H b ss)) z))
        = some (txt s.length s (union (besideNil b (H b ss)) z)) := rfl
    have hn : nice r none w (txt s.length s (union (besideNil b (H b ss)) z))
        = some (txt s.length s
            (if ((flat b ss).length : Int) ≤ min w r - s.length then besideNil b (H b ss) else z')) := by
      simp only [nice, y2, n1, Option.bind_some, nicestL, y3, Option.map_some, decide_eq_true_eq]
    have hc : (((s ++ flat b ss).length : Int) ≤ min w r) ↔
        ((flat b ss).length : Int) ≤ min w r - s.length := by
      rw [List.length_append]; omega
    simp only [render, hr, hn, Option.bind_some]
    by_cases h : ((flat b ss).length : Int) ≤ min w r - s.length
    · rw [if_pos h, if_pos (hc.2 h)]
      obtain ⟨l, ⟨m, hm, hl⟩, h2⟩ := print_line fin (d := txt s.length s (besideNil b (H b ss))) 0
        ⟨rfl, y5⟩ y6
      rw [h2, shift_zero, hl, y4 m hm]
      rfl
    · rw [if_neg h, if_neg (fun h' => h (hc.1 h'))]
      obtain ⟨l, ⟨m, hm, hl⟩, h2⟩ := print_line fin (d := txt s.length s z') 0 ⟨rfl, n2⟩ n3
      obtain ⟨lq, g3, g4⟩ := z4 m (n4 m hm)
      obtain ⟨ls, g5, g6⟩ := u4 lq (w3 lq g3)
      rw [h2, shift_zero, hl, g4 s, g6, texts_DU ss ls g5]
      congr 3
      cases ss with
      | nil => exact absurd rfl hs
      | cons s' ss =>
        rw [show (0 : Int) - s.length + s.length = 0 by omega, shift_zero]
        simp [aboveL]

end Voss.Pretty
