import Verif.Lex.Str

/-! # Lemmas on string literals -/

namespace Voss.Lex

theorem expand_plain {c : Char} (h : c ≠ '\\') (r : List Char) :
    expandString (c :: r) =
      (expandString r).map fun p => (c :: p.1, p.2 + if c = '\n' then 1 else 0) := by
  rw [expandString]
  · intro h1; exact absurd h1 h
  · intro _ _ h1; exact absurd h1 h

theorem body_plain {c : Char} (h : c ≠ '\\') (h2 : c ≠ '"') (r : List Char) :
    litBody (c :: r) = (litBody r).map fun p => (c :: p.1, p.2) := by
  rw [litBody, if_neg h2]
  · intro h1; exact absurd h1 h
  · intro _ _ h1; exact absurd h1 h

theorem body_quote (r : List Char) : litBody ('"' :: r) = some ([], r) := by
  rw [litBody, if_pos rfl] <;> simp

theorem merge_plain {c : Char} (h : c ≠ '\\') (h2 : c ≠ '"') (r : List Char) :
    mergeStrings false (c :: r) =
      (mergeStrings false r).map fun p => (c :: p.1, p.2 + if c = '\n' then 1 else 0) := by
  rw [mergeStrings]
  · intro h1; exact absurd h1 h
  · intro _ _ h1; exact absurd h1 h
  · intro _ h1; exact absurd h1 h2

theorem newlines_cons (c : Char) (l : List Char) :
    newlines (c :: l) = newlines l + if c = '\n' then 1 else 0 := by
  simp [newlines, List.count_cons]

theorem unesc_char {c : Char} (h1 : c ≠ 'n') (h2 : c ≠ 't') : unesc c = c := by
  unfold unesc
  by_cases h : c = '"' <;> simp [h1, h2, h]

theorem enc_expand {e s : List Char} (h : Enc e s) : expandString e = some (s, newlines e) := by
  induction h with
  | nil => rfl
  | plain c h1 h2 _ ih => rw [expand_plain h2, ih, newlines_cons]; rfl
  | newline _ ih => rw [expandString, ih]; simp [unesc, newlines_cons]
  | tab _ ih => rw [expandString, ih]; simp [unesc, newlines_cons]
  | char c h1 h2 h3 _ ih =>
    rw [expandString, ih]; simp [unesc_char h1 h2, newlines_cons, h3]

theorem enc_body {e s : List Char} (h : Enc e s) (r : List Char) :
    litBody (e ++ '"' :: r) = some (e, r) := by
  induction h with
  | nil => exact body_quote r
  | plain c h1 h2 _ ih => rw [List.cons_append, body_plain h2 h1, ih]; rfl
  | newline _ ih => rw [List.cons_append, List.cons_append, litBody, ih]; simp
  | tab _ ih => rw [List.cons_append, List.cons_append, litBody, ih]; simp
  | char c h1 h2 h3 _ ih =>
    rw [List.cons_append, List.cons_append, litBody, ih]; simp [h3]

theorem enc_merge {e s : List Char} (h : Enc e s) (k : List Char) :
    mergeStrings false (e ++ k) =
      (mergeStrings false k).map fun p => (s ++ p.1, newlines e + p.2) := by
  induction h with
  | nil => simp [newlines]
  | plain c h1 h2 _ ih =>
    rw [List.cons_append, merge_plain h2 h1, ih, newlines_cons, Option.map_map]
    congr 1; funext p
    simp only [Function.comp, List.cons_append, Prod.mk.injEq, true_and]; omega
  | newline _ ih =>
    rw [List.cons_append, List.cons_append, mergeStrings, ih, Option.map_map]
    simp [unesc, newlines_cons, Function.comp_def]
  | tab _ ih =>
    rw [List.cons_append, List.cons_append, mergeStrings, ih, Option.map_map]
    simp [unesc, newlines_cons, Function.comp_def]
  | char c h1 h2 h3 _ ih =>
    rw [List.cons_append, List.cons_append, mergeStrings, ih, Option.map_map]
    congr 1; funext p; simp [unesc_char h1 h2, newlines_cons, h3]

/-- The text of the further parts as the rules match it. -/
def rawMore : List Part → List Char
  | [] => []
  | (w, e) :: ps => '"' :: '\\' :: '\n' :: w ++ '"' :: e ++ rawMore ps

/-- The newlines inside of the quotes of the parts. -/
def partLines : List Part → Nat
  | [] => 0
  | (_, e) :: ps => newlines e + partLines ps

theorem merge_white {w : List Char} (hw : ∀ c ∈ w, isWhite c = true) (k : List Char) :
    mergeStrings true (w ++ '"' :: k) = mergeStrings false k := by
  induction w with
  | nil => simp [mergeStrings]
  | cons c w ih =>
    have hc : c ≠ '"' := by
      intro h; have := hw c (by simp); rw [h] at this; exact absurd this (by decide)
    rw [List.cons_append, mergeStrings, if_neg hc]
    exact ih fun c h => hw c (by simp [h])

theorem merge_raw {ps : List Part} {t : List Char} (h : Says ps t) :
    mergeStrings false (rawMore ps) = some (t, partLines ps) := by
  induction h with
  | nil => rfl
  | @cons w e s ps t hw he _ ih =>
    have e1 : rawMore ((w, e) :: ps) =
        '"' :: '\\' :: '\n' :: (w ++ '"' :: (e ++ rawMore ps)) := by simp [rawMore]
    rw [e1, mergeStrings, merge_white hw, enc_merge he, ih]
    rfl

theorem drop_white {w : List Char} (hw : ∀ c ∈ w, isWhite c = true) (k : List Char) :
    (w ++ '"' :: k).dropWhile isWhite = '"' :: k ∧ (w ++ '"' :: k).takeWhile isWhite = w := by
  induction w with
  | nil => constructor <;> simp [isWhite]
  | cons c w ih =>
    have hc := hw c (by simp)
    obtain ⟨h1, h2⟩ := ih fun c h => hw c (by simp [h])
    constructor
    · rw [List.cons_append, List.dropWhile_cons, if_pos hc, h1]
    · rw [List.cons_append, List.takeWhile_cons, if_pos hc, h2]

theorem more_end (fuel : Nat) {rest : List Char} (h : ends rest) :
    litMore fuel rest = ([], rest) := by
  unfold litMore
  split
  · rfl
  · exact absurd rfl (h _)
  · rfl

theorem more_parts {ps : List Part} {t : List Char} (h : Says ps t) {rest : List Char}
    (hr : ends rest) : ∀ fuel, ps.length ≤ fuel →
    litMore fuel (writeMore ps ++ rest) = (rawMore ps, rest) := by
  induction h with
  | nil => intro fuel _; exact more_end fuel hr
  | @cons w e s ps t hw he _ ih =>
    intro fuel hf
    cases fuel with
    | zero => simp at hf
    | succ fuel =>
      have e1 : writeMore ((w, e) :: ps) ++ rest =
          '\\' :: '\n' :: (w ++ '"' :: (e ++ '"' :: (writeMore ps ++ rest))) := by
        simp [writeMore]
      rw [e1, litMore, (drop_white hw _).1, (drop_white hw _).2]
      simp only [enc_body he, ih fuel (by simpa using hf)]
      simp [rawMore]

theorem parts_length (ps : List Part) : ps.length ≤ (writeMore ps).length := by
  induction ps with
  | nil => simp
  | cons p ps ih =>
    obtain ⟨w, e⟩ := p
    simp only [writeMore, List.length_cons, List.length_append, List.cons_append]
    omega

theorem raw_nil {ps : List Part} : rawMore ps = [] ↔ ps = [] := by
  cases ps with
  | nil => simp [rawMore]
  | cons p ps => obtain ⟨w, e⟩ := p; simp [rawMore]

theorem read_parts {e s : List Char} (he : Enc e s) {ps : List Part} {t : List Char}
    (h : Says ps t) :
    (if rawMore ps = [] then expandString e else mergeStrings false (e ++ rawMore ps)) =
      some (s ++ t, newlines e + partLines ps) := by
  split
  · rename_i h0
    rw [raw_nil] at h0
    subst h0
    cases h
    simp [enc_expand he, partLines]
  · rw [enc_merge he, merge_raw h]; rfl

/-! ## The other direction -/

theorem enc_exists_of_body (inp : List Char) : ∀ b rest, litBody inp = some (b, rest) →
    inp = b ++ '"' :: rest ∧ ∃ s, Enc b s := by
  induction inp using litBody.induct with
  | case1 => intro b rest h; simp [litBody] at h
  | case2 => intro b rest h; simp [litBody] at h
  | case3 r => intro b rest h; simp [litBody] at h
  | case4 c r hc ih =>
    intro b rest h
    rw [litBody, if_neg hc] at h
    obtain ⟨⟨b', r'⟩, h1, h2⟩ := Option.map_eq_some_iff.mp h
    cases h2
    obtain ⟨h3, s, h4⟩ := ih _ _ h1
    refine ⟨by rw [h3]; rfl, ?_⟩
    by_cases hn : c = 'n'
    · subst hn; exact ⟨_, .newline h4⟩
    · by_cases ht : c = 't'
      · subst ht; exact ⟨_, .tab h4⟩
      · exact ⟨_, .char c hn ht hc h4⟩
  | case5 r h1 h2 =>
    intro b rest h
    rw [body_quote] at h
    cases h
    exact ⟨rfl, [], .nil⟩
  | case6 c r h1 h2 hq ih =>
    intro b rest h
    have hb : c ≠ '\\' := by
      intro hb
      cases r with
      | nil => exact h1 hb rfl
      | cons d r => exact h2 d r hb rfl
    rw [body_plain hb hq] at h
    obtain ⟨⟨b', r'⟩, g1, g2⟩ := Option.map_eq_some_iff.mp h
    cases g2
    obtain ⟨h3, s, h4⟩ := ih _ _ g1
    exact ⟨by rw [h3]; rfl, _, .plain c hq hb h4⟩

theorem takeWhile_all (l : List Char) : ∀ c ∈ l.takeWhile isWhite, isWhite c = true := by
  induction l with
  | nil => simp
  | cons d l ih =>
    rw [List.takeWhile_cons]
    split
    · rename_i hd
      intro c hc
      rcases List.mem_cons.mp hc with h | h
      · rw [h]; exact hd
      · exact ih c h
    · simp

theorem says_exists_of_more (fuel : Nat) : ∀ inp, ∃ ps t, Says ps t ∧
    (litMore fuel inp).1 = rawMore ps ∧ inp = writeMore ps ++ (litMore fuel inp).2 := by
  induction fuel with
  | zero => intro inp; exact ⟨[], [], .nil, rfl, rfl⟩
  | succ fuel ih =>
    intro inp
    by_cases hi : ∃ r, inp = '\\' :: '\n' :: r
    · obtain ⟨r, rfl⟩ := hi
      rw [litMore]
      split
      · rename_i r' hd
        split
        · rename_i b rest hb
          obtain ⟨ps, t, h1, h2, h3⟩ := ih rest
          obtain ⟨g1, s, g2⟩ := enc_exists_of_body _ _ _ hb
          refine ⟨(r.takeWhile isWhite, b) :: ps, s ++ t, .cons (takeWhile_all r) g2 h1, ?_, ?_⟩
          · simp only [rawMore, h2]
          · have e1 : r.takeWhile isWhite ++ '"' :: r' = r := by
              rw [← hd]; exact List.takeWhile_append_dropWhile
            simp only [writeMore, List.cons_append, List.append_assoc]
            rw [← h3, ← g1, e1]
        · exact ⟨[], [], .nil, rfl, rfl⟩
      · exact ⟨[], [], .nil, rfl, rfl⟩
    · refine ⟨[], [], .nil, ?_, ?_⟩ <;> rw [more_end _ fun r h => hi ⟨r, h⟩] <;> rfl

end Voss.Lex
