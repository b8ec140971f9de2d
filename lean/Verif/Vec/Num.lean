import Verif.Vec.Spec

/-! Reading back written numbers and ranges. -/
namespace Voss.Vec

theorem digits_isDigit (n : Nat) : ∀ c ∈ Nat.toDigits 10 n, c.isDigit = true := by
  intro c hc
  exact Nat.isDigit_of_mem_toDigits (by omega) (by omega) hc

theorem digits_ne (n : Nat) : Nat.toDigits 10 n ≠ [] := by
  intro h
  have := Nat.length_toDigits_pos (b := 10) (n := n)
  rw [h] at this
  simp at this

theorem takeWhile_digits {ds rest : List Char} (h : ∀ c ∈ ds, c.isDigit = true)
    (hr : ∀ c, rest.head? = some c → c.isDigit = false) :
    (ds ++ rest).takeWhile Char.isDigit = ds ∧ (ds ++ rest).dropWhile Char.isDigit = rest := by
  induction ds with
  | nil =>
    cases rest with
    | nil => simp
    | cons c cs => simp [hr c rfl]
  | cons d ds ih =>
    have hd := h d (by simp)
    obtain ⟨h1, h2⟩ := ih (fun c hc => h c (by simp [hc]))
    simp [hd, h1, h2]

theorem scanInt_minus (ds : List Char) : scanInt ('-' :: ds) =
    if isInt (-(Nat.ofDigitChars 10 (ds.takeWhile Char.isDigit) 0 : Nat)) then
      some (-((Nat.ofDigitChars 10 (ds.takeWhile Char.isDigit) 0 : Nat) : Int), ds.dropWhile Char.isDigit) else none := rfl

theorem scanInt_plain (d : Char) (ds : List Char) (h : d ≠ '-') : scanInt (d :: ds) =
    if isInt (Nat.ofDigitChars 10 ((d :: ds).takeWhile Char.isDigit) 0 : Nat) then
      some (((Nat.ofDigitChars 10 ((d :: ds).takeWhile Char.isDigit) 0 : Nat) : Int), (d :: ds).dropWhile Char.isDigit)
    else none := by
  unfold scanInt
  split
  · rename_i heq
    simp only [List.cons.injEq] at heq
    exact absurd heq.1 h
  · rfl

theorem scanInt_decimal {z : Int} {rest : List Char} (hz : isInt z = true)
    (hr : ∀ c, rest.head? = some c → c.isDigit = false) : scanInt (decimal z ++ rest) = some (z, rest) := by
  obtain ⟨h1, h2⟩ := takeWhile_digits (digits_isDigit z.natAbs) hr
  have h3 := Nat.ofDigitChars_toDigits (b := 10) (n := z.natAbs) (by omega) (by omega)
  by_cases hn : z < 0
  · have hz' : (-(z.natAbs : Int)) = z := by omega
    simp only [decimal, hn, if_true, List.cons_append, scanInt_minus, h1, h2, h3, hz', hz]
  · have hz' : (z.natAbs : Int) = z := by omega
    simp only [decimal, hn, if_false]
    obtain ⟨d, ds, hd⟩ : ∃ d ds, Nat.toDigits 10 z.natAbs = d :: ds := by
      cases h : Nat.toDigits 10 z.natAbs with
      | nil => exact absurd h (digits_ne _)
      | cons d ds => exact ⟨d, ds, rfl⟩
    have hdd : d ≠ '-' := by
      have := digits_isDigit z.natAbs d (by rw [hd]; simp)
      rintro rfl
      simp at this
    rw [hd] at h1 h2 h3 ⊢
    rw [List.cons_append] at h1 h2 ⊢
    rw [scanInt_plain d _ hdd, h1, h2, h3, hz', if_pos hz]

theorem decimal_digit (z : Int) : ∃ c cs, decimal z = c :: cs ∧ (c = '-' ∨ c.isDigit = true) := by
  unfold decimal
  split
  · exact ⟨_, _, rfl, .inl rfl⟩
  · cases h : Nat.toDigits 10 z.natAbs with
    | nil => exact absurd h (digits_ne _)
    | cons d ds => exact ⟨d, ds, rfl, .inr (digits_isDigit z.natAbs d (by rw [h]; simp))⟩

/-- The characters of numbers. -/
theorem decimal_chars (z : Int) : ∀ c ∈ decimal z, c = '-' ∨ c.isDigit = true := by
  intro c hc
  unfold decimal at hc
  split at hc
  · simp only [List.mem_cons] at hc
    rcases hc with rfl | hc
    · exact .inl rfl
    · exact .inr (digits_isDigit _ c hc)
  · exact .inr (digits_isDigit _ c hc)

theorem rngText_chars (r : Rng) : ∀ c ∈ r.text, c = '-' ∨ c.isDigit = true ∨ c = ':' := by
  intro c hc
  unfold Rng.text at hc
  split at hc
  · rcases decimal_chars _ c hc with h | h <;> simp [h]
  · simp only [List.mem_append, List.mem_cons] at hc
    rcases hc with hc | rfl | hc
    · rcases decimal_chars _ c hc with h | h <;> simp [h]
    · simp
    · rcases decimal_chars _ c hc with h | h <;> simp [h]

theorem rngsText_cons2 (r r' : Rng) (rs : List Rng) :
    rngsText (r :: r' :: rs) = r.text ++ ',' :: rngsText (r' :: rs) := rfl

theorem rngsText_chars : ∀ rs : List Rng, ∀ c ∈ rngsText rs, c = '-' ∨ c.isDigit = true ∨ c = ':' ∨ c = ','
  | [], c, hc => by simp [rngsText] at hc
  | [r], c, hc => by
    rcases rngText_chars r c hc with h | h | h <;> simp [h]
  | r :: r' :: rs, c, hc => by
    rw [rngsText_cons2] at hc
    simp only [List.mem_append, List.mem_cons] at hc
    rcases hc with hc | rfl | hc
    · rcases rngText_chars r c hc with h | h | h <;> simp [h]
    · simp
    · exact rngsText_chars (r' :: rs) c hc

theorem rngsText_noClose (rs : List Rng) : ∀ c ∈ rngsText rs, c ≠ ']' := by
  intro c hc h
  subst h
  rcases rngsText_chars rs _ hc with h | h | h | h <;> simp at h

theorem rngText_noComma (r : Rng) : ∀ c ∈ r.text, c ≠ ',' := by
  intro c hc h
  subst h
  rcases rngText_chars r _ hc with h | h | h <;> simp at h

/-! ### Validity -/

theorem valid_upper_digits (ds rest : List Char) (h : ∀ c ∈ ds, c.isDigit = true) :
    valid .upper (ds ++ rest) = valid .upper rest := by
  induction ds with
  | nil => rfl
  | cons d ds ih =>
    simp only [List.cons_append, valid, h d (by simp), if_true]
    exact ih (fun c hc => h c (by simp [hc]))

theorem valid_lower_digits (ds rest : List Char) (h : ∀ c ∈ ds, c.isDigit = true) :
    valid .lower (ds ++ rest) = valid .lower rest := by
  induction ds with
  | nil => rfl
  | cons d ds ih =>
    simp only [List.cons_append, valid, h d (by simp), if_true]
    exact ih (fun c hc => h c (by simp [hc]))

theorem digit_ne_minus {c : Char} (h : c.isDigit = true) : c ≠ '-' := by
  rintro rfl
  simp at h

theorem valid_item_decimal (z : Int) (rest : List Char) : valid .item (decimal z ++ rest) = valid .upper rest := by
  have hd := digits_isDigit z.natAbs
  cases h : Nat.toDigits 10 z.natAbs with
  | nil => exact absurd h (digits_ne _)
  | cons d ds =>
    rw [h] at hd
    have h0 := hd d (by simp)
    have h1 := valid_upper_digits ds rest (fun c hc => hd c (by simp [hc]))
    unfold decimal
    split
    · simp [h, valid, h0, h1]
    · simp [h, valid, h0, h1, digit_ne_minus h0]

theorem valid_colon_decimal (z : Int) (rest : List Char) : valid .colon (decimal z ++ rest) = valid .lower rest := by
  have hd := digits_isDigit z.natAbs
  cases h : Nat.toDigits 10 z.natAbs with
  | nil => exact absurd h (digits_ne _)
  | cons d ds =>
    rw [h] at hd
    have h0 := hd d (by simp)
    have h1 := valid_lower_digits ds rest (fun c hc => hd c (by simp [hc]))
    unfold decimal
    split
    · simp [h, valid, h0, h1]
    · simp [h, valid, h0, h1, digit_ne_minus h0]

theorem valid_rng_close (r : Rng) (t : List Char) : valid .item (r.text ++ ']' :: t) = true := by
  unfold Rng.text
  split
  · rw [valid_item_decimal]
    simp [valid]
  · rw [List.append_assoc, valid_item_decimal, List.cons_append]
    simp only [valid]
    simp [valid_colon_decimal, valid]

theorem valid_rng_comma (r : Rng) (t : List Char) : valid .item (r.text ++ ',' :: t) = valid .item t := by
  unfold Rng.text
  split
  · rw [valid_item_decimal]
    simp [valid]
  · rw [List.append_assoc, valid_item_decimal, List.cons_append]
    simp only [valid]
    simp [valid_colon_decimal, valid]

theorem valid_rngs : ∀ (rs : List Rng) (t : List Char), rs ≠ [] → valid .item (rngsText rs ++ ']' :: t) = true
  | [], _, h => absurd rfl h
  | [r], t, _ => valid_rng_close r t
  | r :: r' :: rs, t, _ => by
    rw [rngsText_cons2, List.append_assoc, List.cons_append, valid_rng_comma]
    exact valid_rngs (r' :: rs) t (by simp)

/-! ### Pieces -/

theorem pieces_ne (cs : List Char) : pieces cs ≠ [] := by
  cases cs with
  | nil => simp [pieces]
  | cons c cs =>
    simp only [pieces]
    split
    · simp
    · split <;> simp

theorem pieces_plain (s : List Char) (h : ∀ c ∈ s, c ≠ ',') : pieces s = [s] := by
  induction s with
  | nil => rfl
  | cons c cs ih =>
    simp only [pieces, h c (by simp), if_false, ih (fun c hc => h c (by simp [hc]))]

theorem pieces_comma (s t : List Char) (h : ∀ c ∈ s, c ≠ ',') : pieces (s ++ ',' :: t) = s :: pieces t := by
  induction s with
  | nil => simp [pieces]
  | cons c cs ih =>
    simp only [List.cons_append, pieces, h c (by simp), if_false, ih (fun c hc => h c (by simp [hc]))]

theorem scanRng_text (r : Rng) (hu : isInt r.up = true) (hl : isInt r.lo = true) : scanRng r.text = some r := by
  unfold Rng.text scanRng
  split
  · rename_i h
    have := scanInt_decimal (z := r.up) (rest := []) hu (by simp)
    simp only [List.append_nil] at this
    rw [this]
    cases r
    simp_all
  · have h1 := scanInt_decimal (z := r.up) (rest := ':' :: decimal r.lo) hu (by simp)
    have h2 := scanInt_decimal (z := r.lo) (rest := []) hl (by simp)
    simp only [List.append_nil] at h2
    rw [h1]
    simp [h2]

theorem scanAll_text : ∀ rs : List Rng, rs ≠ [] → (∀ r ∈ rs, isInt r.up = true ∧ isInt r.lo = true) →
    scanAll (pieces (rngsText rs)) = some rs
  | [], h, _ => absurd rfl h
  | [r], _, h => by
    obtain ⟨hu, hl⟩ := h r (by simp)
    rw [show rngsText [r] = r.text from rfl, pieces_plain _ (rngText_noComma r)]
    simp [scanAll, scanRng_text r hu hl]
  | r :: r' :: rs, _, h => by
    obtain ⟨hu, hl⟩ := h r (by simp)
    rw [rngsText_cons2, pieces_comma _ _ (rngText_noComma r)]
    simp [scanAll, scanRng_text r hu hl, scanAll_text (r' :: rs) (by simp) (fun x hx => h x (by simp_all))]

end Voss.Vec
