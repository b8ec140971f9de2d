import Verif.Txt.Lemmas
/-
C74: the builtin functions on strings compute what their names say.
-/
namespace Voss.Txt

theorem withInt_of {α : Type} {n : Int} (h0 : -2147483648 ≤ n) (h1 : n < 2147483648) (f : Int → Res α) : withInt n f = f n := by
  unfold withInt
  rw [Lst.getInt_of ⟨h0, h1⟩]

/-- C74: `str_is_prefix`, `str_is_suffix`, `str_is_substr` and `strlen`. -/
theorem c74_tests (x s : List Char) :
    (isPrefix x s = true ↔ ∃ b, s = x ++ b) ∧ (isSuffix x s = true ↔ ∃ a, s = a ++ x) ∧
    (isSubstr x s = true ↔ ∃ a b, s = a ++ x ++ b) ∧ strlen s = s.length := by
  refine ⟨?_, ?_, ?_, rfl⟩
  · unfold isPrefix
    rw [beq_iff_eq, strncmp_eq]
    exact ⟨fun ⟨b, h⟩ => ⟨b, h.symm⟩, fun ⟨b, h⟩ => ⟨b, h.symm⟩⟩
  · unfold isSuffix
    rw [Bool.and_eq_true, decide_eq_true_eq, beq_iff_eq, strcmp_eq]
    constructor
    · rintro ⟨-, h⟩
      refine ⟨s.take (s.length - x.length), ?_⟩
      have := List.take_append_drop (s.length - x.length) s
      rw [h] at this
      exact this.symm
    · rintro ⟨a, rfl⟩
      simp
  · unfold isSubstr
    rw [← Option.isNone_eq_false_iff]
    cases h : strstr s x with
    | none =>
      have := strstr_none.1 h
      simp only [Option.isNone_none, Bool.true_eq_false, false_iff]
      rintro ⟨a, b, e⟩
      exact this ⟨_, a, b, e, rfl⟩
    | some i =>
      obtain ⟨⟨a, b, e, -⟩, -⟩ := strstr_some h
      simp only [Option.isNone_some, true_iff]
      exact ⟨a, b, e⟩

/-- C74: `strcmp` is 0 exactly for equal strings, and otherwise negative exactly if the first string is a beginning of
the second or has the smaller character where they first differ. -/
theorem c74_strcmp (s t : List Char) :
    (strcmp s t = .eq ↔ s = t) ∧ strcmp t s = (strcmp s t).swap ∧
    (strcmp s t = .lt ↔
      (∃ x, x ≠ [] ∧ t = s ++ x) ∨ ∃ p a b s' t', s = p ++ a :: s' ∧ t = p ++ b :: t' ∧ a.toNat < b.toNat) :=
  ⟨strcmp_eq, strcmp_swap s t, strcmp_lt_iff⟩

example : strcmp "ab".toList "b".toList = .lt ∧ strcmp "a".toList "ab".toList = .lt := by decide +kernel

/-- C74: `strstr` is the position of the first occurrence, the first character having position 1; it is 0 if there is
none. -/
theorem c74_strstr (s x : List Char) :
    (strstr1 s x = 0 ↔ ¬ Occurs x s) ∧
    ∀ i : Nat, strstr1 s x = i + 1 ↔ At x s i ∧ ∀ j, At x s j → i ≤ j := by
  unfold strstr1
  cases h : strstr s x with
  | none =>
    refine ⟨⟨fun _ => strstr_none.1 h, fun _ => rfl⟩, fun i => ?_⟩
    constructor
    · intro e; simp at e; omega
    · rintro ⟨h1, -⟩; exact absurd ⟨i, h1⟩ (strstr_none.1 h)
  | some k =>
    refine ⟨⟨fun e => by simp at e; omega, fun e => absurd ⟨k, (strstr_some h).1⟩ e⟩, fun i => ?_⟩
    rw [← strstr_iff, h]
    simp
    omega

example : strstr1 "abcbc".toList "bc".toList = 2 := by decide +kernel

/-- C74: the pieces of `str_split`, with the separator between them, are the string; the separator is looked for from
the left; these two things determine the pieces.  An empty separator gives the characters. -/
theorem c74_split_partial (s sep : List Char) :
    (sep = [] → split s sep = s.map ([·])) ∧
    (sep ≠ [] → s ≠ [] → join sep (split s sep) = s ∧ Pieces sep (split s sep) ∧ split s sep ≠ [] ∧
      ∀ l, l ≠ [] → join sep l = s → Pieces sep l → split s sep = l) := by
  constructor
  · rintro rfl; rfl
  · intro h hs
    unfold split
    rw [if_neg (fun e => h (List.length_eq_zero_iff.1 e))]
    obtain ⟨h1, h2, h3⟩ := splitLoop_spec h (s.length + 1) s false (by omega)
    have hne : splitLoop sep (s.length + 1) s false ≠ [] := fun e => hs (h3.1 e).1
    exact ⟨h1, h2, hne, fun l hl hj hp => pieces_unique h _ _ hne hl h2 hp (h1.trans hj.symm)⟩

example : split "a, b,, c".toList ", ".toList = ["a".toList, "b,".toList, "c".toList] := by decide +kernel

/-- Pieces without the separator character are found again. -/
theorem c74_split_join (c : Char) (l : List (List Char)) (hl : l ≠ []) (h : ∀ p ∈ l, c ∉ p) (hne : l ≠ [[]]) :
    split (join [c] l) [c] = l := by
  have hp : Pieces [c] l := by
    clear hl hne
    have occ : ∀ (p q : List Char) i, c ∉ p → At [c] (p ++ q) i → p.length ≤ i := by
      rintro p q i hp ⟨a, b, e, rfl⟩
      rcases Nat.lt_or_ge a.length p.length with hlt | hge
      · exfalso
        apply hp
        have e1 : (p ++ q)[a.length]? = some c := by rw [e]; simp
        rw [List.getElem?_append_left hlt] at e1
        exact List.mem_of_getElem? e1
      · exact hge
    induction l with
    | nil => trivial
    | cons p ps ih =>
      cases ps with
      | nil =>
        rintro ⟨i, hi⟩
        have h1 := at_le hi
        have := occ p [] i (h p (by simp)) (by simpa using hi)
        simp at h1
        omega
      | cons q ps =>
        exact ⟨fun i hi => occ p [c] i (h p (by simp)) hi, ih (fun x hx => h x (by simp [hx]))⟩
  have hs : join [c] l ≠ [] := by
    intro e
    cases l with
    | nil => simp at hl
    | cons p ps =>
      cases ps with
      | nil => simp [join] at e; exact hne (by rw [e])
      | cons q ps => simp [join] at e
  exact ((c74_split_partial _ [c]).2 (by simp) hs).2.2.2 l hl rfl hp

example : split "a,b,,c".toList ",".toList = ["a".toList, "b".toList, [], "c".toList] := by decide +kernel

/-- C74 is violated: splitting the empty string gives no piece, while splitting a string that is just a separator gives
two empty ones; so the list with one empty piece is never a result. -/
theorem c74_split_violated (sep : List Char) (h : sep ≠ []) : split [] sep = [] ∧ split sep sep = [[], []] ∧
    join sep [[]] = [] ∧ Pieces sep [[]] := by
  refine ⟨?_, ?_, rfl, ?_⟩
  · unfold split
    rw [if_neg (fun e => h (List.length_eq_zero_iff.1 e))]
    exact ((splitLoop_spec h 1 [] false (by simp)).2.2).2 ⟨rfl, rfl⟩
  · refine ((c74_split_partial sep sep).2 h h).2.2.2 [[], []] (by simp) (by simp [join]) ?_
    refine ⟨fun i _ => by simp, ?_⟩
    rintro ⟨i, hi⟩
    exact h (at_nil.1 hi).1
  · rintro ⟨i, hi⟩
    exact h (at_nil.1 hi).1

/-- C74: `string_lastn`, `string_butlastn` and `string_butfirstn`.  The first two take a number that is too large for
the length, the third fails. -/
theorem c74_ends_partial (s : List Char) (n : Int) (h0 : 0 ≤ n) (h1 : n < 2147483648) (hs : s.length ≤ 130000) :
    (∃ r, lastn s n = .ok r ∧ (∃ a, s = a ++ r) ∧ (r.length : Int) = min n s.length) ∧
    (∃ r, butlastn s n = .ok r ∧ (∃ b, s = r ++ b ∧ (b.length : Int) = min n s.length)) ∧
    (n ≤ s.length → ∃ r, butfirstn s n = .ok r ∧ (∃ a, s = a ++ r ∧ (a.length : Int) = n)) ∧
    (s.length < n → butfirstn s n = .fail) := by
  unfold lastn butlastn butfirstn
  simp only [withInt_of (show -2147483648 ≤ n by omega) h1]
  refine ⟨?_, ?_, ?_, ?_⟩
  · split
    · exact ⟨s, rfl, ⟨[], rfl⟩, by omega⟩
    · rw [if_neg (by omega)]
      refine ⟨_, rfl, ⟨s.take (s.length - n.toNat), by simp⟩, ?_⟩
      rw [List.length_drop]; omega
  · split
    · exact ⟨[], rfl, s, rfl, by omega⟩
    · rw [if_neg (by unfold blockSize; omega)]
      refine ⟨_, rfl, s.drop (s.length - n).toNat, by simp, ?_⟩
      rw [List.length_drop]; omega
  · intro h
    rw [if_neg (by omega), if_neg (by omega)]
    refine ⟨_, rfl, s.take n.toNat, by simp, ?_⟩
    rw [List.length_take]; omega
  · intro h
    rw [if_pos h]

example : lastn "abc".toList 2 = .ok "bc".toList ∧ butlastn "abc".toList 2 = .ok "a".toList ∧
    butfirstn "abc".toList 2 = .ok "c".toList ∧ lastn "abc".toList 5 = .ok "abc".toList := by decide +kernel

/-- C74 is violated: negative numbers are not rejected.  `string_lastn` and `string_butfirstn` read outside the string,
whatever the string; `string_butlastn` writes a zero behind its buffer if the number is large, and gives the string itself
otherwise.  A number is cut to 32 bits. -/
theorem c74_negative_violated (s : List Char) (n : Int) (h0 : n < 0) (h1 : -2147483648 ≤ n) :
    lastn s n = .ub ∧ butfirstn s n = .ub ∧
    (n < -130000 → butlastn s n = .ub) ∧ (s.length - n ≤ 130000 → butlastn s n = .ok s) := by
  unfold lastn butlastn butfirstn
  simp only [withInt_of h1 (show n < 2147483648 by omega)]
  refine ⟨?_, ?_, ?_, ?_⟩
  · rw [if_neg (by omega), if_pos h0]
  · rw [if_neg (by omega), if_pos h0]
  · intro h
    rw [if_neg (by omega), if_pos (by unfold blockSize; omega)]
  · intro h
    rw [if_neg (by omega), if_neg (by unfold blockSize; omega), List.take_of_length_le (by omega)]

theorem c74_wide_violated : lastn "abc".toList 4294967297 = .ok "c".toList ∧ lastn "abc".toList (2 ^ 64) = .ub := by
  decide +kernel

/-- C74: `substr s loc cnt` is the `cnt` characters from position `loc` (counted from 1), the rest of the string if
`cnt` is negative, and empty if `loc` is behind the end; it fails for a position before the beginning, and if
there are not enough characters. -/
theorem c74_substr_partial (s : List Char) (loc cnt : Int) (hl : -2147483648 ≤ loc) (hl' : loc < 2147483648)
    (hc : -2147483648 ≤ cnt) (hc' : cnt < 2147483648) (ho : loc ≤ s.length → loc + cnt < 2147483648) :
    (loc < 1 → substr s loc cnt = .fail) ∧
    (s.length < loc → 1 ≤ loc → substr s loc cnt = .ok []) ∧
    (∀ a b, s = a ++ b → (a.length : Int) + 1 = loc → b ≠ [] → cnt < 0 → substr s loc cnt = .ok b) ∧
    (∀ a r b, s = a ++ r ++ b → (a.length : Int) + 1 = loc → r ++ b ≠ [] → (r.length : Int) = cnt → substr s loc cnt = .ok r) ∧
    (1 ≤ loc → loc ≤ s.length → s.length < loc + cnt - 1 → substr s loc cnt = .fail) := by
  unfold substr
  rw [withInt_of hl hl']
  simp only [withInt_of hc hc']
  refine ⟨?_, ?_, ?_, ?_, ?_⟩
  · intro h; rw [if_pos h]
  · intro h h'; rw [if_neg (by omega), if_pos (by omega)]
  · rintro a b rfl ha hb hn
    have := List.length_pos_iff.2 hb
    rw [if_neg (by omega), if_neg (by simp; omega), if_pos hn]
    have : (loc - 1).toNat = a.length := by omega
    rw [this]
    simp
  · rintro a r b rfl ha hb hr
    have := List.length_pos_iff.2 hb
    simp only [List.length_append] at this ho ⊢
    rw [if_neg (by omega), if_neg (by omega), if_neg (by omega), if_neg (by omega), if_neg (by omega)]
    have e : (loc - 1).toNat = a.length := by omega
    have e' : cnt.toNat = r.length := by omega
    rw [e, e', List.append_assoc]
    simp
  · intro h1 h2 h3
    have := ho h2
    rw [if_neg (by omega), if_neg (by omega), if_neg (by omega), if_neg (by omega), if_pos (by omega)]

example : substr "abcde".toList 2 3 = .ok "bcd".toList ∧ substr "abcde".toList 2 (-1) = .ok "bcde".toList ∧
    substr "abcde".toList 4 3 = .fail := by decide +kernel

/-- C74 is violated: the test that there are enough characters overflows. -/
theorem c74_substr_violated : substr "ab".toList 1 2147483647 = .ub := by decide +kernel

theorem isspace_iff (c : Char) : isspace c = true ↔ Blank c := by
  unfold isspace Blank
  have key : ∀ d : Char, c.toNat = d.toNat ↔ c = d := fun d => ⟨toNat_inj, fun h => h ▸ rfl⟩
  simp only [Bool.or_eq_true, beq_iff_eq, Bool.and_eq_true, decide_eq_true_eq, List.mem_cons, List.not_mem_nil, or_false,
    ← key]
  have e1 : ' '.toNat = 32 := rfl
  have e2 : '\t'.toNat = 9 := rfl
  have e3 : '\n'.toNat = 10 := rfl
  have e4 : '\x0b'.toNat = 11 := rfl
  have e5 : '\x0c'.toNat = 12 := rfl
  have e6 : '\r'.toNat = 13 := rfl
  rw [e1, e2, e3, e4, e5, e6]
  omega

theorem trim_spec (s : List Char) :
    ∃ a b, s = a ++ trim s ++ b ∧ (∀ c ∈ a ++ b, isspace c = true) ∧
    (∀ c t, trim s = c :: t → isspace c = false) ∧ (∀ c t, trim s = t ++ [c] → isspace c = false) := by
  have hspl : s = s.takeWhile isspace ++ s.dropWhile isspace := List.takeWhile_append_dropWhile.symm
  have ha : ∀ c ∈ s.takeWhile isspace, isspace c = true := by
    have := List.all_takeWhile (p := isspace) (l := s)
    rw [List.all_eq_true] at this
    exact this
  unfold trim
  cases hd : s.dropWhile isspace with
  | nil =>
    rw [hd, List.append_nil] at hspl
    exact ⟨s.takeWhile isspace, [], by simpa using hspl, by simpa using ha, by simp, by simp⟩
  | cons c t =>
    have hc : isspace c = false := by
      have := List.head?_dropWhile_not isspace s
      rw [hd] at this
      simpa using this
    obtain ⟨b, h1, h2, d, t', h3, h4⟩ := trimBack_spec (c :: t).reverse ⟨c, by simp, hc⟩
    have h5 : c :: t = (trimBack (c :: t).reverse).reverse ++ b.reverse := by
      rw [← List.reverse_append, ← h1, List.reverse_reverse]
    refine ⟨s.takeWhile isspace, b.reverse, ?_, ?_, ?_, ?_⟩
    · rw [List.append_assoc, ← h5, ← hd]; exact hspl
    · intro x hx
      rcases List.mem_append.1 hx with hx | hx
      · exact ha x hx
      · exact h2 x (List.mem_reverse.1 hx)
    · intro x u hx
      have hx' : (trimBack (c :: t).reverse).reverse = x :: u := hx
      rw [hx'] at h5
      simp only [List.cons_append, List.cons.injEq] at h5
      rw [← h5.1]; exact hc
    · intro x u hx
      have hx' : (trimBack (c :: t).reverse).reverse = u ++ [x] := hx
      rw [h3] at hx'
      simp only [List.reverse_cons] at hx'
      have := (List.append_inj' hx' rfl).2
      simp at this
      rw [← this]; exact h4

/-- C74: `trim` removes the white space at both ends and nothing else. -/
theorem c74_trim (s : List Char) :
    ∃ a b, s = a ++ trim s ++ b ∧ (∀ c ∈ a ++ b, Blank c) ∧
    (∀ c t, trim s = c :: t → ¬ Blank c) ∧ (∀ c t, trim s = t ++ [c] → ¬ Blank c) := by
  obtain ⟨a, b, h1, h2, h3, h4⟩ := trim_spec s
  have key : ∀ c, isspace c = false → ¬ Blank c := by
    intro c hc hb
    rw [← isspace_iff, hc] at hb
    exact absurd hb (by decide)
  exact ⟨a, b, h1, fun c hc => (isspace_iff c).1 (h2 c hc), fun c t h => key c (h3 c t h), fun c t h => key c (h4 c t h)⟩

example : trim " \t a b \n".toList = "a b".toList ∧ trim "  ".toList = [] := by decide +kernel

/-- C74: `gen_trim` is what stands between the first occurrence of the prefix and the last occurrence of the suffix after
it; it fails if one of them is missing. -/
theorem c74_gen_trim_partial (pref suff s : List Char) (h : suff ≠ []) :
    (¬ Occurs pref s → genTrim pref suff s = .fail) ∧
    (∀ i, At pref s i → (∀ j, At pref s j → i ≤ j) →
      (¬ Occurs suff (s.drop (i + pref.length)) → genTrim pref suff s = .fail) ∧
      ∀ k, At suff (s.drop (i + pref.length)) k → (∀ j, At suff (s.drop (i + pref.length)) j → j ≤ k) →
        ∃ r b, genTrim pref suff s = .ok r ∧ s = s.take i ++ pref ++ r ++ suff ++ b ∧ r.length = k) := by
  unfold genTrim
  constructor
  · intro hp
    rw [strstr_none.2 hp]
  · intro i h1 h2
    rw [strstr_iff.2 ⟨h1, h2⟩]
    simp only
    constructor
    · intro hq
      rw [strstr_none.2 hq]
    · intro k k1 k2
      cases hf : strstr (s.drop (i + pref.length)) suff with
      | none => exact absurd ⟨k, k1⟩ (strstr_none.1 hf)
      | some f =>
        simp only
        obtain ⟨l, hl, l1, l2⟩ := lastOcc_spec h ((s.drop (i + pref.length)).length + 1) f (by omega) (strstr_some hf).1
        have : l = k := Nat.le_antisymm (k2 l l1) (l2 k k1)
        subst this
        rw [hl]
        refine ⟨_, (s.drop (i + pref.length)).drop (l + suff.length), rfl, ?_, ?_⟩
        · rw [List.append_assoc, List.append_assoc, ← List.append_assoc (List.take l _), ← at_split l1]
          exact at_split h1
        · have := at_le l1
          rw [List.length_take]; omega

example : (match genTrim "(".toList ")".toList "f(a)(b) c".toList with | .ok r => r == "a)(b".toList | _ => false) = true := by
  decide +kernel

/-- C74 is violated: with an empty suffix the search runs past the end of the string, whatever the string. -/
theorem c74_gen_trim_violated (pref s : List Char) (h : Occurs pref s) : genTrim pref [] s = .ub := by
  unfold genTrim
  cases hp : strstr s pref with
  | none => exact absurd h (strstr_none.1 hp)
  | some i =>
    simp only
    rw [strstr_empty]
    simp only
    rw [lastOcc_empty]

example : Occurs "a".toList "ba".toList := ⟨1, ['b'], [], rfl, rfl⟩

/-- C74: `str_cluster` cuts a string into parts of the size given; it fails if the length is not a multiple of it. -/
theorem c74_cluster_partial (s : List Char) (n : Int) (h0 : 0 < n) (h1 : n < 2147483648) :
    (n ∣ s.length → ∃ l, cluster s n = .ok l ∧ l.flatten = s ∧ ∀ p ∈ l, (p.length : Int) = n) ∧
    (¬ n ∣ s.length → cluster s n = .fail) := by
  unfold cluster
  rw [withInt_of (by omega) h1, if_neg (by omega)]
  constructor
  · intro hd
    rw [if_neg (by rw [Int.tmod_eq_zero_of_dvd hd]; simp), if_neg (by omega)]
    obtain ⟨k, hk⟩ := hd
    have hk0 : 0 ≤ k := by
      rcases Int.lt_or_le k 0 with h | h
      · have := Int.mul_neg_of_pos_of_neg h0 h; omega
      · exact h
    have e : s.length = k.toNat * n.toNat := by
      apply Int.ofNat_inj.1
      rw [Int.natCast_mul, Int.toNat_of_nonneg hk0, Int.toNat_of_nonneg (by omega), Int.mul_comm]
      exact hk
    obtain ⟨h2, h3, -⟩ := clusterLoop_spec (sz := n.toNat) (by omega) (s.length + 1) k.toNat s (by omega) e
    exact ⟨_, rfl, h2, fun p hp => by rw [h3 p hp]; omega⟩
  · intro hd
    rw [if_pos]
    intro e
    exact hd (Int.dvd_of_tmod_eq_zero e)

example : cluster "abcdef".toList 2 = .ok ["ab".toList, "cd".toList, "ef".toList] := by decide +kernel

/-- C74 is violated: a size of 0 is a division by 0, and a negative size that divides the length writes before the
buffer. -/
theorem c74_cluster_violated (s : List Char) : cluster s 0 = .ub ∧ (s ≠ [] → cluster s (-1) = .ub) := by
  unfold cluster
  rw [withInt_of (by omega) (by omega), withInt_of (by omega) (by omega)]
  refine ⟨by rw [if_pos rfl], ?_⟩
  intro h
  rw [if_neg (by omega), if_neg (by simp), if_pos (by omega), if_neg (by simp [h])]

/-- C74: `implode` joins strings; it fails if the result would have 130000 characters or more. -/
theorem c74_implode (l : List (List Char)) :
    implode l = if l.flatten.length < 130000 then .ok l.flatten else .fail := by
  have := implodeLoop_eq l []
  unfold implode
  simp only [List.length_nil, List.nil_append] at this
  have e : ((0 : Nat) : Int) = 0 := rfl
  rw [e] at this
  rw [this]
  refine if_congr ?_ rfl rfl
  constructor
  · rintro (h | h)
    · omega
    · subst h; simp
  · intro h; left; omega

/-- The functions that cut and join are inverse. -/
example (s : List Char) (n : Int) (l : List (List Char)) (h : s.length < 130000) (h0 : 0 < n) (h1 : n < 2147483648)
    (hd : n ∣ s.length) (hl : cluster s n = .ok l) : implode l = .ok s := by
  obtain ⟨l', h2, h3, -⟩ := (c74_cluster_partial s n h0 h1).1 hd
  rw [hl] at h2
  cases h2
  rw [c74_implode, h3, if_pos h]

/-- C74: `tcl2list` gives the elements of a Tcl list with one space between elements, each written as it stands or in
braces. -/
theorem c74_tcl_partial (ws ts : List (List Char)) (h : List.Forall₂ Written ws ts) :
    tcl2list (join [' '] ts) = .ok ws := by
  unfold tcl2list
  rw [tcl_list h]
  rfl

example : List.Forall₂ Written ["ab".toList, "c {d} e".toList, []] ["ab".toList, "{c {d} e}".toList, "{}".toList] := by
  have p : ∀ {c : Char} {t : List Char}, Braces t → c ≠ '{' → c ≠ '}' → c ≠ '\\' → Braces (c :: t) :=
    fun h a b d => .plain a b d h
  refine .cons (.bare ⟨by decide, by decide⟩) (.cons (.braced (w := "c {d} e".toList) ?_) (.cons (.braced .nil) .nil))
  exact p (p (.group (a := ['d']) (b := [' ', 'e']) (p .nil (by decide) (by decide) (by decide))
    (p (p .nil (by decide) (by decide) (by decide)) (by decide) (by decide) (by decide)))
    (by decide) (by decide) (by decide)) (by decide) (by decide) (by decide)

example : tcl2list "ab {c {d} e} {}".toList = .ok ["ab".toList, "c {d} e".toList, []] := by decide +kernel

/-- C74 is violated: a backslash outside braces is kept; two spaces make an empty element; a closing brace too many
makes the rest one element; a backslash at the end skips the end of the string. -/
theorem c74_tcl_violated : tcl2list "a\\ b".toList = .ok ["a\\ b".toList] ∧
    tcl2list "a  b".toList = .ok ["a".toList, [], "b".toList] ∧
    tcl2list "a} b c".toList = .ok ["a".toList, "b c".toList] ∧
    ∀ w, (∀ c ∈ w, c ≠ ' ' ∧ c ≠ '{' ∧ c ≠ '}' ∧ c ≠ '\\') → tcl2list (w ++ ['\\']) = .ub := by
  refine ⟨by decide +kernel, by decide +kernel, by decide +kernel, ?_⟩
  intro w hw
  unfold tcl2list
  rw [tcl_bare hw, tcl_cons, if_neg (by decide), if_pos rfl]

end Voss.Txt
