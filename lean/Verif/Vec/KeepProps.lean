import Verif.Vec.ExtractProps
import Verif.Vec.Props

namespace Voss.Vec

/-! ### C70: what an index is -/

/-- A number: digits, perhaps after a minus sign. -/
def Number (s : List Char) : Prop :=
  ∃ ds : List Char, ds ≠ [] ∧ (∀ c ∈ ds, c.isDigit = true) ∧ (s = ds ∨ s = '-' :: ds)

/-- A number, or two numbers with a colon between them. -/
def Item (s : List Char) : Prop := Number s ∨ ∃ a b, Number a ∧ Number b ∧ s = a ++ ':' :: b

/-- Items with commas between them. -/
inductive Items : List Char → Prop
  | one (s) : Item s → Items s
  | cons (a s) : Item a → Items s → Items (a ++ ',' :: s)

theorem lower_iff : ∀ s : List Char, valid .lower s = true ↔
    ∃ ds r, (∀ c ∈ ds, c.isDigit = true) ∧ s = ds ++ r ∧
      ((∃ t, r = ']' :: t) ∨ ∃ t, r = ',' :: t ∧ valid .item t = true)
  | [] => by
    simp only [valid, Bool.false_eq_true, false_iff]
    rintro ⟨ds, r, _, h, ⟨t, rfl⟩ | ⟨t, rfl, _⟩⟩ <;> simp at h
  | c :: cs => by
    have ih := lower_iff cs
    simp only [valid]
    by_cases hd : c.isDigit = true
    · rw [if_pos hd, ih]
      constructor
      · rintro ⟨ds, r, h1, rfl, h2⟩
        exact ⟨c :: ds, r, by simpa [hd] using h1, rfl, h2⟩
      · rintro ⟨ds, r, h1, h, h2⟩
        cases ds with
        | nil =>
          simp only [List.nil_append] at h
          rcases h2 with ⟨t, rfl⟩ | ⟨t, rfl, _⟩ <;> · simp only [List.cons.injEq] at h; rw [h.1] at hd; exact absurd hd (by decide)
        | cons d ds =>
          simp only [List.cons_append, List.cons.injEq] at h
          exact ⟨ds, r, fun x hx => h1 x (by simp [hx]), h.2, h2⟩
    · rw [if_neg hd]
      have hnil : ∀ ds r : List Char, (∀ c ∈ ds, c.isDigit = true) → c :: cs = ds ++ r → ds = [] ∧ r = c :: cs := by
        intro ds r h1 h
        cases ds with
        | nil => exact ⟨rfl, by simpa using h.symm⟩
        | cons d ds =>
          simp only [List.cons_append, List.cons.injEq] at h
          rw [h.1] at hd
          exact absurd (h1 d (by simp)) hd
      by_cases hb : c = ']'
      · subst hb
        simp only [if_true, true_iff]
        exact ⟨[], ']' :: cs, by simp, rfl, .inl ⟨cs, rfl⟩⟩
      · rw [if_neg hb]
        by_cases hk : c = ','
        · subst hk
          rw [if_pos rfl]
          constructor
          · intro h
            exact ⟨[], ',' :: cs, by simp, rfl, .inr ⟨cs, rfl, h⟩⟩
          · rintro ⟨ds, r, h1, h, h2⟩
            obtain ⟨rfl, rfl⟩ := hnil ds r h1 h
            rcases h2 with ⟨t, h2⟩ | ⟨t, h2, h3⟩
            · simp at h2
            · simp only [List.cons.injEq, true_and] at h2
              rw [h2]
              exact h3
        · rw [if_neg hk]
          simp only [Bool.false_eq_true, false_iff]
          rintro ⟨ds, r, h1, h, h2⟩
          obtain ⟨rfl, rfl⟩ := hnil ds r h1 h
          rcases h2 with ⟨t, h2⟩ | ⟨t, h2, h3⟩
          · exact hb (List.cons.inj h2).1
          · exact hk (List.cons.inj h2).1

theorem number_cases {c : Char} {cs : List Char} (f : List Char → Prop) (n : List Char → Prop)
    (hc : f (c :: cs) ↔ (c = '-' ∧ ∃ d ds, cs = d :: ds ∧ d.isDigit = true ∧ n ds) ∨ (c ≠ '-' ∧ c.isDigit = true ∧ n cs))
    (R : List Char → Prop) (hn : ∀ s, n s ↔ ∃ ds r, (∀ c ∈ ds, c.isDigit = true) ∧ s = ds ++ r ∧ R r) :
    f (c :: cs) ↔ ∃ a r, Number a ∧ c :: cs = a ++ r ∧ R r := by
  rw [hc]
  constructor
  · rintro (⟨rfl, d, ds, rfl, hd, h⟩ | ⟨hm, hd, h⟩)
    · obtain ⟨es, r, h1, rfl, h2⟩ := (hn ds).1 h
      exact ⟨'-' :: d :: es, r, ⟨d :: es, by simp, by simpa [hd] using h1, .inr rfl⟩, rfl, h2⟩
    · obtain ⟨es, r, h1, rfl, h2⟩ := (hn cs).1 h
      exact ⟨c :: es, r, ⟨c :: es, by simp, by simpa [hd] using h1, .inl rfl⟩, rfl, h2⟩
  · rintro ⟨a, r, ⟨ds, h1, h2, rfl | rfl⟩, h3, h4⟩
    · cases a with
      | nil => exact absurd rfl h1
      | cons d ds =>
        simp only [List.cons_append, List.cons.injEq] at h3
        obtain ⟨rfl, rfl⟩ := h3
        have hd := h2 c (by simp)
        refine .inr ⟨?_, hd, (hn _).2 ⟨ds, r, fun x hx => h2 x (by simp [hx]), rfl, h4⟩⟩
        rintro rfl
        exact absurd hd (by decide)
    · cases ds with
      | nil => exact absurd rfl h1
      | cons d ds =>
        simp only [List.cons_append, List.cons.injEq] at h3
        obtain ⟨rfl, rfl⟩ := h3
        exact .inl ⟨rfl, d, ds ++ r, rfl, h2 d (by simp), (hn _).2 ⟨ds, r, fun x hx => h2 x (by simp [hx]), rfl, h4⟩⟩

/-- What may follow a complete item. -/
def After (r : List Char) : Prop := (∃ t, r = ']' :: t) ∨ ∃ t, r = ',' :: t ∧ valid .item t = true

theorem colon_iff (s : List Char) : valid .colon s = true ↔ ∃ a r, Number a ∧ s = a ++ r ∧ After r := by
  cases s with
  | nil =>
    simp only [valid, Bool.false_eq_true, false_iff]
    rintro ⟨a, r, _, h, ⟨t, rfl⟩ | ⟨t, rfl, _⟩⟩ <;> simp at h
  | cons c cs =>
    refine number_cases (fun s => valid .colon s = true) (fun s => valid .lower s = true) ?_ After lower_iff
    simp only [valid]
    by_cases hm : c = '-'
    · subst hm
      simp only [if_true, ne_eq, not_true_eq_false, false_and, or_false, true_and]
      cases cs with
      | nil => simp [valid]
      | cons d ds =>
        simp only [valid]
        constructor
        · intro h
          split at h
          · rename_i hd
            exact ⟨d, ds, rfl, hd, h⟩
          · simp at h
        · rintro ⟨d', ds', h, hd, h2⟩
          simp only [List.cons.injEq] at h
          obtain ⟨rfl, rfl⟩ := h
          rw [if_pos hd]
          exact h2
    · simp only [hm, if_false, false_and, false_or, ne_eq, not_false_eq_true, true_and]
      split
      · rename_i hd; simp [hd]
      · rename_i hd; simp [hd]

/-- What may follow the first number. -/
def After1 (r : List Char) : Prop := After r ∨ ∃ t, r = ':' :: t ∧ valid .colon t = true

theorem upper_iff : ∀ s : List Char, valid .upper s = true ↔
    ∃ ds r, (∀ c ∈ ds, c.isDigit = true) ∧ s = ds ++ r ∧ After1 r
  | [] => by
    simp only [valid, Bool.false_eq_true, false_iff]
    rintro ⟨ds, r, _, h, (⟨t, rfl⟩ | ⟨t, rfl, _⟩) | ⟨t, rfl, _⟩⟩ <;> simp at h
  | c :: cs => by
    have ih := upper_iff cs
    simp only [valid]
    by_cases hd : c.isDigit = true
    · rw [if_pos hd, ih]
      constructor
      · rintro ⟨ds, r, h1, rfl, h2⟩
        exact ⟨c :: ds, r, by simpa [hd] using h1, rfl, h2⟩
      · rintro ⟨ds, r, h1, h, h2⟩
        cases ds with
        | nil =>
          simp only [List.nil_append] at h
          rcases h2 with (⟨t, rfl⟩ | ⟨t, rfl, _⟩) | ⟨t, rfl, _⟩ <;>
            · simp only [List.cons.injEq] at h; rw [h.1] at hd; exact absurd hd (by decide)
        | cons d ds =>
          simp only [List.cons_append, List.cons.injEq] at h
          exact ⟨ds, r, fun x hx => h1 x (by simp [hx]), h.2, h2⟩
    · rw [if_neg hd]
      have hnil : (∃ ds r, (∀ c ∈ ds, c.isDigit = true) ∧ c :: cs = ds ++ r ∧ After1 r) ↔ After1 (c :: cs) := by
        constructor
        · rintro ⟨ds, r, h1, h, h2⟩
          cases ds with
          | nil => simp only [List.nil_append] at h; rw [h]; exact h2
          | cons d ds =>
            simp only [List.cons_append, List.cons.injEq] at h
            rw [h.1] at hd
            exact absurd (h1 d (by simp)) hd
        · intro h
          exact ⟨[], c :: cs, by simp, rfl, h⟩
      rw [hnil]
      unfold After1 After
      simp only [List.cons.injEq]
      by_cases h1 : c = ':'
      · subst h1; simp
      · rw [if_neg h1]
        by_cases h2 : c = ']'
        · subst h2; simp
        · rw [if_neg h2]
          by_cases h3 : c = ','
          · subst h3; simp
          · simp [h1, h2, h3]

theorem item_iff (s : List Char) : valid .item s = true ↔ ∃ a r, Number a ∧ s = a ++ r ∧ After1 r := by
  cases s with
  | nil =>
    simp only [valid, Bool.false_eq_true, false_iff]
    rintro ⟨a, r, _, h, (⟨t, rfl⟩ | ⟨t, rfl, _⟩) | ⟨t, rfl, _⟩⟩ <;> simp at h
  | cons c cs =>
    refine number_cases (fun s => valid .item s = true) (fun s => valid .upper s = true) ?_ After1 upper_iff
    simp only [valid]
    by_cases hm : c = '-'
    · subst hm
      simp only [if_true, ne_eq, not_true_eq_false, false_and, or_false, true_and]
      cases cs with
      | nil => simp [valid]
      | cons d ds =>
        simp only [valid]
        constructor
        · intro h
          split at h
          · rename_i hd
            exact ⟨d, ds, rfl, hd, h⟩
          · simp at h
        · rintro ⟨d', ds', h, hd, h2⟩
          simp only [List.cons.injEq] at h
          obtain ⟨rfl, rfl⟩ := h
          rw [if_pos hd]
          exact h2
    · simp only [hm, if_false, false_and, false_or, ne_eq, not_false_eq_true, true_and]
      split
      · rename_i hd; simp [hd]
      · rename_i hd; simp [hd]

theorem item_after {s : List Char} : valid .item s = true ↔ ∃ a r, Item a ∧ s = a ++ r ∧ After r := by
  rw [item_iff]
  constructor
  · rintro ⟨a, r, ha, rfl, h | ⟨t, rfl, h⟩⟩
    · exact ⟨a, r, .inl ha, rfl, h⟩
    · obtain ⟨b, r, hb, rfl, h2⟩ := (colon_iff t).1 h
      exact ⟨a ++ ':' :: b, r, .inr ⟨a, b, ha, hb, rfl⟩, by simp, h2⟩
  · rintro ⟨a, r, ha | ⟨x, y, hx, hy, rfl⟩, rfl, h⟩
    · exact ⟨a, r, ha, rfl, .inl h⟩
    · exact ⟨x, ':' :: (y ++ r), hx, by simp, .inr ⟨_, rfl, (colon_iff _).2 ⟨y, r, hy, rfl, h⟩⟩⟩

theorem item_ne {s : List Char} (h : Item s) : s ≠ [] := by
  rcases h with ⟨ds, h1, _, rfl | rfl⟩ | ⟨a, b, _, _, rfl⟩
  · exact h1
  · simp
  · simp

/-- **What an index is**: a bracket is the beginning of indices just if numbers or pairs of numbers with a colon,
separated by commas, and the closing bracket follow. -/
theorem c70_index (s : List Char) : valid .item s = true ↔ ∃ a t, Items a ∧ s = a ++ ']' :: t := by
  constructor
  · suffices h : ∀ n (s : List Char), s.length ≤ n → valid .item s = true → ∃ a t, Items a ∧ s = a ++ ']' :: t by
      exact h s.length s (Nat.le_refl _)
    intro n
    induction n with
    | zero =>
      intro s hs h
      obtain rfl : s = [] := List.length_eq_zero_iff.1 (by omega)
      simp [valid] at h
    | succ n ih =>
      intro s hs h
      obtain ⟨a, r, ha, rfl, ⟨t, rfl⟩ | ⟨t, rfl, ht⟩⟩ := item_after.1 h
      · exact ⟨a, t, .one a ha, rfl⟩
      · obtain ⟨b, u, hb, rfl⟩ := ih t (by simp at hs; omega) ht
        exact ⟨a ++ ',' :: b, u, .cons a b ha hb, by simp⟩
  · rintro ⟨a, t, ha, rfl⟩
    induction ha with
    | one s hs => exact item_after.2 ⟨s, _, hs, rfl, .inl ⟨t, rfl⟩⟩
    | cons a s ha _ ih => exact item_after.2 ⟨a, ',' :: (s ++ ']' :: t), ha, by simp, .inr ⟨_, rfl, ih⟩⟩

example : Items "3:-1,7".toList :=
  .cons "3:-1".toList "7".toList
    (.inr ⟨['3'], ['-', '1'], ⟨['3'], by simp, by decide, .inl rfl⟩, ⟨['1'], by simp, by decide, .inr rfl⟩, by decide⟩)
    (.one _ (.inl ⟨['7'], by simp, by decide, .inl (by decide)⟩))

/-- **The size, exactly.**  Of every name other than the constant `0b` that can be expanded, the size is the number of names
in its expansion if that fits into an `int`. -/
theorem c70_size_total_partial {s : List Char} {l : List (List Char)} (h0 : s ≠ ['0', 'b']) (h : mdExpand s = some l)
    (hl : l.length < 2147483648) : mdSize s = some l.length := by
  have key : ∃ n, mdSize s = some n := by
    unfold mdSize
    cases hc : constSize s with
    | some n => exact ⟨n, rfl⟩
    | none =>
      have he : expandConstant s = none := by
        unfold constSize at hc
        unfold expandConstant
        split at hc
        · split at hc
          · simp at hc
          · rename_i hn
            rw [if_neg (fun x => hn x.2)]
        · rfl
      unfold mdExpand at h
      rw [he] at h
      simp only [Option.bind_eq_bind, Option.bind_eq_some_iff] at h
      obtain ⟨v, hv, h⟩ := h
      split at h
      · simp at h
      · have hlen : l.length = size v := by rw [showAll_text _ _ h, List.length_map, expand_length]
        refine ⟨size v, ?_⟩
        simp only [hv, Option.bind_eq_bind, Option.bind_some]
        rw [if_pos (by omega)]
  obtain ⟨n, hn⟩ := key
  rw [hn, c70_size_partial h0 h hn]

example : mdSize "x[70000:1]".toList = some 70000 := by decide +kernel

/-! ### C72: extraction loses no bits -/

/-- No index is negative. -/
def NonNeg : Vec → Prop
  | [] => True
  | .txt _ :: v => NonNeg v
  | .idx rs :: v => (∀ r ∈ rs, 0 ≤ r.up ∧ 0 ≤ r.lo) ∧ NonNeg v

theorem mergeTail_ends (P : Int → Prop) (t : Rng) (cs : List Rng) (h : ∀ r ∈ t :: cs, P r.up ∧ P r.lo) :
    ∀ r ∈ mergeTail t cs, P r.up ∧ P r.lo := by
  induction cs generalizing t with
  | nil => simpa [mergeTail] using h
  | cons c cs ih =>
    simp only [List.mem_cons, forall_eq_or_imp] at h
    simp only [mergeTail]
    split
    · exact ih _ (by simp only [List.mem_cons, forall_eq_or_imp]; exact ⟨⟨h.1.1, h.2.1.2⟩, h.2.2⟩)
    · split
      · exact ih _ (by simp only [List.mem_cons, forall_eq_or_imp]; exact ⟨⟨h.1.1, h.2.1.2⟩, h.2.2⟩)
      · simp only [List.mem_cons, forall_eq_or_imp]
        exact ⟨h.1, ih c (by simp only [List.mem_cons, forall_eq_or_imp]; exact h.2)⟩

theorem nonNeg_norm : ∀ v : Vec, NonNeg v → NonNeg (norm v)
  | [], _ => trivial
  | .txt s :: v, h => nonNeg_norm v h
  | .idx [] :: v, h => ⟨by simp [mergeIndices], nonNeg_norm v h.2⟩
  | .idx (t :: cs) :: v, h => ⟨mergeTail_ends (fun z => 0 ≤ z) t cs h.1, nonNeg_norm v h.2⟩

/-- What is true of canonical ranges. -/
structure Canon (P : Int → Prop) (rs c : List Rng) : Prop where
  down : Down c
  ne : rs ≠ [] → c ≠ []
  len : c.length ≤ rs.length
  keep : ∀ i, i ∈ rs.flatMap Rng.bits → InRs c i
  ends : (∀ r ∈ rs, P r.up ∧ P r.lo) → ∀ r ∈ c, P r.up ∧ P r.lo

theorem canonF_keep (P : Int → Prop) : ∀ (n : Nat) (rs : List Rng), rs.length ≤ n → rs.getLast? ≠ some ⟨-1, 0⟩ →
    Canon P rs (canonF n rs)
  | n, [], _, _ => by
    have e : canonF n [] = [] := by cases n <;> rfl
    rw [e]
    exact ⟨by simp [Down], by simp, by simp, by simp, by simp⟩
  | 0, r :: rs, h, _ => by simp at h
  | n+1, r :: next, hn, hl => by
    have hn' : next.length ≤ n := by simpa using hn
    have hl' : next.getLast? ≠ some ⟨-1, 0⟩ := by
      cases next with
      | nil => simp
      | cons a as => simpa [List.getLast?_cons_cons] using hl
    have ih := canonF_keep P n next hn' hl'
    rw [canonF, if_neg (by rintro ⟨rfl, rfl⟩; simp at hl)]
    obtain ⟨q, hq⟩ : ∃ q : Rng, q = if r.up < r.lo then ⟨r.lo, r.up⟩ else r := ⟨_, rfl⟩
    simp only [← hq]
    have hqd : q.lo ≤ q.up := by
      rw [hq]; split
      · simp only; omega
      · omega
    have hqb : ∀ i, i ∈ r.bits ↔ q.lo ≤ i ∧ i ≤ q.up := by
      intro i
      rw [mem_bits, hq]
      split
      · simp only; omega
      · omega
    have hqe : P r.up ∧ P r.lo → P q.up ∧ P q.lo := by
      rw [hq]; split
      · exact fun h => ⟨h.2, h.1⟩
      · exact id
    have hbits : ∀ i, i ∈ (r :: next).flatMap Rng.bits ↔ (q.lo ≤ i ∧ i ≤ q.up) ∨ i ∈ next.flatMap Rng.bits := by
      intro i
      simp [← hqb]
    -- continuing with a range in front of the rest
    have hgo : ∀ (m : Rng) (rem : List Rng) (x : Rng), Canon P next (m :: rem) → x.lo ≤ x.up →
        (∀ i, (q.lo ≤ i ∧ i ≤ q.up) ∨ (m.lo ≤ i ∧ i ≤ m.up) → x.lo ≤ i ∧ i ≤ x.up) →
        ((P q.up ∧ P q.lo) → (P m.up ∧ P m.lo) → P x.up ∧ P x.lo) →
        Canon P (r :: next) (x :: rem) ∧ Canon P (r :: next) (canonF n (x :: rem)) := by
      intro m rem x hc hx hcov hpe
      have hdx : Down (x :: rem) := by
        intro y hy
        simp only [List.mem_cons] at hy
        rcases hy with rfl | hy
        · exact hx
        · exact hc.down y (by simp [hy])
      have hbase : Canon P (r :: next) (x :: rem) := by
        refine ⟨hdx, by simp, by have := hc.len; simp at this ⊢; omega, ?_, ?_⟩
        · intro i hi
          rw [InRs_cons]
          rcases (hbits i).1 hi with h | h
          · exact .inl (hcov i (.inl h))
          · rcases (InRs_cons m rem i).1 (hc.keep i h) with h | h
            · exact .inl (hcov i (.inr h))
            · exact .inr h
        · intro h y hy
          simp only [List.mem_cons, forall_eq_or_imp] at h
          have hm := hc.ends h.2
          simp only [List.mem_cons, forall_eq_or_imp] at hm
          simp only [List.mem_cons] at hy
          rcases hy with rfl | hy
          · exact hpe (hqe h.1) hm.1
          · exact hm.2 y hy
      refine ⟨hbase, ?_⟩
      have hlen : (x :: rem).length ≤ n := by have := hc.len; simp at this ⊢; omega
      have hlast : (x :: rem).getLast? ≠ some ⟨-1, 0⟩ := by
        intro h
        have := hdx _ (List.mem_of_getLast? h)
        simp at this
      have ih2 := canonF_keep P n (x :: rem) hlen hlast
      refine ⟨ih2.down, fun _ => ih2.ne (by simp), Nat.le_trans ih2.len hbase.len, ?_, fun h => ih2.ends (hbase.ends h)⟩
      intro i hi
      exact ih2.keep i ((mem_down hdx i).2 (hbase.keep i hi))
    cases hc : canonF n next with
    | nil =>
      rw [hc] at ih
      have : next = [] := by
        cases next with
        | nil => rfl
        | cons a as => exact absurd rfl (ih.ne (by simp))
      subst this
      refine ⟨by intro y hy; simp only [List.mem_singleton] at hy; subst hy; exact hqd, by simp, by simp, ?_, ?_⟩
      · intro i hi
        rw [InRs_cons]
        rcases (hbits i).1 hi with h | h
        · exact .inl h
        · simp at h
      · intro h y hy
        simp only [List.mem_singleton] at hy
        subst hy
        exact hqe (h r (by simp))
    | cons m rem =>
      rw [hc] at ih
      have hm : m.lo ≤ m.up := ih.down m (by simp)
      dsimp only
      split
      · refine ⟨?_, by simp, by have := ih.len; simp at this ⊢; omega, ?_, ?_⟩
        · intro y hy
          simp only [List.mem_cons] at hy
          rcases hy with rfl | hy
          · exact hqd
          · exact ih.down y (by simpa using hy)
        · intro i hi
          rw [InRs_cons]
          exact (hbits i).1 hi |>.imp id (ih.keep i)
        · intro h y hy
          simp only [List.mem_cons, forall_eq_or_imp] at h
          rw [List.mem_cons] at hy
          rcases hy with rfl | hy
          · exact hqe h.1
          · exact ih.ends h.2 y hy
      · rename_i h1
        split
        · rename_i h2
          split
          · rename_i h3
            exact (hgo m rem m ih hm (by intro i; omega) (fun _ h => h)).1
          · rename_i h3
            exact (hgo m rem ⟨m.up, q.lo⟩ ih (by simp only; omega) (by intro i; simp only; omega)
              (fun h h' => ⟨h'.1, h.2⟩)).2
        · rename_i h2
          split
          · rename_i h3
            exact (hgo m rem ⟨q.up, q.lo⟩ ih (by simp only; omega) (by intro i; simp only; omega)
              (fun h h' => h)).2
          · rename_i h3
            exact (hgo m rem ⟨q.up, m.lo⟩ ih (by simp only; omega) (by intro i; simp only; omega)
              (fun h h' => ⟨h.1, h'.2⟩)).1

theorem canon_keep (P : Int → Prop) {rs : List Rng} (h : ∀ r ∈ rs, 0 ≤ r.up ∧ 0 ≤ r.lo) : Canon P rs (canon rs) := by
  refine canonF_keep P _ rs (Nat.le_refl _) ?_
  intro hl
  have := (h _ (List.mem_of_getLast? hl)).1
  simp at this

theorem keep_wf : ∀ v : Vec, WF v → NonNeg v → WF (canonVec v)
  | [], _, _ => trivial
  | .idx rs :: v, ⟨h1, h2, ⟨t, v', h3⟩, h4⟩, ht => by
    have hc := canon_keep (fun z => isInt z = true) ht.1
    refine ⟨hc.ne h1, hc.ends h2, ⟨t, canonVec v', ?_⟩, keep_wf v h4 ht.2⟩
    subst h3
    rfl
  | .txt s :: v, ⟨h1, h2⟩, ht => by
    refine ⟨?_, keep_wf v h2 ht⟩
    rcases h1 with h1 | ⟨h1, h3⟩
    · exact .inl h1
    · refine .inr ⟨h1, ?_⟩
      rcases h3 with rfl | ⟨h3, rs, v', rfl⟩
      · exact .inl rfl
      · exact .inr ⟨h3, _, _, rfl⟩

theorem keep_inners : ∀ v : Vec, Inners v → NonNeg v → Inners (canonVec v)
  | [], _, _ => trivial
  | .txt s :: v, h, ht => keep_inners v h ht
  | .idx rs :: v, h, ht =>
    ⟨(canon_keep (fun z => -2147483648 < z ∧ z < 2147483647) ht.1).ends h.1, keep_inners v h.2 ht.2⟩

theorem keep_downs : ∀ v : Vec, NonNeg v → Downs (canonVec v)
  | [], _ => trivial
  | .txt s :: v, h => keep_downs v h
  | .idx rs :: v, h => ⟨(canon_keep (fun _ => True) h.1).down, keep_downs v h.2⟩

theorem keep_mem : ∀ v : Vec, NonNeg v → ∀ b, b ∈ expand v → b ∈ expand (canonVec v)
  | [], _, b, hb => hb
  | .txt s :: v, h, b, hb => by
    rw [canon_txt]
    simp only [expand, List.mem_map] at hb ⊢
    obtain ⟨x, hx, rfl⟩ := hb
    exact ⟨x, keep_mem v h x hx, rfl⟩
  | .idx rs :: v, h, b, hb => by
    have hc := canon_keep (fun _ => True) h.1
    rw [expand_idx, List.mem_flatMap] at hb
    obtain ⟨i, hi, hb⟩ := hb
    obtain ⟨x, hx, rfl⟩ := List.mem_map.1 hb
    rw [canon_idx, expand_idx, List.mem_flatMap]
    exact ⟨i, (mem_down hc.down i).2 (hc.keep i hi), List.mem_map.2 ⟨x, keep_mem v h.2 x hx, rfl⟩⟩

theorem keep_good {v : Vec} (h : Good v) (ht : NonNeg v) : Good (canonVec v) := by
  refine ⟨keep_wf v h.wf ht, keep_inners v h.inner ht, canon_nostar v h.nostar, ?_⟩
  intro hc
  rw [isConst_shape (canon_shape v)] at hc
  obtain ⟨s, rfl, hs⟩ := h.const hc
  exact ⟨s, rfl, hs⟩

theorem keep_vbits {v : Vec} (h : Good v) (ht : NonNeg v) (b : List Char) (hb : b ∈ vbits v) : b ∈ vbits (canonVec v) := by
  cases hc : isConst v with
  | true =>
    obtain ⟨s, rfl, hs⟩ := h.const hc
    exact hb
  | false =>
    rw [vbits_nonconst hc] at hb
    rw [vbits_nonconst (by rw [isConst_shape (canon_shape v)]; exact hc)]
    obtain ⟨x, hx, rfl⟩ := List.mem_map.1 hb
    exact List.mem_map.2 ⟨x, keep_mem v ht x hx, rfl⟩

/-- **Extraction loses no bits**, in whatever order and however overlapping the ranges are written, if no index is
negative. -/
theorem c72_keeps_partial (sort : List Vec → List Vec) (hsort : ∀ l, (sort l).Perm l) {names out : List (List Char)}
    (h : ∀ s ∈ names, IsConstant s ∨
      ∃ v, WF v ∧ Inners v ∧ NonNeg v ∧ vecText v = s ∧ '*' ∉ s ∧ ∀ cs, s ≠ '0' :: 'b' :: cs)
    (hm : mdExtract sort names = some out) :
    ∃ l l', mdExpandAll names = some l ∧ mdExpandAll out = some l' ∧ ∀ b ∈ l, b ∈ l' := by
  obtain ⟨vs, h1, h2, h3⟩ := splitAll_good nonNeg_norm names (fun s hs => by
    rcases h s hs with hc | ⟨v, hw, hi, ht, he, hst, hc⟩
    · exact ⟨[.txt s], good_const hc, trivial, by simp [vecText, Seg.text]⟩
    · subst he
      exact ⟨v, good_of_text hw hi hst hc, ht, rfl⟩)
  obtain ⟨ws, e1, e2, e3⟩ := extractVecs_spec sort hsort (vs := vs.map canonVec) (by
    intro v hv
    simp only [List.mem_map] at hv
    obtain ⟨w, hw, rfl⟩ := hv
    exact ⟨keep_good (h2 w hw).1 (h2 w hw).2, keep_downs w (h2 w hw).2⟩)
  unfold mdExtract at hm
  simp only [h1, e1, Option.bind_eq_bind, Option.bind_some] at hm
  have ht := showAll_text _ _ hm
  refine ⟨_, _, h3, by rw [ht]; exact mdExpandAll_good ws (fun v hv => (e2 v hv).1), ?_⟩
  intro b hb
  rw [e3]
  simp only [List.mem_flatMap, List.mem_map] at hb ⊢
  obtain ⟨w, hw, hb⟩ := hb
  exact ⟨_, ⟨w, hw, rfl⟩, keep_vbits (h2 w hw).1 (h2 w hw).2 b hb⟩

/-- An example with overlapping ranges. -/
example : mdExtract id ["x[5:2,3:0,7]".toList] = some ["x[7:0]".toList] := by decide +kernel

end Voss.Vec
