import Verif.Sha.GraphSpec
import Verif.Vec.Num
import Verif.Bdd.BinderLemmas

/- The lines of the text can be read back. -/
namespace Voss.Sha

theorem dec_digit (n : Nat) : ∀ c ∈ dec n, c.isDigit = true := Voss.Vec.digits_isDigit n
theorem dec_ne (n : Nat) : dec n ≠ [] := Voss.Vec.digits_ne n
theorem dec_inj {m n : Nat} (h : dec m = dec n) : m = n := Voss.Bdd.decimal_inj h

/-- Digits and a sign that is none: the split is unique. -/
theorem dec_split {m n : Nat} {c c' : Char} {x y : Text} (hc : c.isDigit = false) (hc' : c'.isDigit = false)
    (h : dec m ++ c :: x = dec n ++ c' :: y) : m = n ∧ c = c' ∧ x = y := by
  have h1 := Voss.Vec.takeWhile_digits (ds := dec m) (rest := c :: x) (dec_digit m) (by intro d hd; simp at hd; exact hd ▸ hc)
  have h2 := Voss.Vec.takeWhile_digits (ds := dec n) (rest := c' :: y) (dec_digit n) (by intro d hd; simp at hd; exact hd ▸ hc')
  rw [h] at h1
  have e1 : dec m = dec n := h1.1.symm.trans h2.1
  have e2 : c :: x = c' :: y := h1.2.symm.trans h2.2
  rw [List.cons.injEq] at e2
  exact ⟨dec_inj e1, e2.1, e2.2⟩

theorem decimalZ_inj {y z : Int} (h : Voss.Vec.decimal y = Voss.Vec.decimal z) : y = z := by
  unfold Voss.Vec.decimal at h
  have hm : ∀ n : Nat, ∀ ds, Nat.toDigits 10 n ≠ '-' :: ds := by
    intro n ds e
    have := dec_digit n '-' (by unfold dec; rw [e]; simp)
    exact absurd this (by decide)
  by_cases h1 : y < 0 <;> by_cases h2 : z < 0
  · rw [if_pos h1, if_pos h2, List.cons.injEq] at h
    have := dec_inj (show dec _ = dec _ from h.2)
    omega
  · rw [if_pos h1, if_neg h2] at h
    exact absurd h.symm (hm _ _)
  · rw [if_neg h1, if_pos h2] at h
    exact absurd h (hm _ _)
  · rw [if_neg h1, if_neg h2] at h
    have := dec_inj (show dec _ = dec _ from h)
    omega

/-- The kind of a line. -/
def Shape.cls : Shape → Nat
  | .nil => 0
  | .lam _ _ => 1
  | .app _ _ => 2
  | .cons _ _ => 2
  | .int _ => 3
  | .str _ => 4
  | .ext _ => 5
  | .fmt _ _ => 6
  | .ref _ => 7
  | .prim _ => 8
  | .var _ => 9
  | .userdef _ => 10

def clsOf (c : Char) : Nat :=
  if c = '[' then 0 else if c = '\\' then 1 else if c.isDigit then 2 else if c = 'I' then 3 else if c = '"' then 4
  else if c = 'E' then 5 else if c = 'R' then 7 else if c = 'P' then 8 else if c = 'V' then 9 else if c = 'U' then 10 else 6

theorem clsOf_digit (c : Char) (h : c.isDigit = true) : clsOf c = 2 := by
  unfold clsOf
  rw [if_neg (by rintro rfl; exact absurd h (by decide)), if_neg (by rintro rfl; exact absurd h (by decide)), if_pos h]

theorem cls_body (s : Shape) : ∃ c r, s.body = c :: r ∧ clsOf c = s.cls := by
  have hd : ∀ (n : Nat) (t : Text), ∃ c r, dec n ++ t = c :: r ∧ clsOf c = 2 := by
    intro n t
    cases h : dec n with
    | nil => exact absurd h (dec_ne n)
    | cons c r => exact ⟨c, r ++ t, rfl, clsOf_digit c (dec_digit n c (by rw [h]; simp))⟩
  cases s with
  | app l r => exact hd l _
  | cons l r => exact hd l _
  | fmt f s => cases f <;> exact ⟨_, _, rfl, by simp only [Shape.cls]; decide⟩
  | _ => exact ⟨_, _, rfl, by simp only [Shape.cls]; decide⟩

theorem fmt_name_split {f g : Fmt} {x y : Text} (h : f.name ++ ' ' :: x = g.name ++ ' ' :: y) : f = g ∧ x = y := by
  cases f <;> cases g <;> simp [Fmt.name] at h <;> exact ⟨rfl, h⟩

theorem body_inj {s t : Shape} (h : s.body = t.body) : s = t := by
  have hc : s.cls = t.cls := by
    obtain ⟨c, r, h1, h2⟩ := cls_body s
    obtain ⟨c', r', h3, h4⟩ := cls_body t
    rw [h1, h3, List.cons.injEq] at h
    rw [← h2, ← h4, h.1]
  cases s <;> cases t <;> first
    | exact absurd hc (by simp only [Shape.cls]; decide)
    | rfl
    | skip
  case lam.lam v b w c =>
    simp only [Shape.body, List.cons.injEq, true_and] at h
    have h' : (v ++ ['.']) ++ dec b = (w ++ ['.']) ++ dec c := by simpa using h
    obtain ⟨e1, e2⟩ := Voss.Bdd.split_digits (dec_digit b) (dec_digit c)
      (by intro x hx; simp at hx; exact hx ▸ by decide) (by intro x hx; simp at hx; exact hx ▸ by decide) h'
    rw [List.append_cancel_right e1, dec_inj e2]
  case app.app l r l' r' =>
    obtain ⟨e1, _, e2⟩ := dec_split (by decide) (by decide) h
    rw [e1, dec_inj e2]
  case app.cons l r l' r' =>
    obtain ⟨_, e, _⟩ := dec_split (by decide) (by decide) h
    exact absurd e (by decide)
  case cons.app l r l' r' =>
    obtain ⟨_, e, _⟩ := dec_split (by decide) (by decide) h
    exact absurd e (by decide)
  case cons.cons l r l' r' =>
    obtain ⟨e1, _, e2⟩ := dec_split (by decide) (by decide) h
    rw [e1, dec_inj e2]
  case int.int y z =>
    simp only [Shape.body, List.cons.injEq, true_and] at h
    rw [decimalZ_inj h]
  case str.str x y =>
    simp only [Shape.body, List.cons.injEq, true_and] at h
    rw [List.append_cancel_right h]
  case ext.ext x y =>
    simp only [Shape.body, List.cons.injEq, true_and] at h
    rw [List.append_cancel_right h]
  case fmt.fmt f x g y =>
    obtain ⟨e1, e2⟩ := fmt_name_split h
    simp only [List.cons.injEq, true_and] at e2
    rw [e1, List.append_cancel_right e2]
  case ref.ref x y =>
    simp only [Shape.body, List.cons.injEq, true_and] at h
    rw [dec_inj h]
  case prim.prim x y =>
    simp only [Shape.body, List.cons.injEq, true_and] at h
    rw [h]
  case var.var x y =>
    simp only [Shape.body, List.cons.injEq, true_and] at h
    rw [h]
  case userdef.userdef x y =>
    simp only [Shape.body, List.cons.injEq, true_and] at h
    rw [h]

/-- The text in a shape. -/
def Shape.text : Shape → Text
  | .lam v _ => v
  | .str s => s
  | .ext s => s
  | .fmt _ s => s
  | .prim s => s
  | .var s => s
  | .userdef s => s
  | _ => []

theorem shape_text (n : Node) (ns : List Nat) : (n.shape ns).text = n.text := by cases n <;> rfl

theorem digit_ne_nl {c : Char} (h : c.isDigit = true) : c ≠ '\n' ∧ c.toNat < 256 := by
  refine ⟨by rintro rfl; exact absurd h (by decide), ?_⟩
  simp only [Char.isDigit, Bool.and_eq_true, decide_eq_true_eq, UInt32.le_iff_toNat_le] at h
  have h2 := h.2
  have : (57 : UInt32).toNat = 57 := rfl
  show c.val.toNat < 256
  have e : ('9'.val).toNat = 57 := rfl
  omega

theorem body_clean (s : Shape) (h : ∀ c ∈ s.text, c ≠ '\n' ∧ c.toNat < 256) :
    ∀ c ∈ s.body, c ≠ '\n' ∧ c.toNat < 256 := by
  have hd : ∀ n, ∀ c ∈ dec n, c ≠ '\n' ∧ c.toNat < 256 := fun n c hc => digit_ne_nl (dec_digit n c hc)
  have hz : ∀ z, ∀ c ∈ Voss.Vec.decimal z, c ≠ '\n' ∧ c.toNat < 256 := by
    intro z c hc
    unfold Voss.Vec.decimal at hc
    split at hc
    · rcases List.mem_cons.1 hc with rfl | hc
      · decide
      · exact hd _ c hc
    · exact hd _ c hc
  intro c hc
  cases s with
  | nil =>
    simp only [Shape.body, List.mem_cons, List.not_mem_nil, or_false] at hc
    rcases hc with rfl | rfl <;> decide
  | lam v b =>
    simp only [Shape.body, List.mem_cons, List.mem_append] at hc
    rcases hc with rfl | hc | rfl | hc
    · decide
    · exact h c hc
    · decide
    · exact hd _ c hc
  | app l r =>
    simp only [Shape.body, List.mem_cons, List.mem_append] at hc
    rcases hc with hc | rfl | hc
    · exact hd _ c hc
    · decide
    · exact hd _ c hc
  | cons l r =>
    simp only [Shape.body, List.mem_cons, List.mem_append] at hc
    rcases hc with hc | rfl | hc
    · exact hd _ c hc
    · decide
    · exact hd _ c hc
  | int z =>
    simp only [Shape.body, List.mem_cons] at hc
    rcases hc with rfl | hc
    · decide
    · exact hz _ c hc
  | str s =>
    simp only [Shape.body, List.mem_cons, List.mem_append, List.not_mem_nil, or_false] at hc
    rcases hc with rfl | hc | rfl
    · decide
    · exact h c hc
    · decide
  | ext s =>
    simp only [Shape.body, List.mem_cons, List.mem_append, List.not_mem_nil, or_false] at hc
    rcases hc with rfl | rfl | rfl | rfl | hc | rfl
    · decide
    · decide
    · decide
    · decide
    · exact h c hc
    · decide
  | fmt f s =>
    simp only [Shape.body, List.mem_cons, List.mem_append, List.not_mem_nil, or_false] at hc
    rcases hc with hc | rfl | rfl | rfl | hc | rfl | rfl
    · have : ∀ c ∈ f.name, c ≠ '\n' ∧ c.toNat < 256 := by cases f <;> decide
      exact this c hc
    · decide
    · decide
    · decide
    · exact h c hc
    · decide
    · decide
  | ref r =>
    simp only [Shape.body, List.mem_cons] at hc
    rcases hc with rfl | rfl | rfl | rfl | hc
    · decide
    · decide
    · decide
    · decide
    · exact hd _ c hc
  | prim s =>
    simp only [Shape.body, List.mem_cons] at hc
    rcases hc with rfl | rfl | rfl | rfl | hc
    · decide
    · decide
    · decide
    · decide
    · exact h c hc
  | var s =>
    simp only [Shape.body, List.mem_cons] at hc
    rcases hc with rfl | rfl | rfl | rfl | hc
    · decide
    · decide
    · decide
    · decide
    · exact h c hc
  | userdef s =>
    simp only [Shape.body, List.mem_cons] at hc
    rcases hc with rfl | rfl | rfl | hc
    · decide
    · decide
    · decide
    · exact h c hc

/-- A line of a clean node. -/
def IsLine (t : Text) : Prop := ∃ k s, t = line k s ∧ ∀ c ∈ s.text, c ≠ '\n' ∧ c.toNat < 256

theorem split_nl {a b x y : Text} (ha : ∀ c ∈ a, c ≠ '\n') (hb : ∀ c ∈ b, c ≠ '\n') (h : a ++ '\n' :: x = b ++ '\n' :: y) :
    a = b ∧ x = y := by
  induction a generalizing b with
  | nil =>
    cases b with
    | nil => simpa using h
    | cons c b =>
      simp only [List.nil_append, List.cons_append, List.cons.injEq] at h
      exact absurd h.1.symm (hb c (by simp))
  | cons d a ih =>
    cases b with
    | nil =>
      simp only [List.nil_append, List.cons_append, List.cons.injEq] at h
      exact absurd h.1 (ha d (by simp))
    | cons c b =>
      simp only [List.cons_append, List.cons.injEq] at h
      obtain ⟨e1, e2⟩ := ih (fun c hc => ha c (by simp [hc])) (fun c hc => hb c (by simp [hc])) h.2
      exact ⟨by rw [h.1, e1], e2⟩

theorem line_head (k : Nat) (s : Shape) : ∃ c r, line k s = c :: r ∧ c.isDigit = true := by
  unfold line
  cases h : dec k with
  | nil => exact absurd h (dec_ne k)
  | cons c r => exact ⟨c, _, rfl, dec_digit k c (by rw [h]; simp)⟩

/-- Text that does not start with a parenthesis. -/
def NoParen (t : Text) : Prop := ∀ r, t ≠ ')' :: r

theorem tail_split {s t : Shape} {x y : Text} (hx : NoParen x) (hy : NoParen y) (h : s.tail ++ x = t.tail ++ y) : x = y := by
  have ht : ∀ s : Shape, s.tail = [] ∨ s.tail = [')'] := by intro s; cases s <;> simp [Shape.tail]
  rcases ht s with h1 | h1 <;> rcases ht t with h2 | h2 <;> rw [h1, h2] at h
  · simpa using h
  · exact absurd h (hx _)
  · exact absurd h.symm (hy _)
  · simpa using h

theorem line_split {k k' : Nat} {s s' : Shape} {x y : Text} (hs : ∀ c ∈ s.text, c ≠ '\n' ∧ c.toNat < 256)
    (hs' : ∀ c ∈ s'.text, c ≠ '\n' ∧ c.toNat < 256) (hx : NoParen x) (hy : NoParen y)
    (h : line k s ++ x = line k' s' ++ y) : k = k' ∧ s = s' ∧ x = y := by
  have e : ∀ k s (x : Text), line k s ++ x = dec k ++ '=' :: (s.body ++ '\n' :: (s.tail ++ x)) := by
    intro k s x; simp [line]
  rw [e, e] at h
  obtain ⟨e1, _, e2⟩ := dec_split (by decide) (by decide) h
  obtain ⟨e3, e4⟩ := split_nl (fun c hc => (body_clean s hs c hc).1) (fun c hc => (body_clean s' hs' c hc).1) e2
  exact ⟨e1, body_inj e3, tail_split hx hy e4⟩

theorem noParen_flatten (l : List Text) (h : ∀ t ∈ l, IsLine t) : NoParen l.flatten := by
  intro r e
  cases l with
  | nil => simp at e
  | cons t l =>
    obtain ⟨k, s, rfl, _⟩ := h t (by simp)
    obtain ⟨c, q, h1, h2⟩ := line_head k s
    rw [List.flatten_cons, h1] at e
    simp only [List.cons_append, List.cons.injEq] at e
    rw [e.1] at h2
    exact absurd h2 (by decide)

/-- The whole text determines its lines. -/
theorem lines_inj : ∀ (l m : List Text), (∀ t ∈ l, IsLine t) → (∀ t ∈ m, IsLine t) → l.flatten = m.flatten → l = m := by
  intro l
  induction l with
  | nil =>
    intro m _ hm h
    cases m with
    | nil => rfl
    | cons t m =>
      obtain ⟨k, s, rfl, _⟩ := hm t (by simp)
      obtain ⟨c, q, h1, _⟩ := line_head k s
      rw [List.flatten_cons, h1] at h
      simp at h
  | cons t l ih =>
    intro m hl hm h
    cases m with
    | nil =>
      obtain ⟨k, s, rfl, _⟩ := hl t (by simp)
      obtain ⟨c, q, h1, _⟩ := line_head k s
      rw [List.flatten_cons, h1] at h
      simp at h
    | cons u m =>
      obtain ⟨k, s, e1, c1⟩ := hl t (by simp)
      obtain ⟨k', s', e2, c2⟩ := hm u (by simp)
      subst e1; subst e2
      rw [List.flatten_cons, List.flatten_cons] at h
      have hl' : ∀ t ∈ l, IsLine t := fun t ht => hl t (by simp [ht])
      have hm' : ∀ t ∈ m, IsLine t := fun t ht => hm t (by simp [ht])
      obtain ⟨f1, f2, f3⟩ := line_split c1 c2 (noParen_flatten l hl') (noParen_flatten m hm') h
      rw [f1, f2, ih m hl' hm' f3]

theorem line_inj {k k' : Nat} {s s' : Shape} (hs : ∀ c ∈ s.text, c ≠ '\n' ∧ c.toNat < 256)
    (hs' : ∀ c ∈ s'.text, c ≠ '\n' ∧ c.toNat < 256) (h : line k s = line k' s') : k = k' ∧ s = s' := by
  have := line_split (x := []) (y := []) hs hs' (by intro r; simp) (by intro r; simp) (by simpa using h)
  exact ⟨this.1, this.2.1⟩

end Voss.Sha
