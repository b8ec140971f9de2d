import Verif.Inst.ShaSpec
import Verif.Sha.LineLemmas

/- The text of an instance can be read back. -/
namespace Voss.Inst
open Hier Sha

/-! ### Orders -/

theorem then_eq_iff (a b : Ordering) : a.then b = .eq ↔ a = .eq ∧ b = .eq := by cases a <;> cases b <;> decide
theorem then_lt_iff (a b : Ordering) : a.then b = .lt ↔ a = .lt ∨ (a = .eq ∧ b = .lt) := by cases a <;> cases b <;> decide
theorem then_swap (a b : Ordering) : (a.then b).swap = a.swap.then b.swap := by cases a <;> cases b <;> rfl

theorem good_nat : Good (fun a b : Nat => compare a b) where
  eq a b := by simp
  swap a b := (Nat.compare_swap a b).symm
  trans a b c := by simp only [Nat.compare_eq_lt]; omega

theorem good_int : Good (fun a b : Int => compare a b) where
  eq a b := by
    simp only [compare, compareOfLessAndEq]
    split <;> simp <;> omega
  swap a b := by
    simp only [compare, compareOfLessAndEq]
    by_cases h : a < b
    · rw [if_pos h, if_neg (by omega), if_neg (by omega)]; rfl
    · by_cases h2 : a = b
      · subst h2; simp
      · rw [if_neg h, if_neg h2, if_pos (by omega)]; rfl
  trans a b c := by
    simp only [compare, compareOfLessAndEq]
    intro h1 h2
    have h1 : a < b := by
      by_cases h : a < b
      · exact h
      · rw [if_neg h] at h1; split at h1 <;> simp at h1
    have h2 : b < c := by
      by_cases h : b < c
      · exact h
      · rw [if_neg h] at h2; split at h2 <;> simp at h2
    rw [if_pos (by omega)]

theorem good_char : Good (fun a b : Char => compare a.toNat b.toNat) where
  eq a b := by
    rw [good_nat.eq]
    exact ⟨fun h => Char.ext (UInt32.toNat_inj.1 h), fun h => by rw [h]⟩
  swap a b := good_nat.swap _ _
  trans a b c := good_nat.trans _ _ _

theorem good_lex {α} {cmp : α → α → Ordering} (h : Good cmp) : Good (lexCmp cmp) where
  eq := by
    intro a
    induction a with
    | nil => intro b; cases b <;> simp [lexCmp]
    | cons a as ih =>
      intro b
      cases b with
      | nil => simp [lexCmp]
      | cons b bs => rw [lexCmp, then_eq_iff, h.eq, ih, List.cons.injEq]
  swap := by
    intro a
    induction a with
    | nil => intro b; cases b <;> simp [lexCmp]
    | cons a as ih =>
      intro b
      cases b with
      | nil => simp [lexCmp]
      | cons b bs => rw [lexCmp, lexCmp, then_swap, h.swap, ih]
  trans := by
    intro a
    induction a with
    | nil => intro b c h1 h2; cases b <;> cases c <;> simp [lexCmp] at *
    | cons a as ih =>
      intro b c h1 h2
      cases b with
      | nil => simp [lexCmp] at h1
      | cons b bs =>
        cases c with
        | nil => simp [lexCmp] at h2
        | cons c cs =>
          rw [lexCmp, then_lt_iff] at *
          rcases h1 with h1 | ⟨h1, h1'⟩ <;> rcases h2 with h2 | ⟨h2, h2'⟩
          · exact .inl (h.trans _ _ _ h1 h2)
          · rw [h.eq] at h2; subst h2; exact .inl h1
          · rw [h.eq] at h1; subst h1; exact .inl h2
          · rw [h.eq] at h1 h2; subst h1; subst h2
            exact .inr ⟨(h.eq _ _).2 rfl, ih _ _ h1' h2'⟩

theorem good_strcmp : Good strcmp := good_lex good_char

/-- Comparing by one component and then by another one. -/
theorem good_then {α β γ} {f : α → β} {g : α → γ} {c1 : β → β → Ordering} {c2 : γ → γ → Ordering} (h1 : Good c1) (h2 : Good c2)
    (hinj : ∀ a b, f a = f b → g a = g b → a = b) : Good fun a b => (c1 (f a) (f b)).then (c2 (g a) (g b)) where
  eq a b := by
    rw [then_eq_iff, h1.eq, h2.eq]
    exact ⟨fun h => hinj a b h.1 h.2, fun h => by rw [h]; exact ⟨rfl, rfl⟩⟩
  swap a b := by rw [then_swap, h1.swap, h2.swap]
  trans a b c := by
    simp only [then_lt_iff]
    intro ha hb
    rcases ha with ha | ⟨ha, ha'⟩ <;> rcases hb with hb | ⟨hb, hb'⟩
    · exact .inl (h1.trans _ _ _ ha hb)
    · rw [h1.eq] at hb; rw [← hb]; exact .inl ha
    · rw [h1.eq] at ha; rw [ha]; exact .inl hb
    · rw [h1.eq] at ha hb
      exact .inr ⟨(h1.eq _ _).2 (ha.trans hb), h2.trans _ _ _ ha' hb'⟩

theorem good_key : Good keyCmp := by
  have hl := good_lex (good_lex good_strcmp)
  have h1 : Good fun a b : List (List Text) × List (List Text) =>
      (lexCmp (lexCmp strcmp) a.1 b.1).then (lexCmp (lexCmp strcmp) a.2 b.2) :=
    good_then hl hl fun a b h k => Prod.ext h k
  have h2 : Good fun a b : Text × (List (List Text) × List (List Text)) => (strcmp a.1 b.1).then
      ((lexCmp (lexCmp strcmp) a.2.1 b.2.1).then (lexCmp (lexCmp strcmp) a.2.2 b.2.2)) :=
    good_then (f := Prod.fst) (g := Prod.snd) good_strcmp h1 fun a b h k => Prod.ext h k
  exact good_then (f := Key.name) (g := fun k => (k.sha, k.ins, k.outs)) good_strcmp h2 (by
    rintro ⟨a, b, c, d⟩ ⟨a', b', c', d'⟩ h k
    simp only [Prod.mk.injEq] at h k
    obtain ⟨rfl, rfl, rfl⟩ := k
    subst h; rfl)

theorem good_tcmp : Good tcmp where
  eq := by
    intro a
    induction a with
    | nil => intro b; cases b <;> simp [tcmp]
    | cons a a' ih ih' =>
      intro b
      cases b with
      | cons b b' => rw [tcmp, then_eq_iff, ih, ih', T.cons.injEq]
      | _ => simp [tcmp]
    | int z =>
      intro b
      cases b with
      | int y => rw [tcmp, good_int.eq, T.int.injEq]
      | _ => simp [tcmp]
    | str s =>
      intro b
      cases b with
      | str t => rw [tcmp, good_strcmp.eq, T.str.injEq]
      | _ => simp [tcmp]
  swap := by
    intro a
    induction a with
    | nil => intro b; cases b <;> simp [tcmp]
    | cons a a' ih ih' =>
      intro b
      cases b with
      | cons b b' => rw [tcmp, tcmp, then_swap, ih, ih']
      | _ => simp [tcmp]
    | int z =>
      intro b
      cases b with
      | int y => rw [tcmp, tcmp]; exact good_int.swap z y
      | _ => simp [tcmp]
    | str s =>
      intro b
      cases b with
      | str t => rw [tcmp, tcmp]; exact good_strcmp.swap s t
      | _ => simp [tcmp]
  trans := by
    have heq : ∀ a b, tcmp a b = .eq → a = b := by
      intro a
      induction a with
      | nil => intro b; cases b <;> simp [tcmp]
      | cons a a' ih ih' =>
        intro b
        cases b with
        | cons b b' => rw [tcmp, then_eq_iff]; rintro ⟨h, k⟩; rw [ih _ h, ih' _ k]
        | _ => simp [tcmp]
      | int z =>
        intro b
        cases b with
        | int y => rw [tcmp, good_int.eq]; rintro rfl; rfl
        | _ => simp [tcmp]
      | str s =>
        intro b
        cases b with
        | str t => rw [tcmp, good_strcmp.eq]; rintro rfl; rfl
        | _ => simp [tcmp]
    intro a
    induction a with
    | nil => intro b c h1 h2; cases b <;> cases c <;> simp [tcmp] at *
    | cons a a' ih ih' =>
      intro b c h1 h2
      cases b with
      | nil => simp [tcmp] at h1
      | cons b b' =>
        cases c with
        | nil => simp [tcmp] at h2
        | cons c c' =>
          rw [tcmp, then_lt_iff] at *
          rcases h1 with h1 | ⟨h1, h1'⟩ <;> rcases h2 with h2 | ⟨h2, h2'⟩
          · exact .inl (ih _ _ h1 h2)
          · obtain rfl := heq _ _ h2; exact .inl h1
          · obtain rfl := heq _ _ h1; exact .inl h2
          · obtain rfl := heq _ _ h1
            exact .inr ⟨h2, ih' _ _ h1' h2'⟩
        | _ => simp [tcmp]
      | _ => cases c <;> simp [tcmp] at *
    | int z =>
      intro b c h1 h2
      cases b with
      | int y =>
        cases c with
        | int x => rw [tcmp] at *; exact good_int.trans _ _ _ h1 h2
        | _ => simp [tcmp] at *
      | _ => cases c <;> simp [tcmp] at *
    | str s =>
      intro b c h1 h2
      cases b with
      | str y =>
        cases c with
        | str x => rw [tcmp] at *; exact good_strcmp.trans _ _ _ h1 h2
        | _ => simp [tcmp] at *
      | _ => cases c <;> simp [tcmp] at *

/-- Sorting gives the same list for every order of the same elements. -/
theorem sort_perm {α} {cmp : α → α → Ordering} {sort : List α → List α} (hg : Good cmp) (hs : QSorts cmp sort) {l l' : List α}
    (h : l.Perm l') : sort l = sort l' := by
  refine List.Perm.eq_of_pairwise (le := fun a b => cmp a b ≠ .gt) ?_ (hs hg l).2 (hs hg l').2
    ((hs hg l).1.trans (h.trans (hs hg l').1.symm))
  intro a b _ _ h1 h2
  rw [hg.swap] at h2
  rw [← hg.eq]
  cases h3 : cmp a b with
  | eq => rfl
  | gt => exact absurd h3 h1
  | lt => rw [h3] at h2; exact absurd rfl h2

/-! ### Splitting text -/

theorem split_ch (ch : Char) {a b x y : Text} (ha : ∀ c ∈ a, c ≠ ch) (hb : ∀ c ∈ b, c ≠ ch) (h : a ++ ch :: x = b ++ ch :: y) :
    a = b ∧ x = y := by
  induction a generalizing b with
  | nil =>
    cases b with
    | nil => simpa using h
    | cons c b =>
      simp only [List.nil_append, List.cons_append, List.cons.injEq] at h
      exact absurd h.1.symm (hb c (by simp))
  | cons d a ih =>
    cases b with
    | nil =>
      simp only [List.nil_append, List.cons_append, List.cons.injEq] at h
      exact absurd h.1 (ha d (by simp))
    | cons c b =>
      simp only [List.cons_append, List.cons.injEq] at h
      obtain ⟨e1, e2⟩ := ih (fun c hc => ha c (by simp [hc])) (fun c hc => hb c (by simp [hc])) h.2
      exact ⟨by rw [h.1, e1], e2⟩

/-- The text does not start with `c`. -/
def NotStart (c : Char) (t : Text) : Prop := ∀ r, t ≠ c :: r

/-- Lines with a mark. -/
def tagged (c : Char) (ns : List Name) : Text := (ns.map fun n => c :: ':' :: (n ++ ['\n'])).flatten

theorem tagged_cons (c : Char) (n : Name) (ns : List Name) : tagged c (n :: ns) = c :: ':' :: (n ++ '\n' :: tagged c ns) := by
  simp [tagged]

theorem tag_split (c : Char) {R R' : Text} (hR : NotStart c R) (hR' : NotStart c R') :
    ∀ ns ns' : List Name, (∀ n ∈ ns, OneLine n) → (∀ n ∈ ns', OneLine n) → tagged c ns ++ R = tagged c ns' ++ R' →
      ns = ns' ∧ R = R' := by
  intro ns
  induction ns with
  | nil =>
    intro ns' _ _ h
    cases ns' with
    | nil => exact ⟨rfl, by simpa [tagged] using h⟩
    | cons n ns' => rw [tagged_cons] at h; exact absurd (by simpa [tagged] using h) (hR _)
  | cons n ns ih =>
    intro ns' h1 h2 h
    cases ns' with
    | nil => rw [tagged_cons] at h; exact absurd (by simpa [tagged] using h.symm) (hR' _)
    | cons n' ns' =>
      rw [tagged_cons, tagged_cons] at h
      simp only [List.cons_append, List.append_assoc, List.cons.injEq, true_and] at h
      obtain ⟨e1, e2⟩ := split_ch '\n' (fun c hc => (h1 n (by simp) c hc).1) (fun c hc => (h2 n' (by simp) c hc).1) h
      obtain ⟨e3, e4⟩ := ih ns' (fun x hx => h1 x (by simp [hx])) (fun x hx => h2 x (by simp [hx])) e2
      exact ⟨by rw [e1, e3], e4⟩

theorem tagged_start (c d : Char) (hcd : d ≠ c) (ns : List Name) {R : Text} (hR : NotStart d R) : NotStart d (tagged c ns ++ R) := by
  cases ns with
  | nil => simpa [tagged] using hR
  | cons n ns =>
    intro r h
    rw [tagged_cons] at h
    simp only [List.cons_append, List.cons.injEq] at h
    exact hcd h.1.symm

/-! ### Functions -/

/-- A line: the only newline is at its end. -/
def Ln (t : Text) : Prop := ∃ b, t = b ++ ['\n'] ∧ ∀ c ∈ b, c ≠ '\n'

theorem lns_inj : ∀ l m : List Text, (∀ t ∈ l, Ln t) → (∀ t ∈ m, Ln t) → l.flatten = m.flatten → l = m := by
  intro l
  induction l with
  | nil =>
    intro m _ hm h
    cases m with
    | nil => rfl
    | cons t m => obtain ⟨b, rfl, _⟩ := hm t (by simp); simp at h
  | cons t l ih =>
    intro m hl hm h
    cases m with
    | nil => obtain ⟨b, rfl, _⟩ := hl t (by simp); simp at h
    | cons u m =>
      obtain ⟨b, rfl, hb⟩ := hl t (by simp)
      obtain ⟨d, rfl, hd⟩ := hm u (by simp)
      simp only [List.flatten_cons, List.append_assoc, List.cons_append, List.nil_append] at h
      obtain ⟨e1, e2⟩ := split_ch '\n' hb hd h
      rw [e1, ih m (fun x hx => hl x (by simp [hx])) (fun x hx => hm x (by simp [hx])) e2]

/-- The first character is a digit. -/
def DigitStart (t : Text) : Prop := ∃ c r, t = c :: r ∧ c.isDigit = true

theorem line_digit (k : Nat) (s : Shape) : DigitStart (line k s) := line_head k s

theorem line_ln (k : Nat) (s : Shape) (hs : ∀ c ∈ s.text, c ≠ '\n' ∧ c.toNat < 256) (ht : s.tail = []) : Ln (line k s) := by
  refine ⟨dec k ++ '=' :: s.body, by simp [line, ht], ?_⟩
  intro c hc
  simp only [List.mem_append, List.mem_cons] at hc
  rcases hc with hc | rfl | hc
  · exact (digit_ne_nl (dec_digit k c hc)).1
  · decide
  · exact (body_clean s hs c hc).1

theorem lines_len (t : T) : ∀ k, (lines k t).2 = k + (lines k t).1.length := by
  induction t with
  | cons a b iha ihb =>
    intro k
    simp only [lines, List.length_append, List.length_cons, List.length_nil]
    rw [ihb, iha]; omega
  | _ => intro k; rfl

theorem lines_digit (t : T) : ∀ k, ∀ l ∈ (lines k t).1, DigitStart l := by
  induction t with
  | cons a b iha ihb =>
    intro k l hl
    simp only [lines, List.mem_append, List.mem_cons, List.not_mem_nil, or_false] at hl
    rcases hl with (hl | hl) | rfl
    · exact iha _ l hl
    · exact ihb _ l hl
    · exact line_digit _ _
  | _ => intro k l hl; simp only [lines, List.mem_cons, List.not_mem_nil, or_false] at hl; subst hl; exact line_digit _ _

theorem lines_ln (t : T) (ht : t.Clean) : ∀ k, ∀ l ∈ (lines k t).1, Ln l ∧ ∀ c ∈ l, c.toNat < 256 := by
  have hb : ∀ (k : Nat) (s : Shape), (∀ c ∈ s.text, c ≠ '\n' ∧ c.toNat < 256) → s.tail = [] →
      Ln (line k s) ∧ ∀ c ∈ line k s, c.toNat < 256 := by
    intro k s hs ht
    refine ⟨line_ln k s hs ht, ?_⟩
    intro c hc
    unfold line at hc
    simp only [List.mem_append, List.mem_cons, ht, List.not_mem_nil, or_false] at hc
    rcases hc with hc | rfl | hc | rfl
    · exact (digit_ne_nl (dec_digit k c hc)).2
    · decide
    · exact (body_clean s hs c hc).2
    · decide
  induction t with
  | cons a b iha ihb =>
    intro k l hl
    simp only [lines, List.mem_append, List.mem_cons, List.not_mem_nil, or_false] at hl
    rcases hl with (hl | hl) | rfl
    · exact iha ht.1 _ l hl
    · exact ihb ht.2 _ l hl
    · exact hb _ _ (by intro c hc; simp [Shape.text] at hc) rfl
  | nil =>
    intro k l hl; simp only [lines, List.mem_cons, List.not_mem_nil, or_false] at hl; subst hl
    exact hb _ _ (by intro c hc; simp [Shape.text] at hc) rfl
  | int z =>
    intro k l hl; simp only [lines, List.mem_cons, List.not_mem_nil, or_false] at hl; subst hl
    exact hb _ _ (by intro c hc; simp [Shape.text] at hc) rfl
  | str s =>
    intro k l hl; simp only [lines, List.mem_cons, List.not_mem_nil, or_false] at hl; subst hl
    exact hb _ _ ht rfl

/-- What the last line says about a tree. -/
def rootShape (k : Nat) : T → Shape
  | .nil => .nil
  | .int z => .int z
  | .str s => .str s
  | .cons a _ => .cons (k + 1) (lines (k + 1) a).2

theorem lines_last (k : Nat) (t : T) : ∃ o, (lines k t).1 = o ++ [line k (rootShape k t)] := by
  cases t with
  | cons a b => exact ⟨_, rfl⟩
  | _ => exact ⟨[], rfl⟩

theorem rootShape_clean (k : Nat) (t : T) (ht : t.Clean) : ∀ c ∈ (rootShape k t).text, c ≠ '\n' ∧ c.toNat < 256 := by
  cases t with
  | str s => exact ht
  | _ => intro c hc; simp [rootShape, Shape.text] at hc

theorem lines_inj' : ∀ (t t' : T) (k : Nat), t.Clean → t'.Clean → (lines k t).1 = (lines k t').1 → t = t' := by
  intro t
  induction t with
  | cons a b iha ihb =>
    intro t' k hc hc' h
    obtain ⟨o, ho⟩ := lines_last k (.cons a b)
    obtain ⟨o', ho'⟩ := lines_last k t'
    have hr : rootShape k (.cons a b) = rootShape k t' := by
      rw [ho, ho'] at h
      have := (List.append_inj' h (by simp)).2
      simp only [List.cons.injEq, and_true] at this
      exact (line_inj (rootShape_clean k _ hc) (rootShape_clean k _ hc') this).2
    cases t' with
    | cons a' b' =>
      simp only [rootShape, Shape.cons.injEq, true_and] at hr
      simp only [lines] at h
      have h1 := (List.append_inj' h (by simp)).1
      have hl : (lines (k + 1) a).1.length = (lines (k + 1) a').1.length := by
        rw [lines_len, lines_len] at hr; omega
      obtain ⟨e1, e2⟩ := List.append_inj h1 hl
      rw [hr] at e2
      rw [iha a' _ hc.1 hc'.1 e1, ihb b' _ hc.2 hc'.2 e2]
    | _ => simp [rootShape] at hr
  | _ =>
    intro t' k hc hc' h
    obtain ⟨o', ho'⟩ := lines_last k t'
    rw [ho'] at h
    have := (List.append_inj' (s₁ := []) h (by simp)).2
    simp only [List.cons.injEq, and_true] at this
    have hr := (line_inj (by first | exact hc | (intro c hc; simp [Shape.text] at hc)) (rootShape_clean k _ hc') this).2
    cases t' <;> simp [rootShape] at hr <;> simp [hr]

/-- Splitting at the first element without a property. -/
theorem split_first {α} (P : α → Prop) {l l' : List α} {x x' : α} {r r' : List α} (hl : ∀ a ∈ l, P a) (hl' : ∀ a ∈ l', P a)
    (hx : ¬ P x) (hx' : ¬ P x') (h : l ++ x :: r = l' ++ x' :: r') : l = l' ∧ x = x' ∧ r = r' := by
  induction l generalizing l' with
  | nil =>
    cases l' with
    | nil => simpa using h
    | cons a l' =>
      simp only [List.nil_append, List.cons_append, List.cons.injEq] at h
      exact absurd (hl' a (by simp)) (h.1 ▸ hx)
  | cons a l ih =>
    cases l' with
    | nil =>
      simp only [List.nil_append, List.cons_append, List.cons.injEq] at h
      exact absurd (hl a (by simp)) (h.1 ▸ hx')
    | cons a' l' =>
      simp only [List.cons_append, List.cons.injEq] at h
      obtain ⟨e1, e2⟩ := ih (fun x hx => hl x (by simp [hx])) (fun x hx => hl' x (by simp [hx])) h.2
      exact ⟨by rw [h.1, e1], e2⟩

/-- The line after a function. -/
def fnLine (i k : Nat) : Text := "fn[".toList ++ dec i ++ "]:".toList ++ dec k ++ ['\n']

theorem fnLine_not_digit (i k : Nat) : ¬ DigitStart (fnLine i k) := by
  rintro ⟨c, r, h, hc⟩
  have e : fnLine i k = 'f' :: ("n[".toList ++ dec i ++ "]:".toList ++ dec k ++ ['\n']) := rfl
  rw [e, List.cons.injEq] at h
  rw [← h.1] at hc
  exact absurd hc (by decide)

theorem fnLine_ln (i k : Nat) : Ln (fnLine i k) ∧ ∀ c ∈ fnLine i k, c.toNat < 256 := by
  have hd := fun n c hc => digit_ne_nl (dec_digit n c hc)
  have h1 : ∀ c ∈ "fn[".toList, c ≠ '\n' ∧ c.toNat < 256 := by decide
  have h2 : ∀ c ∈ "]:".toList, c ≠ '\n' ∧ c.toNat < 256 := by decide
  have h3 : ∀ c ∈ "fn[".toList ++ dec i ++ "]:".toList ++ dec k, c ≠ '\n' ∧ c.toNat < 256 := by
    intro c hc
    simp only [List.mem_append] at hc
    rcases hc with ((hc | hc) | hc) | hc
    · exact h1 c hc
    · exact hd i c hc
    · exact h2 c hc
    · exact hd k c hc
  refine ⟨⟨_, rfl, fun c hc => (h3 c hc).1⟩, ?_⟩
  intro c hc
  rcases List.mem_append.1 hc with hc | hc
  · exact (h3 c hc).2
  · simp at hc; subst hc; decide

theorem fnLines_cons (i k : Nat) (t : T) (ts : List T) :
    fnLines i k (t :: ts) = (lines k t).1 ++ fnLine i k :: fnLines (i + 1) (lines k t).2 ts := rfl

theorem fnLines_inj : ∀ (ts ts' : List T) (i k : Nat), (∀ t ∈ ts, t.Clean) → (∀ t ∈ ts', t.Clean) →
    fnLines i k ts = fnLines i k ts' → ts = ts' := by
  intro ts
  induction ts with
  | nil =>
    intro ts' i k _ _ h
    cases ts' with
    | nil => rfl
    | cons t ts' => rw [fnLines_cons] at h; simp [fnLines] at h
  | cons t ts ih =>
    intro ts' i k h1 h2 h
    cases ts' with
    | nil => rw [fnLines_cons] at h; simp [fnLines] at h
    | cons t' ts' =>
      rw [fnLines_cons, fnLines_cons] at h
      obtain ⟨e1, _, e2⟩ := split_first DigitStart (lines_digit t k) (lines_digit t' k) (fnLine_not_digit i k)
        (fnLine_not_digit i k) h
      have e3 := lines_inj' t t' k (h1 t (by simp)) (h2 t' (by simp)) e1
      subst e3
      rw [ih ts' _ _ (fun x hx => h1 x (by simp [hx])) (fun x hx => h2 x (by simp [hx])) e2]

theorem fnLines_ln : ∀ (ts : List T) (i k : Nat), (∀ t ∈ ts, t.Clean) → ∀ l ∈ fnLines i k ts, Ln l ∧ ∀ c ∈ l, c.toNat < 256 := by
  intro ts
  induction ts with
  | nil => intro i k _ l hl; simp [fnLines] at hl
  | cons t ts ih =>
    intro i k h l hl
    rw [fnLines_cons] at hl
    rcases List.mem_append.1 hl with hl | hl
    · exact lines_ln t (h t (by simp)) k l hl
    · rcases List.mem_cons.1 hl with rfl | hl
      · exact fnLine_ln i k
      · exact ih _ _ (fun x hx => h x (by simp [hx])) l hl

/-! ### Instances -/

/-- Text that no word can be the start of. -/
def Hdr (R : Text) : Prop := R = [] ∨ ∃ h y, R = h ++ y ∧ (∀ c ∈ h, c ≠ ' ') ∧ ('\n' ∈ h ∨ [']', ':'] <:+: h)

theorem word_not_hdr {w x R : Text} (hw : Word w) (hR : Hdr R) : w ++ ' ' :: x ≠ R := by
  intro e
  rcases hR with rfl | ⟨h, y, rfl, hs, hh⟩
  · simp at e
  · have hbad : ∀ z, w = h ++ z → False := by
      intro z hz
      rcases hh with hh | hh
      · exact (hw.2.1 '\n' (by rw [hz]; simp [hh])).1 rfl
      · exact hw.2.2 (hz ▸ hh.trans (List.infix_append [] h z))
    rcases List.append_eq_append_iff.1 e with ⟨a, h1, h2⟩ | ⟨a, h1, _⟩
    · cases a with
      | nil => exact hbad [] (by simpa using h1.symm)
      | cons c a =>
        simp only [List.cons_append, List.cons.injEq] at h2
        exact hs c (by rw [h1]; simp) h2.1.symm
    · exact hbad a h1

/-- Words, each with a space behind it. -/
def words (ws : List Text) : Text := (ws.map (· ++ [' '])).flatten

theorem words_cons (w : Text) (ws : List Text) : words (w :: ws) = w ++ ' ' :: words ws := by simp [words]

theorem words_split {R R' : Text} (hR : Hdr R) (hR' : Hdr R') : ∀ ws ws' : List Text, (∀ w ∈ ws, Word w) → (∀ w ∈ ws', Word w) →
    words ws ++ R = words ws' ++ R' → ws = ws' ∧ R = R' := by
  intro ws
  induction ws with
  | nil =>
    intro ws' _ h2 h
    cases ws' with
    | nil => exact ⟨rfl, by simpa [words] using h⟩
    | cons w ws' =>
      rw [words_cons] at h
      simp only [words, List.map_nil, List.flatten_nil, List.nil_append, List.append_assoc, List.cons_append] at h
      exact absurd h.symm (word_not_hdr (h2 w (by simp)) hR)
  | cons w ws ih =>
    intro ws' h1 h2 h
    cases ws' with
    | nil =>
      rw [words_cons] at h
      simp only [words, List.map_nil, List.flatten_nil, List.nil_append, List.append_assoc, List.cons_append] at h
      exact absurd h (word_not_hdr (h1 w (by simp)) hR')
    | cons w' ws' =>
      rw [words_cons, words_cons] at h
      simp only [List.append_assoc, List.cons_append] at h
      obtain ⟨e1, e2⟩ := split_ch ' ' (h1 w (by simp)).1 (h2 w' (by simp)).1 h
      obtain ⟨e3, e4⟩ := ih ws' (fun x hx => h1 x (by simp [hx])) (fun x hx => h2 x (by simp [hx])) e2
      exact ⟨by rw [e1, e3], e4⟩

/-- The mark of the `i`-th pin. -/
def actMark (i : Nat) : Text := "act[".toList ++ dec i ++ "]:".toList
/-- The mark of the `i`-th instance. -/
def chMark (i : Nat) : Text := "ch[".toList ++ dec i ++ "]:".toList

theorem mark_hdr (s : Text) (hs : ∀ c ∈ s, c ≠ ' ') (i : Nat) (y : Text) : Hdr (s ++ dec i ++ "]:".toList ++ y) := by
  refine .inr ⟨s ++ dec i ++ "]:".toList, y, rfl, ?_, .inr ⟨s ++ dec i, [], by simp⟩⟩
  intro c hc
  simp only [List.mem_append] at hc
  rcases hc with (hc | hc) | hc
  · exact hs c hc
  · rintro rfl; exact absurd (dec_digit i ' ' hc) (by decide)
  · revert c; decide

/-- The text of the pins. -/
def pinsFlat (i : Nat) (ps : List (List Text)) : Text := (pinText i ps).flatten

theorem pinsFlat_cons (i : Nat) (as : List Text) (ps : List (List Text)) :
    pinsFlat i (as :: ps) = actMark i ++ (words as ++ pinsFlat (i + 1) ps) := by
  simp [pinsFlat, pinText, actMark, words]

theorem pins_hdr (i : Nat) (ps : List (List Text)) {R : Text} (hR : Hdr R) : Hdr (pinsFlat i ps ++ R) := by
  cases ps with
  | nil => simpa [pinsFlat, pinText] using hR
  | cons as ps =>
    rw [pinsFlat_cons, List.append_assoc]
    exact mark_hdr _ (by decide) i _

theorem pins_split {R R' : Text} (hR : Hdr R) (hR' : Hdr R') (hn : ∀ y, R ≠ "act[".toList ++ y)
    (hn' : ∀ y, R' ≠ "act[".toList ++ y) : ∀ (ps ps' : List (List Text)) (i : Nat), (∀ as ∈ ps, ∀ a ∈ as, Word a) →
    (∀ as ∈ ps', ∀ a ∈ as, Word a) → pinsFlat i ps ++ R = pinsFlat i ps' ++ R' → ps = ps' ∧ R = R' := by
  intro ps
  induction ps with
  | nil =>
    intro ps' i _ _ h
    cases ps' with
    | nil => exact ⟨rfl, by simpa [pinsFlat, pinText] using h⟩
    | cons as ps' =>
      rw [pinsFlat_cons] at h
      simp only [actMark, List.append_assoc] at h
      exact absurd (by simpa [pinsFlat, pinText] using h) (hn _)
  | cons as ps ih =>
    intro ps' i h1 h2 h
    cases ps' with
    | nil =>
      rw [pinsFlat_cons] at h
      simp only [actMark, List.append_assoc] at h
      exact absurd (by simpa [pinsFlat, pinText] using h.symm) (hn' _)
    | cons as' ps' =>
      rw [pinsFlat_cons, pinsFlat_cons] at h
      simp only [List.append_assoc] at h
      have h := List.append_cancel_left h
      obtain ⟨e1, e2⟩ := words_split (pins_hdr _ _ hR) (pins_hdr _ _ hR') as as' (h1 as (by simp)) (h2 as' (by simp)) h
      obtain ⟨e3, e4⟩ := ih ps' (i + 1) (fun x hx => h1 x (by simp [hx])) (fun x hx => h2 x (by simp [hx])) e2
      exact ⟨by rw [e1, e3], e4⟩

/-- The text of the instances. -/
def kidsFlat (i : Nat) (ks : List Key) : Text := (kidText i ks).flatten

theorem kidsFlat_cons (i : Nat) (k : Key) (ks : List Key) :
    kidsFlat i (k :: ks) = chMark i ++ (k.name ++ ' ' :: (k.sha ++ ' ' :: ("act_inps:\n".toList ++ (pinsFlat 1 k.ins ++
      ("act_outs:\n".toList ++ (pinsFlat 1 k.outs ++ kidsFlat (i + 1) ks)))))) := by
  simp [kidsFlat, kidText, chMark, pinsFlat]

theorem kids_hdr (i : Nat) (ks : List Key) : Hdr (kidsFlat i ks) ∧ (∀ y, kidsFlat i ks ≠ "act[".toList ++ y) := by
  cases ks with
  | nil => exact ⟨.inl rfl, by intro y h; simp [kidsFlat, kidText] at h⟩
  | cons k ks =>
    rw [kidsFlat_cons]
    refine ⟨mark_hdr _ (by decide) i _, ?_⟩
    intro y h
    have e : chMark i = 'c' :: ("h[".toList ++ dec i ++ "]:".toList) := rfl
    rw [e] at h
    simp only [List.cons_append] at h
    have h' : 'c' :: _ = 'a' :: _ := h
    injection h' with h1
    exact absurd h1 (by decide)

theorem outs_hdr (y : Text) : Hdr ("act_outs:\n".toList ++ y) ∧ (∀ z, "act_outs:\n".toList ++ y ≠ "act[".toList ++ z) := by
  refine ⟨.inr ⟨"act_outs:\n".toList, y, rfl, by decide, .inl (by decide)⟩, ?_⟩
  intro z h
  have h' : 'a' :: 'c' :: 't' :: '_' :: _ = 'a' :: 'c' :: 't' :: '[' :: _ := h
  simp at h'

theorem kids_inj : ∀ (ks ks' : List Key) (i : Nat), (∀ k ∈ ks, k.Clean) → (∀ k ∈ ks', k.Clean) →
    kidsFlat i ks = kidsFlat i ks' → ks = ks' := by
  intro ks
  induction ks with
  | nil =>
    intro ks' i _ _ h
    cases ks' with
    | nil => rfl
    | cons k ks' => rw [kidsFlat_cons] at h; simp [kidsFlat, kidText, chMark] at h
  | cons k ks ih =>
    intro ks' i h1 h2 h
    cases ks' with
    | nil => rw [kidsFlat_cons] at h; simp [kidsFlat, kidText, chMark] at h
    | cons k' ks' =>
      rw [kidsFlat_cons, kidsFlat_cons] at h
      have h := List.append_cancel_left h
      have c1 := h1 k (by simp)
      have c2 := h2 k' (by simp)
      obtain ⟨e1, h⟩ := split_ch ' ' c1.name.1 c2.name.1 h
      obtain ⟨e2, h⟩ := split_ch ' ' c1.sha.1 c2.sha.1 h
      have h := List.append_cancel_left h
      obtain ⟨e3, h⟩ := pins_split (outs_hdr _).1 (outs_hdr _).1 (outs_hdr _).2 (outs_hdr _).2 _ _ 1 c1.ins c2.ins h
      have h := List.append_cancel_left h
      obtain ⟨e4, h⟩ := pins_split (kids_hdr _ _).1 (kids_hdr _ _).1 (kids_hdr _ _).2 (kids_hdr _ _).2 _ _ 1 c1.outs c2.outs h
      rw [ih ks' _ (fun x hx => h1 x (by simp [hx])) (fun x hx => h2 x (by simp [hx])) h]
      obtain ⟨a, b, c, d⟩ := k
      obtain ⟨a', b', c', d'⟩ := k'
      simp only at e1 e2 e3 e4
      subst e1; subst e2; subst e3; subst e4; rfl

end Voss.Inst
