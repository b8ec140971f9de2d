import Verif.Io.SaveMain
/-
Saving succeeds; the file of strings; the signature; the whole of saving and loading.
-/
namespace Voss.Io.Save
open Voss.Arbi

variable {RB RE : Nat → Nat → Prop} {M : Mem} {alloc : Nat → Nat} {T : Tables}

/-! ### Termination -/

/-- How many nodes of `D` have not been seen. -/
def left (D seen : List Nat) : Nat := (D.filter (· ∉ seen)).length

theorem left_mono {D s s' : List Nat} (h : ∀ x ∈ s, x ∈ s') : left D s' ≤ left D s := by
  unfold left
  induction D with
  | nil => simp
  | cons d D ih =>
    simp only [List.filter_cons]
    by_cases h1 : d ∈ s
    · simp [h1, h d h1]; simpa using ih
    · by_cases h2 : d ∈ s'
      · simp [h1, h2]; simp at ih; omega
      · simp [h1, h2]; simpa using ih

theorem left_lt {D s : List Nat} {p : Nat} (hp : p ∈ D) (hs : p ∉ s) : left D (p :: s) < left D s := by
  have hm := fun (D : List Nat) => left_mono (D := D) (s := s) (s' := p :: s) (fun x hx => by simp [hx])
  unfold left at hm ⊢
  induction D with
  | nil => simp at hp
  | cons d D ih =>
    simp only [List.filter_cons]
    by_cases hd : d = p
    · subst hd
      simp [hs]
      have := hm D
      simp at this
      omega
    · have hp' : p ∈ D := (List.mem_cons.mp hp).resolve_left (fun h => hd h.symm)
      have := ih hp'
      by_cases h1 : d ∈ s
      · simp [h1]; simpa using this
      · simp [h1, hd]; simpa using this

theorem record_mono (w w' : WS) (nd : Node) (h : record M w nd = some w') : w'.seen = w.seen := by
  cases nd <;> simp only [record, Option.some.injEq, reduceCtorEq] at h
  case file id =>
    split at h <;> simp only [Option.some.injEq, reduceCtorEq] at h
    subst h; rfl
  all_goals (subst h; rfl)

theorem record_some (w : WS) (nd : Node) (h : leafOK M nd = true) : ∃ w', record M w nd = some w' := by
  cases nd <;> simp only [record, Option.some.injEq, exists_eq', reduceCtorEq]
  case ext => simp [leafOK] at h
  case file id =>
    simp only [leafOK] at h
    split
    · exact ⟨_, rfl⟩
    · rename_i e; rw [e] at h; simp at h

theorem writeAll_seen (g : WS → Nat → Except Err WS) (hg : ∀ w w' p, g w p = .ok w' → ∀ x ∈ w.seen, x ∈ w'.seen) :
    ∀ ks w w', writeAll g w ks = .ok w' → ∀ x ∈ w.seen, x ∈ w'.seen := by
  intro ks
  induction ks with
  | nil => intro w w' h; simp only [writeAll, Except.ok.injEq] at h; subst h; exact fun _ h => h
  | cons k ks ih =>
    intro w w' h x hx
    simp only [writeAll] at h
    cases e : g w k with
    | error => rw [e] at h; simp at h
    | ok w1 => rw [e] at h; exact ih w1 w' h x (hg w w1 k e x hx)

theorem writePtr_seen : ∀ f w w' p, writePtr M f w p = .ok w' → ∀ x ∈ w.seen, x ∈ w'.seen := by
  intro f
  induction f with
  | zero => intro w w' p h; simp [writePtr] at h
  | succ f ih =>
    intro w w' p h x hx
    rw [writePtr] at h
    by_cases h0 : p = 0
    · rw [if_pos h0, Except.ok.injEq] at h; subst h; exact hx
    rw [if_neg h0] at h
    by_cases hs : p ∈ w.seen
    · rw [if_pos hs, Except.ok.injEq] at h; subst h; exact hx
    rw [if_neg hs] at h
    cases e : M.heap p with
    | none => rw [e] at h; simp at h
    | some nd =>
      rw [e] at h; simp only at h
      cases e1 : record M { w with out := w.out ++ [.ptr p], seen := p :: w.seen } nd with
      | none => rw [e1] at h; simp at h
      | some w1 =>
        rw [e1] at h; simp only at h
        refine writeAll_seen _ ih _ _ _ h x ?_
        rw [record_mono _ _ _ e1]; simp [hx]

theorem writePtr_mono : ∀ f w w' p, writePtr M f w p = .ok w' → writePtr M (f + 1) w p = .ok w' := by
  intro f
  induction f with
  | zero => intro w w' p h; simp [writePtr] at h
  | succ f ih =>
    have all : ∀ ks w w', writeAll (writePtr M f) w ks = .ok w' → writeAll (writePtr M (f + 1)) w ks = .ok w' := by
      intro ks
      induction ks with
      | nil => intro w w' h; exact h
      | cons k ks ihk =>
        intro w w' h
        simp only [writeAll] at h ⊢
        cases e : writePtr M f w k with
        | error => rw [e] at h; simp at h
        | ok w1 =>
          rw [e] at h; simp only at h
          rw [ih w w1 k e]
          exact ihk w1 w' h
    intro w w' p h
    rw [writePtr] at h ⊢
    by_cases h0 : p = 0
    · rw [if_pos h0] at h ⊢; exact h
    rw [if_neg h0] at h ⊢
    by_cases hs : p ∈ w.seen
    · rw [if_pos hs] at h ⊢; exact h
    rw [if_neg hs] at h ⊢
    cases e : M.heap p with
    | none => rw [e] at h; simp at h
    | some nd =>
      rw [e] at h; simp only at h ⊢
      cases e1 : record M { w with out := w.out ++ [.ptr p], seen := p :: w.seen } nd with
      | none => rw [e1] at h; simp at h
      | some w1 =>
        rw [e1] at h; simp only at h ⊢
        exact all _ _ _ h

theorem writePtr_le {f f' : Nat} (h : f ≤ f') {w w' : WS} {p : Nat} (e : writePtr M f w p = .ok w') : writePtr M f' w p = .ok w' := by
  induction h with
  | refl => exact e
  | step _ ih => exact writePtr_mono _ _ _ _ ih

theorem writePtr_total (D : List Nat) (P : Nat → Prop)
    (hP : ∀ x, P x → x ∈ D ∧ ∃ nd, M.heap x = some nd ∧ leafOK M nd = true ∧ ∀ k ∈ kids M nd, P k) :
    ∀ f w p, P p → left D w.seen < f → ∃ w', writePtr M f w p = .ok w' := by
  intro f
  induction f with
  | zero => intro w p _ h; omega
  | succ f ih =>
    intro w p hp hl
    obtain ⟨hD, nd, hnd, hok, hk⟩ := hP p hp
    rw [writePtr]
    by_cases h0 : p = 0
    · rw [if_pos h0]; exact ⟨_, rfl⟩
    rw [if_neg h0]
    by_cases hs : p ∈ w.seen
    · rw [if_pos hs]; exact ⟨_, rfl⟩
    rw [if_neg hs, hnd]
    simp only
    obtain ⟨w1, e1⟩ := record_some (M := M) { w with out := w.out ++ [.ptr p], seen := p :: w.seen } nd hok
    rw [e1]
    simp only
    have hs1 : left D w1.seen < f := by
      rw [record_mono _ _ _ e1]
      have := left_lt hD hs
      simp only; omega
    have all : ∀ ks w, (∀ k ∈ ks, P k) → left D w.seen < f → ∃ w', writeAll (writePtr M f) w ks = .ok w' := by
      intro ks
      induction ks with
      | nil => intro w _ _; exact ⟨w, rfl⟩
      | cons k ks ihk =>
        intro w hks hw
        obtain ⟨w2, e2⟩ := ih w k (hks k (by simp)) hw
        simp only [writeAll, e2]
        exact ihk w2 (fun k hk => hks k (by simp [hk])) (Nat.lt_of_le_of_lt (left_mono (writePtr_seen _ _ _ _ e2)) hw)
    exact all _ _ hk hs1

/-! ### The check before saving -/

/-- What a successful check has found out. -/
structure Checked (M : Mem) (seen seen' : List Nat) : Prop where
  mono : ∀ x ∈ seen, x ∈ seen'
  ok : ∀ x ∈ seen', x ∉ seen → ∀ nd, M.heap x = some nd → leafOK M nd = true ∧ ∀ k ∈ kids M nd, k ∈ seen'

theorem Checked.trans {a b c : List Nat} (h1 : Checked M a b) (h2 : Checked M b c) : Checked M a c := by
  refine ⟨fun x h => h2.mono x (h1.mono x h), fun x hx hn nd e => ?_⟩
  by_cases hb : x ∈ b
  · exact ⟨(h1.ok x hb hn nd e).1, fun k hk => h2.mono k ((h1.ok x hb hn nd e).2 k hk)⟩
  · exact h2.ok x hx hb nd e

theorem canSave_spec (D : List Nat) (P : Nat → Prop)
    (hP : ∀ x, P x → x ∈ D ∧ ∃ nd, M.heap x = some nd ∧ ∀ k ∈ kids M nd, P k) :
    ∀ f seen p, P p → left D seen < f → ∃ b seen', canSave M f seen p = .ok (b, seen') ∧
      (∀ x ∈ seen, x ∈ seen') ∧
      (b = true → p ∈ seen' ∧ Checked M seen seen') ∧
      (b = false → ∃ x nd, P x ∧ M.heap x = some nd ∧ leafOK M nd = false) := by
  intro f
  induction f with
  | zero => intro seen p _ h; omega
  | succ f ih =>
    intro seen p hp hl
    obtain ⟨hD, nd, hnd, hk⟩ := hP p hp
    rw [canSave]
    by_cases hs : p ∈ seen
    · rw [if_pos hs]
      exact ⟨true, seen, rfl, fun _ h => h, fun _ => ⟨hs, fun _ h => h, fun x hx hn => absurd hx hn⟩, by simp⟩
    rw [if_neg hs, hnd]
    simp only
    by_cases hok : leafOK M nd = true
    swap
    · rw [if_neg hok]
      exact ⟨false, _, rfl, fun x h => by simp [h], by simp, fun _ => ⟨p, nd, hp, hnd, by simpa using hok⟩⟩
    rw [if_pos hok]
    have hs1 : left D (p :: seen) < f := by
      have := left_lt hD hs
      omega
    have all : ∀ ks seen, (∀ k ∈ ks, P k) → left D seen < f → ∃ b seen', canAll (canSave M f) seen ks = .ok (b, seen') ∧
        (∀ x ∈ seen, x ∈ seen') ∧
        (b = true → (∀ k ∈ ks, k ∈ seen') ∧ Checked M seen seen') ∧
        (b = false → ∃ x nd, P x ∧ M.heap x = some nd ∧ leafOK M nd = false) := by
      intro ks
      induction ks with
      | nil => intro seen _ _; exact ⟨true, seen, rfl, fun _ h => h, fun _ => ⟨by simp, fun _ h => h, fun x hx hn => absurd hx hn⟩, by simp⟩
      | cons k ks ihk =>
        intro seen hks hw
        obtain ⟨b, s1, e1, m1, t1, f1⟩ := ih seen k (hks k (by simp)) hw
        cases b with
        | false => exact ⟨false, s1, by simp only [canAll, e1], m1, by simp, fun _ => f1 rfl⟩
        | true =>
          obtain ⟨b, s2, e2, m2, t2, f2⟩ := ihk s1 (fun k hk => hks k (by simp [hk])) (Nat.lt_of_le_of_lt (left_mono m1) hw)
          refine ⟨b, s2, by simp only [canAll, e1, e2], fun x h => m2 x (m1 x h), ?_, f2⟩
          intro hb
          refine ⟨?_, (t1 rfl).2.trans (t2 hb).2⟩
          intro k' hk'
          rcases List.mem_cons.mp hk' with rfl | h
          · exact m2 _ (t1 rfl).1
          · exact (t2 hb).1 k' h
    obtain ⟨b, s', e, m, t, fl⟩ := all (kids M nd) (p :: seen) hk hs1
    refine ⟨b, s', e, fun x h => m x (by simp [h]), ?_, fl⟩
    intro hb
    obtain ⟨h1, h2⟩ := t hb
    refine ⟨m p (by simp), ⟨fun x h => m x (by simp [h]), ?_⟩⟩
    intro x hx hn nd' e'
    by_cases hxp : x = p
    · subst hxp
      rw [hnd, Option.some.injEq] at e'; subst e'
      exact ⟨hok, h1⟩
    · exact h2.ok x hx (by simp [hxp, hn]) nd' e'

theorem reach_closed (p : Nat) (D : List Nat) (hG : Graph M p D) :
    ∀ x, Reach M p x → x ∈ D ∧ ∃ nd, M.heap x = some nd ∧ ∀ k ∈ kids M nd, Reach M p k := by
  intro x hx
  obtain ⟨h1, h2, nd, h3⟩ := hG x hx
  exact ⟨h1, nd, h3, fun k hk => .step hx h3 hk⟩

theorem left_nil (D : List Nat) : left D [] = D.length := by unfold left; simp

/-- The check finds out whether all nodes can be saved. -/
theorem canSave_iff (p : Nat) (D : List Nat) (hG : Graph M p D) (fuel : Nat) (hf : D.length < fuel) :
    ∃ b seen, canSave M fuel [] p = .ok (b, seen) ∧
      (b = true ↔ ∀ x nd, Reach M p x → M.heap x = some nd → leafOK M nd = true) := by
  obtain ⟨b, seen, e, _, ht, hfl⟩ := canSave_spec D (Reach M p) (reach_closed p D hG) fuel [] p .refl (by rw [left_nil]; exact hf)
  refine ⟨b, seen, e, ?_⟩
  constructor
  · intro hb
    obtain ⟨h1, h2⟩ := ht hb
    have : ∀ x, Reach M p x → x ∈ seen := by
      intro x hx
      induction hx with
      | refl => exact h1
      | step hx hnd hk ih => exact (h2.ok _ ih (by simp) _ hnd).2 _ hk
    intro x nd hx hnd
    exact (h2.ok x (this x hx) (by simp) nd hnd).1
  · intro h
    cases b with
    | true => rfl
    | false =>
      obtain ⟨x, nd, hx, hnd, hbad⟩ := hfl rfl
      rw [h x nd hx hnd] at hbad
      simp at hbad

/-! ### The file of strings -/

theorem app_short (s : List Char) (h : s.length ≤ strBlock) : app [] s = s := by
  unfold app
  simp only [List.nil_append, List.length_nil, Nat.sub_zero]
  exact List.take_of_length_le h

theorem stringsText_cons (s : List Char) (l : List (List Char)) :
    stringsText (s :: l) = numeral 10 s.length ++ ' ' :: (s ++ '\n' :: stringsText l) := by
  unfold stringsText; simp

/-- Reading the file of strings gives the strings, each cut to the size of the buffer, and an empty one. -/
theorem rdStrings_text : ∀ (l : List (List Char)) (f : Nat), l.length < f →
    rdStrings f (stringsText l) = some (l.map (app []) ++ [[]]) := by
  intro l
  induction l with
  | nil =>
    intro f hf
    obtain ⟨f, rfl⟩ : ∃ g, f = g + 1 := ⟨f - 1, by omega⟩
    rfl
  | cons s l ih =>
    intro f hf
    obtain ⟨f, rfl⟩ : ∃ g, f = g + 1 := ⟨f - 1, by omega⟩
    rw [stringsText_cons, rdStrings]
    have := takeWhile_app Char.isDigit (numeral 10 s.length) ' ' (s ++ '\n' :: stringsText l) (fun c hc => (numeral10 _ c hc).1) (by decide)
    simp only [this.1, this.2, readNat_numeral 10 (by omega) (by omega), Option.getD_some, List.drop_succ_cons, List.drop_zero]
    rw [if_neg (by simp), List.take_left, List.drop_left]
    simp only
    rw [ih f (by simp at hf; omega)]
    rfl

theorem stringsText_length (l : List (List Char)) : l.length ≤ (stringsText l).length := by
  induction l with
  | nil => simp
  | cons s l ih => rw [stringsText_cons]; simp; omega

theorem rdStrings_all (l : List (List Char)) :
    rdStrings ((stringsText l).length + 1) (stringsText l) = some (l.map (app []) ++ [[]]) :=
  rdStrings_text l _ (by have := stringsText_length l; omega)

/-! ### The signature -/

/-- Signatures as they occur: one line that does not begin with a blank and fits into the buffer. -/
structure GoodSig (sig : List Char) : Prop where
  line : '\n' ∉ sig
  short : sig.length < strBlock - 2
  head : ∀ c, sig.head? = some c → isSpace c = false
  ne : sig ≠ []

theorem sigOK_iff (sig sig' : List Char) (h : GoodSig sig) (h' : '\n' ∉ sig') :
    sigOK ('0' :: '\n' :: sig ++ ['\n']) sig' = true ↔ sig' <+: sig := by
  have hr : rdNum ('0' :: '\n' :: sig ++ ['\n']) = some (0, sig ++ ['\n']) := by
    unfold rdNum
    have e1 : skip ('0' :: '\n' :: sig ++ ['\n']) = '0' :: '\n' :: (sig ++ ['\n']) := skip_of_head (by decide)
    simp only [e1]
    have := takeWhile_app Char.isDigit ['0'] '\n' (sig ++ ['\n']) (by simp) (by decide)
    simp only [List.singleton_append] at this
    simp only [this.1, this.2]
    rw [if_neg (by simp), skip_nl]
    have : skip (sig ++ ['\n']) = sig ++ ['\n'] := by
      cases e : sig with
      | nil => exact absurd e h.ne
      | cons c r => exact skip_of_head (h.head c (by rw [e]; rfl))
    rw [this]; rfl
  unfold sigOK
  rw [hr]
  have ht : (sig ++ ['\n']).take (strBlock - 2) = sig ++ ['\n'] := List.take_of_length_le (by simp; exact h.short)
  have hw := takeWhile_app (fun c : Char => decide (c ≠ '\n')) sig '\n' [] (by intro c hc; simp; intro e; exact h.line (e ▸ hc)) (by simp)
  simp only [ht, hw.1]
  rw [if_pos (by simp), List.isPrefixOf_iff_prefix]
  constructor
  · rintro ⟨t, ht⟩
    rcases List.eq_nil_or_concat t with rfl | ⟨t', c, rfl⟩
    · exfalso
      rw [List.append_nil] at ht
      exact h' (by rw [ht]; simp)
    · rw [List.concat_eq_append, ← List.append_assoc] at ht
      exact ⟨t', (List.append_inj' ht rfl).1⟩
  · intro hp
    exact hp.trans (List.prefix_append _ _)

/-! ### Saving and loading -/

/-- What saving gives when nothing prevents it. -/
theorem save_ok (sig : List Char) (p : Nat) (D : List Nat) (hG : Graph M p D)
    (hs : ∀ x nd, Reach M p x → M.heap x = some nd → leafOK M nd = true) :
    ∃ w, (∀ fuel, D.length < fuel → writePtr M fuel ⟨[], [], [], [], []⟩ p = .ok w) ∧
      ∀ fuel, D.length < fuel → save M sig p fuel = .ok (some ⟨'0' :: '\n' :: sig ++ ['\n'],
        stringsText (w.strs.map (·.2)), text w.out, w.bools, w.bexprs⟩) := by
  obtain ⟨w, hw⟩ := writePtr_total (M := M) D (Reach M p) (fun x hx => by
    obtain ⟨h1, nd, h2, h3⟩ := reach_closed p D hG x hx
    exact ⟨h1, nd, h2, hs x nd hx h2, h3⟩) (D.length + 1) ⟨[], [], [], [], []⟩ p .refl (by
      show left D [] < _
      rw [left_nil]; omega)
  have hall : ∀ fuel, D.length < fuel → writePtr M fuel ⟨[], [], [], [], []⟩ p = .ok w := fun fuel hf => writePtr_le hf hw
  refine ⟨w, hall, ?_⟩
  intro fuel hf
  obtain ⟨b, seen, e, hb⟩ := canSave_iff p D hG fuel hf
  have : b = true := hb.mpr hs
  subst this
  unfold save
  rw [e]
  simp only [hall fuel hf]

/-- All strings of the table of the writer come from nodes. -/
def FromNodes (M : Mem) (p : Nat) (w : WS) : Prop :=
  ∀ b s, (b, s) ∈ w.strs → ∃ x nd, Reach M p x ∧ M.heap x = some nd ∧ s ∈ texts M nd

theorem intern_mem {α : Type} [DecidableEq α] (l : List α) (x y : α) (h : y ∈ (intern l x).2) : y ∈ l ∨ y = x := by
  unfold intern at h
  split at h
  · exact .inl h
  · simpa using h

theorem record_texts (w w' : WS) (nd : Node) (h : record M w nd = some w') :
    ∀ b s, (b, s) ∈ w'.strs → (b, s) ∈ w.strs ∨ s ∈ texts M nd := by
  intro b s hm
  cases nd <;> simp only [record, Option.some.injEq, reduceCtorEq] at h
  case file id =>
    split at h <;> simp only [Option.some.injEq, reduceCtorEq] at h
    subst h
    rename_i n e
    rcases intern_mem _ _ _ hm with h | h
    · exact .inl h
    · right
      simp only [Prod.mk.injEq] at h
      simp [texts, e, h.2]
  case int z =>
    subst h
    simp only [WS.int, WS.emit, List.mem_append, List.mem_singleton, Prod.mk.injEq] at hm
    rcases hm with h | h
    · exact .inl h
    · right; simp [texts, h.2]
  case str z =>
    subst h
    rcases intern_mem _ _ _ hm with h | h
    · exact .inl h
    · right; simp only [Prod.mk.injEq] at h; simp [texts, h.2]
  case text k z =>
    subst h
    rcases intern_mem _ _ _ hm with h | h
    · exact .inl h
    · right; simp only [Prod.mk.injEq] at h; simp [texts, h.2]
  case var z =>
    subst h
    rcases intern_mem _ _ _ hm with h | h
    · exact .inl h
    · right; simp only [Prod.mk.injEq] at h; simp [texts, h.2]
  all_goals (subst h; exact .inl hm)

theorem writePtr_texts (p0 : Nat) : ∀ f w w' p, Reach M p0 p → FromNodes M p0 w → writePtr M f w p = .ok w' → FromNodes M p0 w' := by
  intro f
  induction f with
  | zero => intro w w' p _ _ h; simp [writePtr] at h
  | succ f ih =>
    intro w w' p hp hw h
    rw [writePtr] at h
    by_cases h0 : p = 0
    · rw [if_pos h0, Except.ok.injEq] at h; subst h; exact hw
    rw [if_neg h0] at h
    by_cases hs : p ∈ w.seen
    · rw [if_pos hs, Except.ok.injEq] at h; subst h; exact hw
    rw [if_neg hs] at h
    cases e : M.heap p with
    | none => rw [e] at h; simp at h
    | some nd =>
      rw [e] at h; simp only at h
      cases e1 : record M { w with out := w.out ++ [.ptr p], seen := p :: w.seen } nd with
      | none => rw [e1] at h; simp at h
      | some w1 =>
        rw [e1] at h; simp only at h
        have h1 : FromNodes M p0 w1 := by
          intro b s hm
          rcases record_texts _ _ _ e1 b s hm with h | h
          · exact hw b s h
          · exact ⟨p, nd, hp, e, h⟩
        have all : ∀ ks w w', (∀ k ∈ ks, Reach M p0 k) → FromNodes M p0 w → writeAll (writePtr M f) w ks = .ok w' → FromNodes M p0 w' := by
          intro ks
          induction ks with
          | nil => intro w w' _ hw h; simp only [writeAll, Except.ok.injEq] at h; subst h; exact hw
          | cons k ks ihk =>
            intro w w' hks hw h
            simp only [writeAll] at h
            cases e2 : writePtr M f w k with
            | error => rw [e2] at h; simp at h
            | ok w2 =>
              rw [e2] at h
              exact ihk w2 w' (fun k hk => hks k (by simp [hk])) (ih w w2 k (hks k (by simp)) hw e2) h
        exact all _ _ _ (fun k hk => .step hp e hk) h1 h

/-- Loading what was saved gives a copy. -/
theorem load_ok (p : Nat) (D : List Nat) (hG : Graph M p D)
    (hk : ∀ x nd, Reach M p x → M.heap x = some nd → Known M nd)
    (w : WS) (fuel : Nat) (hw : writePtr M fuel ⟨[], [], [], [], []⟩ p = .ok w)
    (M0 : Mem) (redex : Nat) (hR : Ready M0 alloc redex)
    (hT : TOK RB RE T w) :
    ∃ q r m, readPtr T alloc fuel ⟨text w.out, [], M0, 0⟩ = .ok (q, r) ∧ ∃ nd, r.mem.heap q = some nd ∧
      Copy RB RE M p M0 (put r.mem redex nd) redex m ∧ RefsApart M p (put r.mem redex nd) m := by
  have hP : ∀ x, Reach M p x → x ≠ 0 ∧ ∀ nd, M.heap x = some nd → Known M nd ∧ ∀ k ∈ kids M nd, Reach M p k :=
    fun x hx => ⟨(hG x hx).2.1, fun nd e => ⟨hk x nd hx e, fun k hk => .step hx e hk⟩⟩
  obtain ⟨ts, ho, hg, hm, hrd⟩ := readPtr_ok (RB := RB) (RE := RE) hR.inj hR.pos (Reach M p) hP fuel _ w p .refl hw
  obtain ⟨q, r, e, _, inv, st, hl⟩ := hrd T hT ⟨text w.out, [], M0, 0⟩ [] (by simp)
    ⟨by simp, by simp, by simp, hR.std⟩ (by simp [ho])
  have hseen : ∀ x, Reach M p x → x ∈ w.seen := by
    intro x hx
    induction hx with
    | refl => exact (inv.dom p).mpr ⟨q, hl⟩
    | step hx hnd hkk ih =>
      obtain ⟨nd, nd', e1, _, _, e4⟩ := st.done _ ih (by simp)
      rw [hnd, Option.some.injEq] at e1; subst e1
      exact e4 _ hkk
  have hm : ∀ x, Reach M p x → ∃ i, mp r.map x = alloc i ∧ r.map.lookup x = some (alloc i) := by
    intro x hx
    obtain ⟨q', hq⟩ := (inv.dom x).mp (hseen x hx)
    obtain ⟨i, _, rfl⟩ := inv.rng x q' hq
    exact ⟨i, by unfold mp; rw [hq]; rfl, hq⟩
  have hne : ∀ x, Reach M p x → mp r.map x ≠ redex := by
    intro x hx he
    obtain ⟨i, h1, _⟩ := hm x hx
    exact hR.used (by rw [← he, h1]; exact hR.free i)
  obtain ⟨nd0, nd, e1, e2, e3, _⟩ := st.done p (hseen p .refl) (by simp)
  have hq : mp r.map p = q := by unfold mp; rw [hl]; rfl
  rw [hq] at e2
  have hput : ∀ x, Reach M p x → (put r.mem redex nd).heap (mp r.map x) = r.mem.heap (mp r.map x) := by
    intro x hx
    show (if mp r.map x = redex then some nd else r.mem.heap (mp r.map x)) = _
    rw [if_neg (hne x hx)]
  refine ⟨q, r, mp r.map, e, nd, e2, ⟨?_, ?_, ?_, ?_, ?_, st.refs, st.streams⟩, ?_⟩
  · intro x y hx hy hxy
    obtain ⟨i, h1, h2⟩ := hm x hx
    obtain ⟨j, h3, h4⟩ := hm y hy
    rw [h1, h3] at hxy
    exact inv.inj x y _ h2 (by rw [h4, hxy])
  · intro x hx
    obtain ⟨i, h1, _⟩ := hm x hx
    rw [h1]; exact hR.free i
  · intro x n hx hn
    obtain ⟨n1, n2, a1, a2, a3, _⟩ := st.done x (hseen x hx) (by simp)
    rw [hn, Option.some.injEq] at a1; subst a1
    exact ⟨n2, by rw [hput x hx, a2], a3.congr (fun _ _ => rfl) (Nat.le_refl _) (Nat.le_refl _) rfl (Nat.le_refl _) (Nat.le_refl _)
      (fun _ _ => rfl)⟩
  · rw [hput p .refl, hq, e2]
    show (if redex = redex then some nd else _) = _
    rw [if_pos rfl]
  · intro y hy hyr
    show (if y = redex then some nd else r.mem.heap y) = _
    rw [if_neg hyr]
    exact st.heap y (fun i _ _ he => hy (by rw [he]; exact hR.free i))
  · intro x y v hx hy hvx hvy
    rw [hput x hx] at hvx
    rw [hput y hy] at hvy
    exact st.apart x (hseen x hx) (by simp) y (hseen y hy) (by simp) v hvx hvy

end Voss.Io.Save
