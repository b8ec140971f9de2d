import Verif.Inst.MkSpec
import Verif.Lib.GenLemmas
import Mathlib.Data.List.Nodup

/-
Lemmas on the making of instances.
-/
namespace Voss.Inst
open Hier Lib.Gen

theorem hash_ok : Lib.HashOK strHash strEqu where
  refl a := by simp [strEqu]
  symm a b h := by simp only [strEqu, beq_iff_eq] at h ⊢; exact h.symm
  trans a b c h k := by simp only [strEqu, beq_iff_eq] at h k ⊢; exact h.trans k
  lt a n h := Nat.mod_lt _ h
  congr a b n h := by simp only [strEqu, beq_iff_eq] at h; rw [h]

theorem contains_iff (pat s : Name) : contains pat s = true ↔ pat <:+: s := by
  induction s with
  | nil => simp [contains]
  | cons c s ih => rw [contains, Bool.or_eq_true, ih, List.infix_cons_iff, List.isPrefixOf_iff_prefix]

theorem Asserts.unique {k : Kid} {n m : Name} (h : Asserts k n) (h' : Asserts k m) : n = m := by
  obtain ⟨f, acts, e, _⟩ := h
  obtain ⟨f', acts', e', _⟩ := h'
  rw [e] at e'
  simp only [List.cons.injEq, and_true, Pin.mk.injEq] at e'
  exact e'.2.1

theorem isAssertion_spec {k : Kid} (h : Connected k) :
    (∃ n, isAssertion k = some (some n) ∧ Asserts k n) ∨ (isAssertion k = some none ∧ ∀ n, ¬ Asserts k n) := by
  unfold isAssertion
  cases ho : k.outs with
  | nil =>
    refine .inr ⟨rfl, ?_⟩
    rintro n ⟨f, acts, e, _⟩
    rw [ho] at e; simp at e
  | cons q l =>
    cases l with
    | cons q' l =>
      refine .inr ⟨rfl, ?_⟩
      rintro n ⟨f, acts, e, _⟩
      rw [ho] at e; simp at e
    | nil =>
      obtain ⟨n, acts, s, ha, hs⟩ := h q ho
      obtain ⟨f, as⟩ := q
      simp only at ha
      subst ha
      simp only [hs, Option.bind_eq_bind, Option.bind_some]
      by_cases h1 : s = 1
      · subst h1
        rw [if_neg (by simp)]
        by_cases h2 : contains "assert__".toList n = true
        · rw [if_pos h2]
          exact .inl ⟨n, rfl, f, acts, ho, hs, (contains_iff _ _).1 h2⟩
        · rw [if_neg h2]
          refine .inr ⟨rfl, ?_⟩
          rintro m ⟨f', acts', e, _, e3⟩
          rw [ho] at e
          simp only [List.cons.injEq, and_true, Pin.mk.injEq] at e
          rw [← e.2.1] at e3
          exact h2 ((contains_iff _ _).2 e3)
      · rw [if_pos h1]
        refine .inr ⟨rfl, ?_⟩
        rintro m ⟨f', acts', e, e2, _⟩
        rw [ho] at e
        simp only [List.cons.injEq, and_true, Pin.mk.injEq] at e
        rw [← e.2.1, hs] at e2
        exact h1 (Option.some.inj e2)

abbrev Holds (t : ATbl) (m : Name → Option Name) : Prop := Is strHash strEqu t m

theorem collect_spec (ks : List Kid) : ∀ (t : ATbl) (m : Name → Option Name), Holds t m → t.elements + ks.length ≤ 2147483630 →
    (∀ k ∈ ks, Connected k) →
    (collect t ks = .fail ∧ ¬ (Distinct ks ∧ ∀ k ∈ ks, ∀ n, Asserts k n → m n = none)) ∨
    (∃ t' m', collect t ks = .ok t' ∧ Holds t' m' ∧ (Distinct ks ∧ ∀ k ∈ ks, ∀ n, Asserts k n → m n = none) ∧
      ∀ n, (m' n).isSome = true ↔ (m n).isSome = true ∨ ∃ k ∈ ks, Asserts k n) := by
  induction ks with
  | nil =>
    intro t m h _ _
    exact .inr ⟨t, m, rfl, h, ⟨List.Pairwise.nil, by simp⟩, by simp⟩
  | cons k ks ih =>
    intro t m h hl hc
    rw [List.length_cons] at hl
    have hc' : ∀ k ∈ ks, Connected k := fun x hx => hc x (List.mem_cons_of_mem _ hx)
    rcases isAssertion_spec (hc k (List.mem_cons_self ..)) with ⟨n, e, ha⟩ | ⟨e, ha⟩
    · simp only [collect, e, h.find hash_ok n]
      cases hm : m n with
      | some v =>
        refine .inl ⟨rfl, ?_⟩
        rintro ⟨_, h2⟩
        rw [h2 k (List.mem_cons_self ..) n ha] at hm
        exact absurd hm (by simp)
      | none =>
        obtain ⟨t1, e1, h1, l1⟩ := h.insert hash_ok (by omega) (v := n) hm
        simp only [e1]
        have ec : (Distinct (k :: ks) ∧ ∀ k' ∈ k :: ks, ∀ n, Asserts k' n → m n = none) ↔
            (Distinct ks ∧ ∀ k' ∈ ks, ∀ n', Asserts k' n' → (if strEqu n n' then some n else m n') = none) := by
          constructor
          · rintro ⟨d, a⟩
            rw [Distinct, List.pairwise_cons] at d
            refine ⟨d.2, fun k' hk' n' hn' => ?_⟩
            have : n ≠ n' := by rintro rfl; exact d.1 k' hk' n ha hn'
            rw [if_neg (by simpa [strEqu] using this)]
            exact a k' (List.mem_cons_of_mem _ hk') n' hn'
          · rintro ⟨d, a⟩
            have hne : ∀ k' ∈ ks, ∀ n', Asserts k' n' → n ≠ n' ∧ m n' = none := by
              intro k' hk' n' hn'
              have := a k' hk' n' hn'
              by_cases hx : strEqu n n' = true
              · rw [if_pos hx] at this; exact absurd this (by simp)
              · rw [if_neg hx] at this
                exact ⟨by simpa [strEqu] using hx, this⟩
            refine ⟨List.pairwise_cons.2 ⟨fun k' hk' n' hn' hn'' => ?_, d⟩, fun k' hk' n' hn' => ?_⟩
            · rw [ha.unique hn'] at hne
              exact (hne k' hk' n' hn'').1 rfl
            · rcases List.mem_cons.1 hk' with rfl | hk'
              · rw [← ha.unique hn']; exact hm
              · exact (hne k' hk' n' hn').2
        rcases ih t1 _ h1 (by omega) hc' with ⟨r, hr⟩ | ⟨t', m', r, h', hr, hi⟩
        · exact .inl ⟨r, fun x => hr (ec.1 x)⟩
        · refine .inr ⟨t', m', r, h', ec.2 hr, fun n' => ?_⟩
          rw [hi]
          by_cases hx : n = n'
          · subst hx
            simp only [strEqu, beq_self_eq_true, if_true, Option.isSome_some, true_or, true_iff]
            exact .inr ⟨k, by simp, ha⟩
          · rw [if_neg (by simpa [strEqu] using hx)]
            constructor
            · rintro (x | ⟨k', hk', x⟩)
              · exact .inl x
              · exact .inr ⟨k', List.mem_cons_of_mem _ hk', x⟩
            · rintro (x | ⟨k', hk', x⟩)
              · exact .inl x
              · rcases List.mem_cons.1 hk' with rfl | hk'
                · exact absurd (ha.unique x) hx
                · exact .inr ⟨k', hk', x⟩
    · simp only [collect, e]
      have ec : (Distinct (k :: ks) ∧ ∀ k' ∈ k :: ks, ∀ n, Asserts k' n → m n = none) ↔
            (Distinct ks ∧ ∀ k' ∈ ks, ∀ n', Asserts k' n' → m n' = none) := by
        constructor
        · rintro ⟨d, a⟩
          rw [Distinct, List.pairwise_cons] at d
          exact ⟨d.2, fun k' hk' => a k' (List.mem_cons_of_mem _ hk')⟩
        · rintro ⟨d, a⟩
          refine ⟨List.pairwise_cons.2 ⟨fun k' _ n' hn' => absurd hn' (ha n'), d⟩, fun k' hk' n' hn' => ?_⟩
          rcases List.mem_cons.1 hk' with rfl | hk'
          · exact absurd hn' (ha n')
          · exact a k' hk' n' hn'
      rcases ih t m h (by omega) hc' with ⟨r, hr⟩ | ⟨t', m', r, h', hr, hi⟩
      · exact .inl ⟨r, fun x => hr (ec.1 x)⟩
      · refine .inr ⟨t', m', r, h', ec.2 hr, fun n' => ?_⟩
        rw [hi]
        constructor
        · rintro (x | ⟨k', hk', x⟩)
          · exact .inl x
          · exact .inr ⟨k', List.mem_cons_of_mem _ hk', x⟩
        · rintro (x | ⟨k', hk', x⟩)
          · exact .inl x
          · rcases List.mem_cons.1 hk' with rfl | hk'
            · exact absurd x (ha n')
            · exact .inr ⟨k', hk', x⟩

theorem discard_spec (ns : List Name) : ∀ (t : ATbl) (m : Name → Option Name), Holds t m →
    ∃ t' m', discard t ns = some t' ∧ Holds t' m' ∧ ∀ n, (m' n).isSome = true ↔ (m n).isSome = true ∧ n ∉ ns := by
  induction ns with
  | nil => intro t m h; exact ⟨t, m, rfl, h, by simp⟩
  | cons a ns ih =>
    intro t m h
    simp only [discard, h.find hash_ok a]
    cases hm : m a with
    | none =>
      obtain ⟨t', m', e, h', hi⟩ := ih t m h
      refine ⟨t', m', e, h', fun n => ?_⟩
      rw [hi, List.mem_cons, not_or]
      constructor
      · rintro ⟨x, y⟩
        refine ⟨x, ?_, y⟩
        rintro rfl
        rw [hm] at x; simp at x
      · rintro ⟨x, _, y⟩; exact ⟨x, y⟩
    | some v =>
      obtain ⟨t1, e1, h1, _⟩ := h.delete hash_ok (k := a) (by simp [hm])
      simp only [e1]
      obtain ⟨t', m', e, h', hi⟩ := ih t1 _ h1
      refine ⟨t', m', e, h', fun n => ?_⟩
      rw [hi, List.mem_cons, not_or]
      by_cases hx : a = n
      · subst hx; simp [strEqu]
      · rw [if_neg (by simpa [strEqu] using hx)]
        constructor
        · rintro ⟨x, y⟩; exact ⟨x, fun z => hx z.symm, y⟩
        · rintro ⟨x, _, y⟩; exact ⟨x, y⟩

theorem foldl_front (l : List (Name × Option Name)) (ints : List Name) :
    l.foldl (fun l e => e.1 :: l) ints = (l.map Prod.fst).reverse ++ ints := by
  induction l generalizing ints with
  | nil => rfl
  | cons a l ih => simp [ih]

theorem scan_spec {t : ATbl} {m : Name → Option Name} (h : Holds t m) :
    ((Lib.scan t).map Prod.fst).Nodup ∧ (Lib.scan t).length = t.elements ∧
      ∀ n, n ∈ (Lib.scan t).map Prod.fst ↔ (m n).isSome = true := by
  obtain ⟨h1, h2, h3, h4⟩ := h.entries hash_ok
  refine ⟨?_, h2, fun n => ?_⟩
  · rw [List.Nodup, List.pairwise_map]
    refine h1.imp ?_
    intro a b hab e
    rw [e] at hab
    simp [strEqu] at hab
  · rw [List.mem_map, Option.isSome_iff_exists]
    constructor
    · rintro ⟨e, he, rfl⟩
      obtain ⟨v, hv⟩ := h4 e he
      exact ⟨v, (h3 e.1 v).2 ⟨e, he, by simp [strEqu], hv⟩⟩
    · rintro ⟨v, hv⟩
      obtain ⟨e, he, h5, _⟩ := (h3 n v).1 hv
      exact ⟨e, he, (by simpa [strEqu] using h5 : n = e.1).symm⟩

theorem addAssertions_spec (t : ATbl) (m : Name → Option Name) (h : Holds t m) (outs : List Pin) (ints : List Name) :
    ∃ new : List Name, addAssertions t outs ints = some (new ++ ints) ∧ new.Nodup ∧
      ∀ n, n ∈ new ↔ (m n).isSome = true ∧ n ∉ ints ∧ n ∉ outs.map Pin.formal := by
  unfold addAssertions
  obtain ⟨_, s2, s3⟩ := scan_spec h
  by_cases h0 : t.elements = 0
  · rw [if_neg (by simpa using h0)]
    refine ⟨[], rfl, List.nodup_nil, fun n => ?_⟩
    rw [← s3]
    rw [h0] at s2
    simp [List.length_eq_zero_iff.1 s2]
  · rw [if_pos h0]
    obtain ⟨t1, m1, e1, h1, i1⟩ := discard_spec ints t m h
    obtain ⟨t2, m2, e2, h2, i2⟩ := discard_spec (outs.map Pin.formal) t1 m1 h1
    obtain ⟨r1, _, r3⟩ := scan_spec h2
    simp only [e1, e2]
    refine ⟨((Lib.scan t2).map Prod.fst).reverse, by rw [foldl_front], List.nodup_reverse.2 r1, fun n => ?_⟩
    rw [List.mem_reverse, r3, i2, i1, and_assoc]

theorem strip_eq (as : List (Name × Name)) : strip as = as.filter fun a => decide (Other a) := by
  induction as with
  | nil => rfl
  | cons a as ih =>
    rw [strip, List.filter_cons, ih]
    by_cases h : Other a
    · have : isSignature a = false := by
        simp only [isSignature, Bool.or_eq_false_iff, beq_eq_false_iff_ne]; exact h
      rw [this, if_neg (by simp), if_pos (by simpa using h)]
    · have : isSignature a = true := by
        simp only [isSignature, Bool.or_eq_true, beq_iff_eq]
        by_cases h1 : a.1 = "FP".toList
        · exact .inl h1
        · by_cases h2 : a.1 = "SHA".toList
          · exact .inr h2
          · exact absurd ⟨h1, h2⟩ h
      rw [this, if_pos rfl, if_neg (by simpa using h)]

theorem strip_other {as : List (Name × Name)} (h : ∀ a ∈ as, Other a) : strip as = as := by
  rw [strip_eq, List.filter_eq_self]
  intro a ha
  simpa using h a ha

end Voss.Inst
