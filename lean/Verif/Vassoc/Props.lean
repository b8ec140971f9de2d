import Verif.Vassoc.Model
import Verif.Vset.Zip
import Mathlib.Data.List.Forall2

/-! C115: substitution of vector names. -/

namespace Voss.Vset

open Vec

/-- The substitution of bits: `b` is a bit of one of the names to be replaced, and `c` is the bit at the same place of the name
that replaces it. -/
def Replaces (vsub : List (List Char × List Char)) (b c : List Char) : Prop :=
  ∃ x ∈ vsub, ∃ l m, mdExpand x.1 = some l ∧ mdExpand x.2 = some m ∧ ∃ i : Nat, l[i]? = some b ∧ m[i]? = some c

/-- Each name is replaced by a name of the same size. -/
def SameSize (vsub : List (List Char × List Char)) : Prop :=
  ∀ x ∈ vsub, ∃ l m, mdExpand x.1 = some l ∧ mdExpand x.2 = some m ∧ l.length = m.length

theorem lookup_mem {α β : Type} [DecidableEq α] {l : List (α × β)} {a : α} {b : β} (h : l.lookup a = some b) : (a, b) ∈ l := by
  induction l with
  | nil => simp at h
  | cons x l ih =>
    rw [List.lookup_cons] at h
    by_cases e : a = x.1
    · subst e
      simp at h; subst h; exact List.mem_cons_self
    · have : (a == x.1) = false := by simpa using e
      rw [this] at h
      exact List.mem_cons_of_mem _ (ih h)

theorem assocAll_forall {N : Type} [DecidableEq N] {l : List (N × N)} : ∀ {vs r : List N}, assocAll l vs = some r →
    List.Forall₂ (fun a b => (a, b) ∈ l) vs r
  | [], r, h => by simp [assocAll] at h; subst h; exact .nil
  | v :: vs, r, h => by
    simp only [assocAll, Option.bind_eq_bind, Option.bind_eq_some_iff, pure, Option.some.injEq] at h
    obtain ⟨a, ha, r', hr, rfl⟩ := h
    exact .cons (lookup_mem ha) (assocAll_forall hr)

theorem forall_get {α β : Type} {R : α → β → Prop} : ∀ {l : List α} {m : List β}, l.length = m.length →
    (∀ (i : Nat) a b, l[i]? = some a → m[i]? = some b → R a b) → List.Forall₂ R l m
  | [], [], _, _ => .nil
  | [], _ :: _, h, _ => by simp at h
  | _ :: _, [], h, _ => by simp at h
  | a :: l, b :: m, h, hr => .cons (hr 0 a b rfl rfl)
      (forall_get (by simpa using h) fun i x y hx hy => hr (i + 1) x y (by simpa using hx) (by simpa using hy))

theorem zip_replaces {vsub : List (List Char × List Char)} (hs : SameSize vsub) {ps qs : List (List Char)}
    (h : List.Forall₂ (fun a b => (a, b) ∈ vsub) ps qs) : ∀ {F T : List (List Char)}, mdExpandAll ps = some F →
    mdExpandAll qs = some T → ∀ x ∈ F.zip T, Replaces vsub x.1 x.2 := by
  induction h with
  | nil => intro F T h1 h2; simp [mdExpandAll] at h1; subst h1; simp
  | @cons p q ps qs hpq _ ih =>
    intro F T h1 h2 x hx
    simp only [mdExpandAll, Option.bind_eq_bind, Option.bind_eq_some_iff, Option.some.injEq] at h1 h2
    obtain ⟨l, hl, F', hF, rfl⟩ := h1
    obtain ⟨m, hm, T', hT, rfl⟩ := h2
    obtain ⟨l2, m2, e1, e2, e3⟩ := hs _ hpq
    obtain rfl := Option.some.inj (e1.symm.trans hl)
    obtain rfl := Option.some.inj (e2.symm.trans hm)
    rw [List.zip_append e3, List.mem_append] at hx
    rcases hx with hx | hx
    · obtain ⟨i, hi⟩ := List.mem_iff_getElem?.1 hx
      rw [List.getElem?_zip_eq_some] at hi
      exact ⟨(p, q), hpq, _, _, hl, hm, i, hi.1, hi.2⟩
    · exact ih hF hT x hx

/-- C115: if names are replaced by names of the same size that have at most one index group (or constants), the bits of the
answer are, in order, the bits that replace the bits of the name.  Missing: when there is an answer. -/
theorem c115_assoc_partial (sort : List Vec → List Vec) {vec : List Char} {vsub : List (List Char × List Char)}
    {out B : List (List Char)} (hs : SameSize vsub) (ht : ∀ x ∈ vsub, Proper1 x.2) (hB : mdExpand vec = some B)
    (e : vecAssoc (real sort) vec vsub = some out) :
    ∃ C, mdExpandAll out = some C ∧ List.Forall₂ (Replaces vsub) B C := by
  unfold vecAssoc at e
  split at e
  · rename_i v hl
    simp only [Option.some.injEq] at e
    subst e
    have hm := lookup_mem hl
    obtain ⟨l, m, e1, e2, e3⟩ := hs _ hm
    obtain rfl := Option.some.inj (e1.symm.trans hB)
    refine ⟨m, ?_, forall_get e3 fun i a b ha hb => ⟨_, hm, l, m, e1, e2, i, ha, hb⟩⟩
    have e2' : mdExpand v = some m := e2
    simp [mdExpandAll, e2']
  · simp only [Option.bind_eq_bind, Option.bind_eq_some_iff] at e
    obtain ⟨pots, _, potRes, hp, F, hF, T, hT, B', hB', res, hr, hm⟩ := e
    obtain rfl := Option.some.inj (hB.symm.trans hB')
    have z := zip_replaces hs (assocAll_forall hp) (expandAll_real sort hF) (expandAll_real sort hT)
    have f : List.Forall₂ (Replaces vsub) B res := (assocAll_forall hr).imp fun a b h => z (a, b) h
    have I := flat_inOrder sort
    have hbits : ∀ c ∈ res, Flat c ∧ (real sort).expand c = some [c] := by
      intro c hc
      have : ∃ b, Replaces vsub b c := by
        clear hr hm hB' hB
        induction f with
        | nil => simp at hc
        | cons h _ ih =>
          rcases List.mem_cons.1 hc with rfl | hc
          · exact ⟨_, h⟩
          · exact ih hc
      obtain ⟨b, x, hx, l, m, _, e2, i, _, hi⟩ := this
      obtain ⟨m', e3, h3⟩ := I.expand x.2 (proper1_good (ht x hx))
      have e3' : mdExpand x.2 = some m' := e3
      obtain rfl := Option.some.inj (e2.symm.trans e3')
      exact h3 c (List.mem_of_getElem? hi)
    exact ⟨res, expandAll_real sort (I.merge res out hbits hm).2, f⟩

/-- C115: the same in the other direction. -/
theorem c115_rev_partial (sort : List Vec → List Vec) {vec : List Char} {vsub : List (List Char × List Char)}
    {out B : List (List Char)} (hs : SameSize vsub) (ht : ∀ x ∈ vsub, Proper1 x.1) (hB : mdExpand vec = some B)
    (e : vecRevAssoc (real sort) vec vsub = some out) :
    ∃ C, mdExpandAll out = some C ∧ List.Forall₂ (fun b c => Replaces vsub c b) B C := by
  unfold vecRevAssoc at e
  cases hl : vsub.find? fun x => decide (x.2 = vec) with
  | some x =>
    rw [hl] at e
    simp only [Option.some.injEq] at e
    subst e
    have hm := List.mem_of_find?_eq_some hl
    have hx : x.2 = vec := by simpa using List.find?_some hl
    obtain ⟨l, m, e1, e2, e3⟩ := hs _ hm
    rw [hx] at e2
    obtain rfl := Option.some.inj (e2.symm.trans hB)
    refine ⟨l, by simp [mdExpandAll, e1], forall_get e3.symm fun i a b ha hb => ⟨_, hm, l, m, e1, by rw [hx]; exact e2, i, hb, ha⟩⟩
  | none =>
    rw [hl] at e
    obtain ⟨C, h1, h2⟩ := c115_assoc_partial sort (vsub := vsub.map fun x => (x.2, x.1))
      (by
        intro x hx
        obtain ⟨y, hy, rfl⟩ := List.mem_map.1 hx
        obtain ⟨l, m, e1, e2, e3⟩ := hs y hy
        exact ⟨m, l, e2, e1, e3.symm⟩)
      (by
        intro x hx
        obtain ⟨y, hy, rfl⟩ := List.mem_map.1 hx
        exact ht y hy) hB e
    refine ⟨C, h1, h2.imp ?_⟩
    rintro b c ⟨x, hx, l, m, e1, e2, i, hi, hj⟩
    obtain ⟨y, hy, rfl⟩ := List.mem_map.1 hx
    exact ⟨y, hy, m, l, e2, e1, i, hj, hi⟩

example : vecAssoc (real id) "a[2:1]".toList [("b".toList, "z".toList), ("a[3:2]".toList, "x[1:0]".toList),
    ("a[1:0]".toList, "y[5:4]".toList)] = some ["x[0]".toList, "y[5]".toList] := by decide +kernel

example : vecRevAssoc (real id) "x[1]".toList [("a[3:2]".toList, "x[1:0]".toList)] = some ["a[3]".toList] := by
  decide +kernel

example : SameSize [("a[3:2]".toList, "x[1:0]".toList)] := by
  intro x hx
  simp only [List.mem_singleton] at hx; subst hx
  exact ⟨["a[3]".toList, "a[2]".toList], ["x[1]".toList, "x[0]".toList], by decide +kernel, by decide +kernel, rfl⟩

/-- Negation of C115 for names with two groups: `a[2]` should become `x[1][0]` and `a[1]` `x[0][1]`, but the answer for `a[3]`,
`a[1]`, `a[2]`, `a[0]` has the bits in another order. -/
theorem c115_matrix_violated :
    vecAssoc (real id) "a[3,1,2,0]".toList [("a[3:0]".toList, "x[1:0][1:0]".toList)] = some ["x[1:0][1:0]".toList] ∧
    mdExpand "a[3,1,2,0]".toList = some ["a[3]".toList, "a[1]".toList, "a[2]".toList, "a[0]".toList] ∧
    vecAssoc (real id) "a[1]".toList [("a[3:0]".toList, "x[1:0][1:0]".toList)] = some ["x[0][1]".toList] ∧
    mdExpand "x[1:0][1:0]".toList = some ["x[1][1]".toList, "x[1][0]".toList, "x[0][1]".toList, "x[0][0]".toList] := by
  decide +kernel

/-- Negation of "names of different sizes are refused": `a[0]` becomes a bit of the name that replaces `a[3:2]`. -/
theorem c115_size_violated :
    vecAssoc (real id) "a[0]".toList [("a[1:0]".toList, "x".toList), ("a[3:2]".toList, "y[2:0]".toList)] =
      some ["y[2]".toList] := by decide +kernel

end Voss.Vset
