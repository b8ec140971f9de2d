import Verif.Lib.HashSpec
/-
Refinement of hash tables to finite maps.
-/
namespace Voss.Lib

/-- Each element of a chain belongs there. -/
def Bucketed {K V : Type} (h : K → Nat → Nat) (size : Nat) (tbl : List (List (K × Option V))) : Prop :=
  tbl.length = size ∧ 0 < size ∧ ∀ i chain, tbl[i]? = some chain → ∀ e ∈ chain, h e.1 size = i

/-- The table stands for the map. -/
structure Rel {K V : Type} (h : K → Nat → Nat) (eq : K → K → Bool) (t : Tbl K V) (m : Spec K V) : Prop where
  bk : Bucketed h t.size t.table
  uniq : t.table.flatten.Pairwise (fun a b => eq a.1 b.1 = false)
  map : ∀ k d, m.map k = some d ↔ ∃ e ∈ t.table.flatten, eq k e.1 = true ∧ e.2 = d
  cnt : t.elements = t.table.flatten.length
  cnt' : m.count = t.elements

section
variable {K V : Type} {h : K → Nat → Nat} {eq : K → K → Bool}

theorem nextPrime_spec {n : Nat} (hn : n ≤ 2147483629) : ∃ p, nextPrime n = some p ∧ 0 < p := by
  have : (nextPrime n).isSome := by
    rw [nextPrime, List.find?_isSome]
    exact ⟨2147483629, by decide, by simpa using hn⟩
  obtain ⟨p, hp⟩ := Option.isSome_iff_exists.1 this
  refine ⟨p, hp, ?_⟩
  have := List.mem_of_find?_eq_some hp
  revert this; clear hp
  have : ∀ q ∈ primes, 0 < q := by decide
  exact this p

theorem flatten_set {α : Type} : ∀ (l : List (List α)) (i : Nat) (c c' : List α) (x : α), l[i]? = some c →
    c' = x :: c → ((l.set i c').flatten).Perm (x :: l.flatten) := by
  intro l
  induction l with
  | nil => intro i c c' x hi; simp at hi
  | cons a l ih =>
    intro i c c' x hi hc
    cases i with
    | zero => simp at hi; subst hi; subst hc; simp
    | succ i =>
      simp at hi
      simp only [List.set_cons_succ, List.flatten_cons]
      refine ((ih i c c' x hi hc).append_left a).trans ?_
      exact List.perm_middle

theorem flatten_set' {α : Type} : ∀ (l : List (List α)) (i : Nat) (c c' : List α) (x : α), l[i]? = some c →
    c.Perm (x :: c') → (x :: (l.set i c').flatten).Perm l.flatten := by
  intro l
  induction l with
  | nil => intro i c c' x hi; simp at hi
  | cons a l ih =>
    intro i c c' x hi hc
    cases i with
    | zero =>
      simp at hi; subst hi
      simp only [List.set_cons_zero, List.flatten_cons]
      exact (hc.symm.append_right _)
    | succ i =>
      simp at hi
      simp only [List.set_cons_succ, List.flatten_cons]
      exact (List.perm_middle.symm).trans ((ih i c c' x hi hc).append_left a)

theorem place_spec (H : HashOK h eq) {size : Nat} {tbl : List (List (K × Option V))} (B : Bucketed h size tbl)
    (e : K × Option V) : ∃ tbl', place h size tbl e = some tbl' ∧ Bucketed h size tbl' ∧
      tbl'.flatten.Perm (e :: tbl.flatten) := by
  obtain ⟨hl, hp, hb⟩ := B
  have hlt : h e.1 size < tbl.length := by rw [hl]; exact H.lt _ _ hp
  have hg : tbl[h e.1 size]? = some tbl[h e.1 size] := List.getElem?_eq_getElem hlt
  refine ⟨_, by simp only [place, hg, Option.bind_eq_bind, Option.bind_some], ⟨by simpa using hl, hp, ?_⟩,
    flatten_set _ _ _ _ _ hg rfl⟩
  intro i chain hi e' he'
  rw [List.getElem?_set] at hi
  split at hi
  · next h1 =>
    subst h1
    cases hi
    rcases List.mem_cons.1 he' with rfl | h2
    · rfl
    · exact hb _ _ hg _ h2
  · exact hb _ _ hi _ he'

theorem placeAll_spec (H : HashOK h eq) {size : Nat} : ∀ (es : List (K × Option V)) (tbl : List (List (K × Option V))),
    Bucketed h size tbl → ∃ tbl', placeAll h size tbl es = some tbl' ∧ Bucketed h size tbl' ∧
      tbl'.flatten.Perm (es ++ tbl.flatten) := by
  intro es
  induction es with
  | nil => intro tbl B; exact ⟨tbl, rfl, B, List.Perm.refl _⟩
  | cons e es ih =>
    intro tbl B
    obtain ⟨t1, e1, B1, P1⟩ := place_spec H B e
    obtain ⟨t2, e2, B2, P2⟩ := ih t1 B1
    refine ⟨t2, by simp only [placeAll, e1, Option.bind_eq_bind, Option.bind_some, e2], B2, ?_⟩
    refine P2.trans ((P1.append_left es).trans ?_)
    simp only [List.cons_append]
    exact List.perm_middle

theorem flatten_replicate_nil {α : Type} (n : Nat) : (List.replicate n ([] : List α)).flatten = [] := by
  induction n with
  | zero => rfl
  | succ n ih => rw [List.replicate_succ, List.flatten_cons, ih]; rfl

theorem bucketed_empty {n : Nat} (hn : 0 < n) : Bucketed (V := V) h n (List.replicate n []) := by
  refine ⟨by simp, hn, ?_⟩
  intro i chain hi e he
  rw [List.getElem?_replicate] at hi
  split at hi
  · cases hi; simp at he
  · exact absurd hi (by simp)

theorem uniq_perm (H : HashOK h eq) {l l' : List (K × Option V)} (P : l'.Perm l)
    (U : l.Pairwise (fun a b => eq a.1 b.1 = false)) : l'.Pairwise (fun a b => eq a.1 b.1 = false) := by
  refine P.symm.pairwise U ?_
  intro a b hab
  cases hb : eq b.1 a.1 with
  | false => rfl
  | true => rw [H.symm _ _ hb] at hab; exact absurd hab (by simp)

theorem Rel.perm (H : HashOK h eq) {t t' : Tbl K V} {m : Spec K V} (R : Rel h eq t m)
    (B : Bucketed h t'.size t'.table) (P : t'.table.flatten.Perm t.table.flatten) (he : t'.elements = t.elements) :
    Rel h eq t' m := by
  refine ⟨B, uniq_perm H P R.uniq, ?_, ?_, by rw [he]; exact R.cnt'⟩
  · intro k d
    rw [R.map]
    constructor
    · rintro ⟨e, h1, h2⟩; exact ⟨e, P.mem_iff.2 h1, h2⟩
    · rintro ⟨e, h1, h2⟩; exact ⟨e, P.mem_iff.1 h1, h2⟩
  · rw [he, R.cnt, P.length_eq]

theorem create_spec (size : Nat) (hs : size ≤ 2147483629) :
    ∃ t, create (K := K) (V := V) size = some t ∧ Rel h eq t Spec.empty := by
  obtain ⟨p, e, hp⟩ := nextPrime_spec hs
  refine ⟨⟨true, p, 0, List.replicate p []⟩, by simp only [create, e, Option.bind_eq_bind, Option.bind_some], bucketed_empty hp, ?_, ?_, ?_, rfl⟩
  · simp only [flatten_replicate_nil]; exact List.Pairwise.nil
  · intro k d; simp [Spec.empty]
  · simp only [flatten_replicate_nil]; rfl

theorem resize_spec (H : HashOK h eq) {t : Tbl K V} {m : Spec K V} (R : Rel h eq t m)
    (hn : t.elements ≤ 2147483629) : ∃ t', resize h t = some t' ∧ Rel h eq t' m ∧ t'.elements = t.elements := by
  unfold resize
  split
  · obtain ⟨p, e, hp⟩ := nextPrime_spec hn
    obtain ⟨tbl, e2, B, P⟩ := placeAll_spec H t.table.flatten _ (bucketed_empty (V := V) (h := h) hp)
    refine ⟨{ t with size := p, table := tbl }, by simp only [e, Option.bind_eq_bind, Option.bind_some, e2], R.perm H B ?_ rfl, rfl⟩
    simpa [flatten_replicate_nil] using P
  · exact ⟨t, rfl, R, rfl⟩

theorem Rel.none {t : Tbl K V} {m : Spec K V} (R : Rel h eq t m) {k : K} (hk : m.map k = none) :
    ∀ e ∈ t.table.flatten, eq k e.1 = false := by
  intro e he
  cases h1 : eq k e.1 with
  | false => rfl
  | true => rw [(R.map k e.2).2 ⟨e, he, h1, rfl⟩] at hk; exact absurd hk (by simp)

theorem insert_spec (H : HashOK h eq) {t : Tbl K V} {m : Spec K V} (R : Rel h eq t m)
    (hn : t.elements ≤ 2147483629) {k : K} {d : Option V} (hk : m.map k = none) :
    ∃ t', insert h t k d = some t' ∧ Rel h eq t' (m.put eq k d) ∧ t'.elements = t.elements + 1 := by
  obtain ⟨t1, e1, R1, hel⟩ := resize_spec H R hn
  obtain ⟨tbl, e2, B, P⟩ := place_spec H R1.bk (k, d)
  refine ⟨{ t1 with elements := t1.elements + 1, table := tbl }, by simp only [insert, e1, Option.bind_eq_bind, Option.bind_some, e2], ⟨B, ?_, ?_, ?_, ?_⟩,
    by show t1.elements + 1 = _; rw [hel]⟩
  · refine uniq_perm H P (List.Pairwise.cons ?_ R1.uniq)
    exact R1.none hk
  · intro k' d'
    show (if eq k k' then some d else m.map k') = some d' ↔ ∃ e ∈ tbl.flatten, _
    have hP : (∃ e ∈ tbl.flatten, eq k' e.1 = true ∧ e.2 = d') ↔
        (eq k' k = true ∧ d = d') ∨ ∃ e ∈ t1.table.flatten, eq k' e.1 = true ∧ e.2 = d' := by
      constructor
      · rintro ⟨e, h1, h2⟩
        rcases List.mem_cons.1 (P.mem_iff.1 h1) with rfl | h3
        · exact Or.inl h2
        · exact Or.inr ⟨e, h3, h2⟩
      · rintro (h2 | ⟨e, h3, h2⟩)
        · exact ⟨(k, d), P.mem_iff.2 (List.mem_cons_self ..), h2⟩
        · exact ⟨e, P.mem_iff.2 (List.mem_cons_of_mem _ h3), h2⟩
    rw [hP, ← R1.map]
    cases h1 : eq k k' with
    | true =>
      have h2 := H.symm _ _ h1
      simp only [if_true, Option.some.injEq, h2, true_and]
      constructor
      · exact Or.inl
      · rintro (h3 | h3)
        · exact h3
        · obtain ⟨e, he, he2, _⟩ := (R1.map _ _).1 h3
          exact absurd (R1.none hk e he) (by rw [H.trans _ _ _ h1 he2]; simp)
    | false =>
      have h2 : eq k' k = false := by
        cases h3 : eq k' k with
        | false => rfl
        | true => rw [H.symm _ _ h3] at h1; exact absurd h1 (by simp)
      simp [h2]
  · show t1.elements + 1 = tbl.flatten.length
    rw [P.length_eq, R1.cnt]; rfl
  · show m.count + 1 = t1.elements + 1
    rw [R1.cnt']

theorem chain_of {t : Tbl K V} (H : HashOK h eq) (B : Bucketed h t.size t.table) (k : K) :
    ∃ chain, t.table[h k t.size]? = some chain ∧
      ∀ e ∈ t.table.flatten, eq k e.1 = true → e ∈ chain := by
  have hlt : h k t.size < t.table.length := by rw [B.1]; exact H.lt _ _ B.2.1
  refine ⟨_, List.getElem?_eq_getElem hlt, ?_⟩
  intro e he hk
  obtain ⟨c, hc, hec⟩ := List.mem_flatten.1 he
  obtain ⟨i, hi⟩ := List.mem_iff_getElem?.1 hc
  have h1 := B.2.2 i c hi e hec
  rw [← H.congr _ _ _ hk] at h1
  rw [← h1, List.getElem?_eq_getElem hlt] at hi
  cases hi
  exact hec

theorem find_spec (H : HashOK h eq) {t : Tbl K V} {m : Spec K V} (R : Rel h eq t m) (k : K) :
    find h eq t k = some ((m.map k).bind id) := by
  obtain ⟨chain, hc, hall⟩ := chain_of H R.bk k
  simp only [find, hc, Option.bind_eq_bind, Option.bind_some]
  congr 1
  cases hf : chain.find? (fun e => eq k e.1) with
  | some e =>
    have h1 := List.find?_some hf
    have h2 := List.mem_of_find?_eq_some hf
    rw [(R.map k e.2).2 ⟨e, List.mem_flatten.2 ⟨chain, List.mem_of_getElem? hc, h2⟩, h1, rfl⟩]
    rfl
  | none =>
    cases hm : m.map k with
    | none => rfl
    | some d =>
      obtain ⟨e, he, hk, _⟩ := (R.map k d).1 hm
      have := List.find?_eq_none.1 hf e (hall e he hk)
      exact absurd hk this

theorem unlink_spec {k : K} : ∀ (c : List (K × Option V)), (∃ e ∈ c, eq k e.1 = true) →
    ∃ c' e, unlink eq k c = some c' ∧ eq k e.1 = true ∧ c.Perm (e :: c') := by
  intro c
  induction c with
  | nil => rintro ⟨e, he, _⟩; simp at he
  | cons a c ih =>
    rintro ⟨e, he, hk⟩
    unfold unlink
    split
    · next h1 => exact ⟨c, a, rfl, h1, List.Perm.refl _⟩
    · next h1 =>
      rcases List.mem_cons.1 he with rfl | h2
      · exact absurd hk h1
      · obtain ⟨c', e', e1, hk', P⟩ := ih ⟨e, h2, hk⟩
        exact ⟨a :: c', e', by rw [e1]; rfl, hk', (P.cons a).trans (List.Perm.swap ..)⟩

theorem delete_spec (H : HashOK h eq) {t : Tbl K V} {m : Spec K V} (R : Rel h eq t m) {k : K}
    (hk : (m.map k).isSome) :
    ∃ t', delete h eq t k = some t' ∧ Rel h eq t' (m.del eq k) ∧ t'.elements = t.elements - 1 ∧ 0 < t.elements := by
  obtain ⟨chain, hc, hall⟩ := chain_of H R.bk k
  obtain ⟨d, hd⟩ := Option.isSome_iff_exists.1 hk
  obtain ⟨e0, he0, hk0, _⟩ := (R.map k d).1 hd
  obtain ⟨c', e, e1, hke, P⟩ := unlink_spec chain ⟨e0, hall e0 he0 hk0, hk0⟩
  have PF := flatten_set' t.table _ chain c' e hc P
  have U := uniq_perm H PF R.uniq
  obtain ⟨Ue, U'⟩ := List.pairwise_cons.1 U
  have hlen : (t.table.set (h k t.size) c').flatten.length + 1 = t.elements := by
    rw [R.cnt, ← PF.length_eq]; rfl
  refine ⟨{ t with elements := t.elements - 1, table := t.table.set (h k t.size) c' }, by simp only [delete, hc, e1, Option.bind_eq_bind, Option.bind_some], ⟨⟨?_, R.bk.2.1, ?_⟩, U', ?_, ?_, ?_⟩, rfl, by omega⟩
  · simpa using R.bk.1
  · intro i ch hi e' he'
    rw [List.getElem?_set] at hi
    split at hi
    · next h1 =>
      subst h1
      split at hi
      · cases hi
        exact R.bk.2.2 _ _ hc _ (P.mem_iff.2 (List.mem_cons_of_mem _ he'))
      · exact absurd hi (by simp)
    · exact R.bk.2.2 _ _ hi _ he'
  · intro k' d'
    show (if eq k k' then none else m.map k') = some d' ↔ ∃ e' ∈ (t.table.set (h k t.size) c').flatten, _
    cases h1 : eq k k' with
    | true =>
      simp only [if_true]
      constructor
      · intro h; exact absurd h (by simp)
      · rintro ⟨e', he', hk', _⟩
        have := Ue e' he'
        rw [H.trans _ _ _ (H.symm _ _ hke) (H.trans _ _ _ h1 hk')] at this
        exact absurd this (by simp)
    | false =>
      simp only [Bool.false_eq_true, if_false]
      rw [R.map]
      constructor
      · rintro ⟨e', he', hk', hd'⟩
        rcases List.mem_cons.1 (PF.mem_iff.2 he') with rfl | h2
        · rw [H.trans _ _ _ hke (H.symm _ _ hk')] at h1; exact absurd h1 (by simp)
        · exact ⟨e', h2, hk', hd'⟩
      · rintro ⟨e', he', hh⟩
        exact ⟨e', PF.mem_iff.1 (List.mem_cons_of_mem _ he'), hh⟩
  · show t.elements - 1 = (t.table.set (h k t.size) c').flatten.length
    omega
  · show m.count - 1 = t.elements - 1
    rw [R.cnt']

theorem step_spec (H : HashOK h eq) {t : Tbl K V} {m : Spec K V} (R : Rel h eq t m) {op : Op K V} {ops : List (Op K V)}
    (hl : m.Legal eq (op :: ops)) (hn : t.elements ≤ 2147483629) :
    ∃ t', step h eq t op = some (t', (m.step eq op).2) ∧ Rel h eq t' (m.step eq op).1 ∧ t'.elements ≤ t.elements + 1 := by
  obtain ⟨h1, -⟩ := hl
  cases op with
  | insert k d =>
    obtain ⟨t', e, R', hc⟩ := insert_spec H R hn (d := d) h1
    exact ⟨t', by simp only [step, e, Option.bind_eq_bind, Option.bind_some]; rfl, R', by omega⟩
  | delete k =>
    obtain ⟨t', e, R', hc, _⟩ := delete_spec H R h1
    exact ⟨t', by simp only [step, e, Option.bind_eq_bind, Option.bind_some]; rfl, R', by omega⟩
  | find k => exact ⟨t, by simp only [step, find_spec H R, Option.bind_eq_bind, Option.bind_some]; rfl, R, by omega⟩
  | insertCheck k d =>
    simp only [Spec.step]
    cases hm : m.map k with
    | none =>
      obtain ⟨t', e, R', hc⟩ := insert_spec H R hn (d := d) hm
      exact ⟨t', by simp only [step, insertCheck, find_spec H R, hm, Option.bind_eq_bind, Option.bind_some, Option.bind_none, e]; rfl, R', by omega⟩
    | some d0 =>
      cases d0 with
      | none => exact absurd hm h1
      | some v => exact ⟨t, by simp only [step, insertCheck, find_spec H R, hm, Option.bind_eq_bind, Option.bind_some, id]; rfl, R, by omega⟩
  | size => exact ⟨t, by simp only [step, Spec.step, R.cnt'], R, by omega⟩
  | autosize b => exact ⟨_, rfl, ⟨R.bk, R.uniq, R.map, R.cnt, R.cnt'⟩, by simp⟩

theorem run_spec (H : HashOK h eq) : ∀ (ops : List (Op K V)) (t : Tbl K V) (m : Spec K V), Rel h eq t m → m.Legal eq ops →
    t.elements + ops.length ≤ 2147483630 →
    ∃ t', run h eq t ops = some (t', (m.run eq ops).2) ∧ Rel h eq t' (m.run eq ops).1 := by
  intro ops
  induction ops with
  | nil => intro t m R _ _; exact ⟨t, rfl, R⟩
  | cons op ops ih =>
    intro t m R hl hn
    simp only [List.length_cons] at hn
    obtain ⟨t1, e1, R1, h1⟩ := step_spec H R hl (by omega)
    obtain ⟨t2, e2, R2⟩ := ih t1 _ R1 hl.2 (by omega)
    exact ⟨t2, by simp only [run, e1, e2, Option.bind_eq_bind, Option.bind_some]; rfl, R2⟩

/-! ### Tables that do not resize, without the contract -/

/-- Every chain holds, for each key, the entries of the history list for this key in the same order. -/
structure LRel (h : K → Nat → Nat) (eq : K → K → Bool) (t : Tbl K V) (L : List (K × Option V)) : Prop where
  frozen : t.autosize = false
  bk : Bucketed h t.size t.table
  same : ∀ k chain, t.table[h k t.size]? = some chain →
    chain.filter (fun e => eq k e.1) = L.filter (fun e => eq k e.1)

theorem find?_of_filter {α : Type} {p : α → Bool} {l l' : List α} (hf : l.filter p = l'.filter p) :
    l.find? p = l'.find? p := by
  rw [← List.head?_filter, ← List.head?_filter, hf]

theorem unlink_eq (k : K) : ∀ (c : List (K × Option V)), (∃ e ∈ c, eq k e.1 = true) →
    unlink eq k c = some (c.eraseP (fun e => eq k e.1)) := by
  intro c
  induction c with
  | nil => rintro ⟨e, he, _⟩; simp at he
  | cons a c ih =>
    rintro ⟨e, he, hk⟩
    unfold unlink
    split
    · next h1 => rw [List.eraseP_cons, h1]; rfl
    · next h1 =>
      rcases List.mem_cons.1 he with rfl | h2
      · exact absurd hk h1
      · rw [ih ⟨e, h2, hk⟩, List.eraseP_cons, eq_false_of_ne_true h1]; rfl

theorem filter_eraseP_ne {α : Type} {p q : α → Bool} : ∀ {l : List α}, (∀ e, q e = true → p e = false) →
    (l.eraseP p).filter q = l.filter q := by
  intro l hd
  induction l with
  | nil => rfl
  | cons a l ih =>
    rw [List.eraseP_cons]
    cases hp : p a with
    | true =>
      have : q a = false := by
        cases hq : q a with
        | false => rfl
        | true => rw [hd a hq] at hp; exact absurd hp (by simp)
      simp [List.filter_cons, this]
    | false => simp only [cond_false, List.filter_cons]; rw [ih]

theorem filter_eraseP_eq {α : Type} {p q : α → Bool} : ∀ {l : List α}, (∀ e, p e = q e) →
    (l.eraseP p).filter q = (l.filter q).tail := by
  intro l hd
  induction l with
  | nil => rfl
  | cons a l ih =>
    rw [List.eraseP_cons]
    cases hp : p a with
    | true => simp [List.filter_cons, ← hd a, hp]
    | false => simp only [cond_false, List.filter_cons, ← hd a, hp, Bool.false_eq_true, if_false]; rw [ih]

theorem HashOK.eq_congr (H : HashOK h eq) {a b : K} (hab : eq a b = true) (c : K) : eq a c = eq b c := by
  cases h1 : eq b c with
  | true => exact H.trans _ _ _ hab h1
  | false =>
    cases h2 : eq a c with
    | false => rfl
    | true => rw [H.trans _ _ _ (H.symm _ _ hab) h2] at h1; exact absurd h1 (by simp)

theorem lrel_insert (H : HashOK h eq) {t : Tbl K V} {L : List (K × Option V)} (R : LRel h eq t L) (k : K) (d : Option V) :
    ∃ t', insert h t k d = some t' ∧ LRel h eq t' ((k, d) :: L) := by
  have hlt : h k t.size < t.table.length := by rw [R.bk.1]; exact H.lt _ _ R.bk.2.1
  have hg : t.table[h k t.size]? = some t.table[h k t.size] := List.getElem?_eq_getElem hlt
  have er : resize h t = some t := by unfold resize; rw [if_neg (by rw [R.frozen]; simp)]
  obtain ⟨tbl, e2, B, _⟩ := place_spec H R.bk (k, d)
  refine ⟨{ t with elements := t.elements + 1, table := tbl },
    by simp only [insert, er, Option.bind_eq_bind, Option.bind_some, e2], R.frozen, B, ?_⟩
  simp only [place, hg, Option.bind_eq_bind, Option.bind_some, Option.some.injEq] at e2
  subst e2
  intro k' chain hc
  simp only [List.getElem?_set] at hc
  split at hc
  · next h1 =>
    cases hc
    have := R.same k' _ (by rw [← h1]; exact hg)
    simp only [List.filter_cons, this]
  · next h1 =>
    have h2 : eq k' k = false := by
      cases h3 : eq k' k with
      | false => rfl
      | true => exact absurd (H.congr _ _ _ h3).symm h1
    rw [List.filter_cons, h2]
    exact R.same k' chain hc

theorem lrel_find (H : HashOK h eq) {t : Tbl K V} {L : List (K × Option V)} (R : LRel h eq t L) (k : K) :
    find h eq t k = some ((L.find? (fun e => eq k e.1)).bind (·.2)) := by
  have hlt : h k t.size < t.table.length := by rw [R.bk.1]; exact H.lt _ _ R.bk.2.1
  have hg : t.table[h k t.size]? = some t.table[h k t.size] := List.getElem?_eq_getElem hlt
  simp only [find, hg, Option.bind_eq_bind, Option.bind_some, find?_of_filter (R.same k _ hg)]

theorem lrel_delete (H : HashOK h eq) {t : Tbl K V} {L : List (K × Option V)} (R : LRel h eq t L) (k : K)
    (hk : ∃ e ∈ L, eq k e.1 = true) :
    ∃ t', delete h eq t k = some t' ∧ LRel h eq t' (L.eraseP (fun e => eq k e.1)) := by
  have hlt : h k t.size < t.table.length := by rw [R.bk.1]; exact H.lt _ _ R.bk.2.1
  have hg : t.table[h k t.size]? = some t.table[h k t.size] := List.getElem?_eq_getElem hlt
  have hs := R.same k _ hg
  have hex : ∃ e ∈ t.table[h k t.size], eq k e.1 = true := by
    obtain ⟨e, he, hke⟩ := hk
    have : e ∈ L.filter (fun e => eq k e.1) := List.mem_filter.2 ⟨he, hke⟩
    rw [← hs] at this
    exact ⟨e, (List.mem_filter.1 this).1, hke⟩
  refine ⟨{ t with elements := t.elements - 1, table := t.table.set (h k t.size) (t.table[h k t.size].eraseP (fun e => eq k e.1)) },
    by simp only [delete, hg, Option.bind_eq_bind, Option.bind_some, unlink_eq k _ hex], R.frozen, ⟨by simpa using R.bk.1, R.bk.2.1, ?_⟩, ?_⟩
  · intro i ch hi e' he'
    rw [List.getElem?_set] at hi
    split at hi
    · next h1 =>
      subst h1
      cases hi
      exact R.bk.2.2 _ _ hg _ (List.mem_of_mem_eraseP he')
    · exact R.bk.2.2 _ _ hi _ he'
  · intro k' chain hc
    simp only [List.getElem?_set] at hc
    have key : ∀ c : List (K × Option V), c.filter (fun e => eq k' e.1) = L.filter (fun e => eq k' e.1) →
        (c.eraseP (fun e => eq k e.1)).filter (fun e => eq k' e.1) =
        (L.eraseP (fun e => eq k e.1)).filter (fun e => eq k' e.1) := by
      intro c hcl
      cases hkk : eq k k' with
      | true =>
        have hq : ∀ e : K × Option V, (fun e : K × Option V => eq k e.1) e = (fun e => eq k' e.1) e :=
          fun e => H.eq_congr hkk e.1
        rw [filter_eraseP_eq hq, filter_eraseP_eq hq, hcl]
      | false =>
        have hq : ∀ e : K × Option V, (fun e : K × Option V => eq k' e.1) e = true → (fun e : K × Option V => eq k e.1) e = false := by
          intro e he
          cases h3 : eq k e.1 with
          | false => exact h3
          | true => rw [H.trans _ _ _ h3 (H.symm _ _ he)] at hkk; exact absurd hkk (by simp)
        rw [filter_eraseP_ne hq, filter_eraseP_ne hq, hcl]
    split at hc
    · next h1 =>
      cases hc
      exact key _ (R.same k' _ (by rw [← h1]; exact hg))
    · next h1 =>
      have h2 : ∀ e : K × Option V, (fun e : K × Option V => eq k' e.1) e = true → (fun e : K × Option V => eq k e.1) e = false := by
        intro e he
        cases h3 : eq k e.1 with
        | false => exact h3
        | true => exact absurd (H.congr _ _ _ (H.trans _ _ _ h3 (H.symm _ _ he))) h1
      rw [filter_eraseP_ne h2]
      exact R.same k' chain hc

theorem shadow_run (H : HashOK h eq) : ∀ (ops : List (Op K V)) (t : Tbl K V) (L : List (K × Option V)), LRel h eq t L →
    Shadow.Legal eq L ops → ∃ t', run h eq t ops = some (t', (Shadow.run eq L ops).2) := by
  intro ops
  induction ops with
  | nil => intro t L _ _; exact ⟨t, rfl⟩
  | cons op ops ih =>
    intro t L R hl
    obtain ⟨h1, h2⟩ := hl
    have key : ∃ t', step h eq t op = some (t', (Shadow.step eq L op).2) ∧ LRel h eq t' (Shadow.step eq L op).1 := by
      cases op with
      | insert k d =>
        obtain ⟨t', e, R'⟩ := lrel_insert H R k d
        exact ⟨t', by simp only [step, e, Option.bind_eq_bind, Option.bind_some, Shadow.step], R'⟩
      | delete k =>
        obtain ⟨t', e, R'⟩ := lrel_delete H R k h1
        exact ⟨t', by simp only [step, e, Option.bind_eq_bind, Option.bind_some, Shadow.step], R'⟩
      | find k => exact ⟨t, by simp only [step, lrel_find H R k, Option.bind_eq_bind, Option.bind_some, Shadow.step], R⟩
      | insertCheck k d => exact absurd h1 id
      | size => exact absurd h1 id
      | autosize b => exact absurd h1 id
    obtain ⟨t1, e1, R1⟩ := key
    obtain ⟨t2, e2⟩ := ih t1 _ R1 h2
    exact ⟨t2, by simp only [run, e1, e2, Option.bind_eq_bind, Option.bind_some, Shadow.run]⟩

end
end Voss.Lib
