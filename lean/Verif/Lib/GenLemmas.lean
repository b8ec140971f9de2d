import Verif.Lib.HashLemmas
import Verif.Lib.Gen
/-
The generation hash implements the stack of maps, for the histories of `GSpec.Legal`.
-/
namespace Voss.Lib.Gen

variable {K V : Type} {h : K → Nat → Nat} {eq : K → K → Bool}

/-- The table stands for a map without null data. -/
def Is (h : K → Nat → Nat) (eq : K → K → Bool) (t : Tbl K V) (m : K → Option V) : Prop :=
  ∃ s : Spec K V, Rel h eq t s ∧ ∀ k, s.map k = (m k).map some

theorem Is.find (H : HashOK h eq) {t : Tbl K V} {m : K → Option V} (R : Is h eq t m) (k : K) :
    Lib.find h eq t k = some (m k) := by
  obtain ⟨s, R, hs⟩ := R
  rw [find_spec H R, hs]
  cases m k <;> rfl

theorem Is.insert (H : HashOK h eq) {t : Tbl K V} {m : K → Option V} (R : Is h eq t m)
    (hn : t.elements ≤ 2147483629) {k : K} {v : V} (hk : m k = none) :
    ∃ t', Lib.insert h t k (some v) = some t' ∧ Is h eq t' (fun k' => if eq k k' then some v else m k') ∧
      t'.elements = t.elements + 1 := by
  obtain ⟨s, R, hs⟩ := R
  obtain ⟨t', e, R', el⟩ := insert_spec (d := some v) H R hn (by rw [hs, hk]; rfl)
  refine ⟨t', e, ⟨_, R', ?_⟩, el⟩
  intro k'
  simp only [Spec.put, hs]
  split <;> rfl

theorem Is.delete (H : HashOK h eq) {t : Tbl K V} {m : K → Option V} (R : Is h eq t m) {k : K}
    (hk : (m k).isSome) :
    ∃ t', Lib.delete h eq t k = some t' ∧ Is h eq t' (fun k' => if eq k k' then none else m k') ∧
      t'.elements + 1 = t.elements := by
  obtain ⟨s, R, hs⟩ := R
  obtain ⟨t', e, R', el, hp⟩ := delete_spec H R (k := k) (by rw [hs]; simpa using hk)
  refine ⟨t', e, ⟨_, R', ?_⟩, by omega⟩
  intro k'
  simp only [Spec.del, hs]
  split <;> rfl

theorem Is.congr (H : HashOK h eq) {t : Tbl K V} {m : K → Option V} (R : Is h eq t m) {k k' : K}
    (hk : eq k k' = true) : m k = m k' := by
  have e1 := R.find H k
  have e2 := R.find H k'
  obtain ⟨s, R, hs⟩ := R
  have : s.map k = s.map k' := by
    ext d
    have := R.map k d
    have h2 := R.map k' d
    rw [this, h2]
    simp only [H.eq_congr hk]
  rw [hs, hs] at this
  cases h1 : m k <;> cases h2 : m k' <;> simp [h1, h2] at this ⊢
  exact this

theorem Is.ext {t : Tbl K V} {m m' : K → Option V} (R : Is h eq t m) (e : ∀ k, m k = m' k) : Is h eq t m' := by
  obtain ⟨s, R, hs⟩ := R
  exact ⟨s, R, fun k => by rw [hs, e]⟩

theorem Is.entries (H : HashOK h eq) {t : Tbl K V} {m : K → Option V} (R : Is h eq t m) :
    (scan t).Pairwise (fun a b => eq a.1 b.1 = false) ∧ (scan t).length = t.elements ∧
    (∀ k v, m k = some v ↔ ∃ e ∈ scan t, eq k e.1 = true ∧ e.2 = some v) ∧
    (∀ e ∈ scan t, ∃ v, e.2 = some v) := by
  obtain ⟨s, R, hs⟩ := R
  refine ⟨R.uniq, R.cnt.symm, ?_, ?_⟩
  · intro k v
    have := R.map k (some v)
    rw [hs] at this
    rw [show scan t = t.table.flatten from rfl, ← this]
    simp
  · intro e he
    have := (R.map e.1 e.2).2 ⟨e, he, H.refl _, rfl⟩
    rw [hs] at this
    cases hm : m e.1 with
    | none => rw [hm] at this; simp at this
    | some v => rw [hm] at this; exact ⟨v, by simpa using this.symm⟩

theorem deleteAll_spec (H : HashOK h eq) : ∀ (es : List (K × Option Unit)) (t : Tbl K V) (m : K → Option V),
    Is h eq t m → es.Pairwise (fun a b => eq a.1 b.1 = false) → (∀ e ∈ es, (m e.1).isSome) →
    ∃ t', deleteAll h eq t es = some t' ∧
      Is h eq t' (fun k => if es.any (fun e => eq k e.1) then none else m k) ∧ t'.elements + es.length = t.elements := by
  intro es
  induction es with
  | nil => intro t m R _ _; exact ⟨t, rfl, R.ext (fun k => by simp), rfl⟩
  | cons e es ih =>
    intro t m R U hp
    obtain ⟨u1, u2⟩ := List.pairwise_cons.1 U
    obtain ⟨t1, e1, R1, n1⟩ := R.delete H (hp e (List.mem_cons_self ..))
    obtain ⟨t2, e2, R2, n2⟩ := ih t1 _ R1 u2 (by
      intro e' he'
      rw [u1 e' he']
      exact hp e' (List.mem_cons_of_mem _ he'))
    refine ⟨t2, by simp only [deleteAll, e1, Option.bind_eq_bind, Option.bind_some, e2], R2.ext ?_, by simp only [List.length_cons]; omega⟩
    intro k
    have hsy : eq e.1 k = eq k e.1 := by
      cases h1 : eq k e.1 with
      | true => exact H.symm _ _ h1
      | false => cases h2 : eq e.1 k with
        | false => rfl
        | true => rw [H.symm _ _ h2] at h1; exact h1
    simp only [List.any_cons, hsy]
    rcases Bool.eq_false_or_eq_true (eq k e.1) with hc | hc
    · simp [hc]
    · simp only [hc, Bool.false_or, Bool.false_eq_true, if_false]

theorem insertAll_spec (H : HashOK h eq) : ∀ (es : List (K × Option V)) (t : Tbl K V) (m : K → Option V),
    Is h eq t m → es.Pairwise (fun a b => eq a.1 b.1 = false) → (∀ e ∈ es, m e.1 = none ∧ ∃ v, e.2 = some v) →
    t.elements + es.length ≤ 2147483630 →
    ∃ t', insertAll h t es = some t' ∧
      Is h eq t' (fun k => match es.find? (fun e => eq k e.1) with | some e => e.2 | none => m k) ∧
      t'.elements = t.elements + es.length := by
  intro es
  induction es with
  | nil => intro t m R _ _ _; exact ⟨t, rfl, R.ext (fun k => by simp), rfl⟩
  | cons e es ih =>
    intro t m R U hp hn
    obtain ⟨u1, u2⟩ := List.pairwise_cons.1 U
    obtain ⟨q1, v, q2⟩ := hp e (List.mem_cons_self ..)
    simp only [List.length_cons] at hn
    obtain ⟨t1, e1, R1, n1⟩ := R.insert H (by omega) (v := v) q1
    obtain ⟨t2, e2, R2, n2⟩ := ih t1 _ R1 u2 (by
      intro e' he'
      rw [u1 e' he']
      exact hp e' (List.mem_cons_of_mem _ he')) (by omega)
    refine ⟨t2, by simp only [insertAll, q2, e1, Option.bind_eq_bind, Option.bind_some, e2], R2.ext ?_, by simp only [List.length_cons]; omega⟩
    intro k
    have hsy : eq e.1 k = eq k e.1 := by
      cases h1 : eq k e.1 with
      | true => exact H.symm _ _ h1
      | false => cases h2 : eq e.1 k with
        | false => rfl
        | true => rw [H.symm _ _ h2] at h1; exact h1
    rw [List.find?_cons, hsy]
    cases hk : eq k e.1 with
    | false => rfl
    | true =>
      have : es.find? (fun e => eq k e.1) = none := by
        rw [List.find?_eq_none]
        intro e' he'
        have := u1 e' he'
        rw [← H.eq_congr hk] at this
        simp [this]
      simp only [this]
      simp [q2]

/-- Each open generation's two tables record how the map at its start differs from the map at the start
of the next one (or the present map). -/
def Gens (h : K → Nat → Nat) (eq : K → K → Bool) : List (Tbl K Unit × Tbl K V) → List ((K → Option V) × List K) →
    (K → Option V) → Prop
  | [], [], _ => True
  | (d, a) :: ds, (m, ks) :: gs, cur =>
    (∃ (sd : K → Option Unit) (sa : K → Option V), Is h eq d sd ∧ Is h eq a sa ∧
      (∀ k, (sd k).isSome ∨ (sa k).isSome → ∃ k' ∈ ks, eq k k' = true) ∧
      (∀ k, (sd k).isSome → m k = none ∧ (cur k).isSome) ∧
      (∀ k v, sa k = some v → m k = some v ∧ cur k = none) ∧
      (∀ k, sd k = none → sa k = none → m k = cur k)) ∧ Gens h eq ds gs m
  | _, _, _ => False

/-- Number of table entries. -/
def weight : List (Tbl K Unit × Tbl K V) → Nat
  | [] => 0
  | (d, a) :: ds => d.elements + a.elements + weight ds

structure GRel (h : K → Nat → Nat) (eq : K → K → Bool) (g : Gen K V) (s : GSpec K V) : Prop where
  main : Is h eq g.main s.cur
  gens : Gens h eq g.diffs s.gens s.cur

def Gen.weight (g : Gen K V) : Nat := g.main.elements + Voss.Lib.Gen.weight g.diffs

theorem create_is (size : Nat) (hs : size ≤ 2147483629) :
    ∃ t, create (K := K) (V := V) size = some t ∧ Is h eq t (fun _ => none) ∧ t.elements = 0 := by
  obtain ⟨t, e, R⟩ := create_spec (K := K) (V := V) (h := h) (eq := eq) size hs
  refine ⟨t, e, ⟨_, R, fun k => rfl⟩, ?_⟩
  have := R.cnt'
  simpa [Spec.empty] using this.symm

theorem begin_spec {g : Gen K V} {s : GSpec K V} (R : GRel h eq g s) :
    ∃ g', beginGen g = some g' ∧ GRel h eq g' (s.step eq .beginG).1 ∧ g'.weight = g.weight := by
  obtain ⟨d, e1, R1, n1⟩ := create_is (K := K) (V := Unit) (h := h) (eq := eq) 100 (by omega)
  obtain ⟨a, e2, R2, n2⟩ := create_is (K := K) (V := V) (h := h) (eq := eq) 100 (by omega)
  refine ⟨{ g with diffs := (d, a) :: g.diffs }, by simp only [beginGen, e1, e2, Option.bind_eq_bind, Option.bind_some], ⟨R.main, ⟨_, _, R1, R2, ?_, ?_, ?_, ?_⟩, R.gens⟩, ?_⟩
  · simp
  · simp
  · simp
  · intros; rfl
  · simp [Gen.weight, weight, n1, n2]

theorem eq_comm' (H : HashOK h eq) (a b : K) : eq a b = eq b a := by
  cases h1 : eq b a with
  | true => exact H.symm _ _ h1
  | false => cases h2 : eq a b with
    | false => rfl
    | true => rw [H.symm _ _ h2] at h1; exact h1

theorem GSpec.Fresh.get {s : GSpec K V} {k : K} (hf : s.Fresh eq k) :
    ∃ m ks gs, s.gens = (m, ks) :: gs ∧ ∀ k' ∈ ks, eq k k' = false := by
  unfold GSpec.Fresh at hf
  split at hf
  · exact absurd hf id
  · next m ks gs hg => exact ⟨m, ks, gs, hg, hf⟩

theorem insert_gspec (H : HashOK h eq) {g : Gen K V} {s : GSpec K V} (R : GRel h eq g s) {k : K} {v : V}
    (hk : s.cur k = none) (hf : s.Fresh eq k) (hn : g.weight ≤ 2147483629) :
    ∃ g', insertGen h eq g k (some v) = some g' ∧ GRel h eq g' (s.step eq (.insert k v)).1 ∧ g'.weight ≤ g.weight + 2 := by
  obtain ⟨m, ks, gs, hg, hfr⟩ := hf.get
  have G := R.gens
  obtain ⟨t, diffs⟩ := g
  rw [hg] at G
  match diffs, G with
  | (d, a) :: ds, G =>
    obtain ⟨⟨sd, sa, Rd, Ra, ht, hd, ha, he⟩, Gs⟩ := G
    have hnt : sd k = none ∧ sa k = none := by
      apply Classical.byContradiction
      intro hc
      have : (sd k).isSome ∨ (sa k).isSome := by
        cases h1 : sd k <;> cases h2 : sa k <;> simp_all
      obtain ⟨k', hk', e⟩ := ht k this
      rw [hfr k' hk'] at e; cases e
    simp only [Gen.weight, weight] at hn
    obtain ⟨d', e1, R1, n1⟩ := Rd.insert H (by omega) (v := ()) hnt.1
    obtain ⟨t', e2, R2, n2⟩ := R.main.insert H (by simp only at *; omega) (v := v) hk
    refine ⟨⟨t', (d', a) :: ds⟩, ?_, ⟨R2, ?_⟩, ?_⟩
    · simp only [insertGen, Rd.find H, Ra.find H, R.main.find H, Option.bind_eq_bind, Option.bind_some, hnt.1, hnt.2, hk,
        Option.isSome_none, Bool.or_self, Bool.false_eq_true, if_false, e1, recordOld, e2]
    · simp only [GSpec.step, hg, touch]
      refine ⟨⟨_, sa, R1, Ra, ?_, ?_, ?_, ?_⟩, Gs⟩
      · intro k' hk'
        by_cases hkk : eq k k' = true
        · exact ⟨k, List.mem_cons_self .., H.symm _ _ hkk⟩
        · simp only [hkk, Bool.false_eq_true, if_false] at hk'
          obtain ⟨k2, h2, h3⟩ := ht k' hk'
          exact ⟨k2, List.mem_cons_of_mem _ h2, h3⟩
      · intro k' hk'
        by_cases hkk : eq k k' = true
        · simp only [hkk, if_true, Option.isSome_some, and_true]
          have := he k' (by rw [← Rd.congr H hkk]; exact hnt.1) (by rw [← Ra.congr H hkk]; exact hnt.2)
          rw [this, ← R.main.congr H hkk, hk]
        · simp only [hkk, Bool.false_eq_true, if_false] at hk' ⊢
          exact hd k' hk'
      · intro k' v' hk'
        by_cases hkk : eq k k' = true
        · rw [← Ra.congr H hkk, hnt.2] at hk'; cases hk'
        · simp only [hkk, Bool.false_eq_true, if_false]
          exact ha k' v' hk'
      · intro k' h1 h2
        by_cases hkk : eq k k' = true
        · simp [hkk] at h1
        · simp only [hkk, Bool.false_eq_true, if_false] at h1 ⊢
          exact he k' h1 h2
    · simp only [Gen.weight, weight, n1, n2]; omega

theorem delete_gspec (H : HashOK h eq) {g : Gen K V} {s : GSpec K V} (R : GRel h eq g s) {k : K}
    (hk : (s.cur k).isSome) (hf : s.Fresh eq k) (hn : g.weight ≤ 2147483629) :
    ∃ g', deleteGen h eq g k = some g' ∧ GRel h eq g' (s.step eq (.delete k)).1 ∧ g'.weight ≤ g.weight + 2 := by
  obtain ⟨m, ks, gs, hg, hfr⟩ := hf.get
  have G := R.gens
  obtain ⟨t, diffs⟩ := g
  rw [hg] at G
  match diffs, G with
  | (d, a) :: ds, G =>
    obtain ⟨⟨sd, sa, Rd, Ra, ht, hd, ha, he⟩, Gs⟩ := G
    have hnt : sd k = none ∧ sa k = none := by
      apply Classical.byContradiction
      intro hc
      have : (sd k).isSome ∨ (sa k).isSome := by
        cases h1 : sd k <;> cases h2 : sa k <;> simp_all
      obtain ⟨k', hk', e⟩ := ht k this
      rw [hfr k' hk'] at e; cases e
    simp only [Gen.weight, weight] at hn
    obtain ⟨v, hv⟩ := Option.isSome_iff_exists.1 hk
    obtain ⟨a', e1, R1, n1⟩ := Ra.insert H (by omega) (v := v) hnt.2
    obtain ⟨t', e2, R2, n2⟩ := R.main.delete H hk
    refine ⟨⟨t', (d, a') :: ds⟩, ?_, ⟨R2, ?_⟩, ?_⟩
    · simp only [deleteGen, Rd.find H, Ra.find H, R.main.find H, Option.bind_eq_bind, Option.bind_some, hnt.1, hnt.2, hv,
        Option.isSome_none, Bool.or_self, Bool.false_eq_true, if_false, e1, recordOld, e2]
    · simp only [GSpec.step, hg, touch]
      refine ⟨⟨sd, _, Rd, R1, ?_, ?_, ?_, ?_⟩, Gs⟩
      · intro k' hk'
        by_cases hkk : eq k k' = true
        · exact ⟨k, List.mem_cons_self .., H.symm _ _ hkk⟩
        · simp only [hkk, Bool.false_eq_true, if_false] at hk'
          obtain ⟨k2, h2, h3⟩ := ht k' hk'
          exact ⟨k2, List.mem_cons_of_mem _ h2, h3⟩
      · intro k' hk'
        by_cases hkk : eq k k' = true
        · rw [← Rd.congr H hkk, hnt.1] at hk'; cases hk'
        · simp only [hkk, Bool.false_eq_true, if_false] at hk' ⊢
          exact hd k' hk'
      · intro k' v' hk'
        by_cases hkk : eq k k' = true
        · simp only [hkk, if_true, Option.some.injEq] at hk' ⊢
          subst hk'
          have := he k' (by rw [← Rd.congr H hkk]; exact hnt.1) (by rw [← Ra.congr H hkk]; exact hnt.2)
          rw [this, ← R.main.congr H hkk, hv]; simp
        · simp only [hkk, Bool.false_eq_true, if_false] at hk' ⊢
          exact ha k' v' hk'
      · intro k' h1 h2
        by_cases hkk : eq k k' = true
        · simp [hkk] at h2
        · simp only [hkk, Bool.false_eq_true, if_false] at h2 ⊢
          exact he k' h1 h2
    · simp only [Gen.weight, weight, n1] at n2 ⊢; omega

theorem end_gspec (H : HashOK h eq) {g : Gen K V} {s : GSpec K V} (R : GRel h eq g s) (hne : s.gens ≠ [])
    (hn : g.weight ≤ 2147483629) :
    ∃ g', endGen h eq g = some g' ∧ GRel h eq g' (s.step eq .endG).1 ∧ g'.weight ≤ g.weight := by
  have G := R.gens
  obtain ⟨t, diffs⟩ := g
  obtain ⟨cur, gens⟩ := s
  match diffs, gens, G with
  | [], [], _ => exact absurd rfl hne
  | (d, a) :: ds, (m, ks) :: gs, G =>
    obtain ⟨⟨sd, sa, Rd, Ra, ht, hd, ha, he⟩, Gs⟩ := G
    simp only at ht hd ha he Gs
    simp only [Gen.weight, weight] at hn
    obtain ⟨ud, ld, md, nd⟩ := Rd.entries H
    obtain ⟨ua, la, ma, na⟩ := Ra.entries H
    obtain ⟨t1, e1, R1, n1⟩ := deleteAll_spec H (scan d) t cur R.main ud (by
      intro e hE
      have : sd e.1 = some () := by
        obtain ⟨v, hv⟩ := nd e hE
        exact (md e.1 ()).2 ⟨e, hE, H.refl _, hv⟩
      exact (hd e.1 (by rw [this]; rfl)).2)
    obtain ⟨t2, e2, R2, n2⟩ := insertAll_spec H (scan a) t1 _ R1 ua (by
      intro e hE
      obtain ⟨v, hv⟩ := na e hE
      have : sa e.1 = some v := (ma e.1 v).2 ⟨e, hE, H.refl _, hv⟩
      refine ⟨?_, v, hv⟩
      rw [(ha e.1 v this).2]; split <;> rfl) (by omega)
    refine ⟨⟨t2, ds⟩, by simp only [endGen, e1, e2, Option.bind_eq_bind, Option.bind_some], ⟨?_, Gs⟩, ?_⟩
    · refine R2.ext ?_
      intro k
      simp only [GSpec.step]
      cases hs : (scan a).find? (fun e => eq k e.1) with
      | some e =>
        have hE := List.mem_of_find?_eq_some hs
        have hek : eq k e.1 = true := by simpa using List.find?_some hs
        obtain ⟨v, hv⟩ := na e hE
        simp only [hv]
        exact (ha k v ((ma k v).2 ⟨e, hE, hek, hv⟩)).1.symm
      | none =>
        rw [List.find?_eq_none] at hs
        have hsa : sa k = none := by
          cases hq : sa k with
          | none => rfl
          | some v =>
            obtain ⟨e, hE, h1, _⟩ := (ma k v).1 hq
            exact absurd h1 (hs e hE)
        simp only
        split
        · next hany =>
          rw [List.any_eq_true] at hany
          obtain ⟨e, hE, hek⟩ := hany
          obtain ⟨v, hv⟩ := nd e hE
          exact (hd k (by rw [(md k v).2 ⟨e, hE, hek, hv⟩]; rfl)).1.symm
        · next hany =>
          refine (he k ?_ hsa).symm
          cases hq : sd k with
          | none => rfl
          | some v =>
            obtain ⟨e, hE, h1, _⟩ := (md k v).1 hq
            exact absurd (List.any_eq_true.2 ⟨e, hE, h1⟩) hany
    · simp only [Gen.weight, weight, n2, la]; omega

theorem run_gspec (H : HashOK h eq) : ∀ (ops : List (Op K V)) (g : Gen K V) (s : GSpec K V), GRel h eq g s → s.Legal eq ops →
    g.weight + 2 * ops.length ≤ 2147483629 →
    ∃ g', run h eq g ops = some (g', (s.run eq ops).2) ∧ GRel h eq g' (s.run eq ops).1 := by
  intro ops
  induction ops with
  | nil => intro g s R _ _; exact ⟨g, rfl, R⟩
  | cons op ops ih =>
    intro g s R hl hn
    obtain ⟨h1, h2⟩ := hl
    simp only [List.length_cons] at hn
    have key : ∃ g', step h eq g op = some (g', (s.step eq op).2) ∧ GRel h eq g' (s.step eq op).1 ∧ g'.weight ≤ g.weight + 2 := by
      cases op with
      | beginG =>
        obtain ⟨g', e, R', w⟩ := begin_spec R
        exact ⟨g', by simp only [step, e, Option.bind_eq_bind, Option.bind_some, GSpec.step], R', by omega⟩
      | endG =>
        obtain ⟨g', e, R', w⟩ := end_gspec H R h1 (by omega)
        exact ⟨g', by simp only [step, e, Option.bind_eq_bind, Option.bind_some, GSpec.step], R', by omega⟩
      | insert k v =>
        obtain ⟨g', e, R', w⟩ := insert_gspec H R (v := v) h1.1 h1.2 (by omega)
        exact ⟨g', by simp only [step, e, Option.bind_eq_bind, Option.bind_some, GSpec.step], R', w⟩
      | delete k =>
        obtain ⟨g', e, R', w⟩ := delete_gspec H R h1.1 h1.2 (by omega)
        exact ⟨g', by simp only [step, e, Option.bind_eq_bind, Option.bind_some, GSpec.step], R', w⟩
      | find k =>
        exact ⟨g, by simp only [step, findGen, R.main.find H, Option.bind_eq_bind, Option.bind_some, GSpec.step], R, by omega⟩
    obtain ⟨g1, e1, R1, w1⟩ := key
    obtain ⟨g2, e2, R2⟩ := ih g1 _ R1 h2 (by omega)
    exact ⟨g2, by simp only [run, e1, e2, Option.bind_eq_bind, Option.bind_some, GSpec.run], R2⟩

theorem createGen_spec (size : Nat) (hs : size ≤ 2147483629) :
    ∃ g, createGen (K := K) (V := V) size = some g ∧ GRel h eq g GSpec.init ∧ g.weight = 0 := by
  obtain ⟨t, e, R, n⟩ := create_is (K := K) (V := V) (h := h) (eq := eq) size hs
  obtain ⟨g, e2, R2, n2⟩ := begin_spec (g := ⟨t, []⟩) (s := ⟨fun _ => none, []⟩) ⟨R, trivial⟩
  refine ⟨g, by simp only [createGen, e, Option.bind_eq_bind, Option.bind_some, e2], R2, ?_⟩
  rw [n2]; simp [Gen.weight, weight, n]

end Voss.Lib.Gen
