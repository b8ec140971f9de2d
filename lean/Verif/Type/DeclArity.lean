import Verif.Type.DeclSpec
/-
A declared type keeps its parameters, and its name cannot be used with another number of arguments.
-/
namespace Voss.TC

/-- `x` is declared with `n` parameters. -/
def HasN (x : String) (n : Nat) (d : Decls) : Prop := ∃ ps id, d.conc x = some (.dec x ps id) ∧ ps ≠ .nil ∧ ps.length = n

theorem getType_has {x n d y tvars m} (h : HasN x n d) : HasN x n (getType d y tvars m).2 := by
  obtain ⟨ps, id, h1, h2, h3⟩ := h
  unfold getType
  by_cases e : y = x
  · subst e
    rw [h1]
    simp only [ne_eq, h2, not_false_eq_true, if_true]
    split <;> exact ⟨ps, id, h1, h2, h3⟩
  · have key : HasN x n d := ⟨ps, id, h1, h2, h3⟩
    have key2 : HasN x n (newConcrete d y tvars (match m with | .full => false | .holder => true)).2 := by
      refine ⟨ps, id, ?_, h2, h3⟩
      simp only [newConcrete]
      rw [if_neg (fun q => e q.symm)]
      exact h1
    split
    · split
      · split
        · exact key
        · exact key
      · split <;> exact key
    · exact key
    · split
      · exact key
      · split
        · exact key
        · split
          · exact key
          · exact key2

theorem getType_bad {x n d tvars m} (h : HasN x n d) (hl : tvars.length ≠ n) : (getType d x tvars m).1 = none := by
  obtain ⟨ps, id, h1, h2, h3⟩ := h
  unfold getType
  rw [h1]
  simp only [ne_eq, h2, not_false_eq_true, if_true]
  rw [if_pos (by omega)]

theorem Syns.elab_length : ∀ (ts : Syns) (d : Decls) us d', ts.elab d = (some us, d') → us.length = ts.length
  | .nil, d, us, d', h => by
    rw [Syns.elab] at h
    cases h
    rfl
  | .cons t ts, d, us, d', h => by
    rw [Syns.elab] at h
    split at h
    · cases h
    · split at h
      · cases h
      · next e => cases h; simp only [DTys.length, Syns.length, Syns.elab_length ts _ _ _ e]

mutual
theorem Syn.elab_has {x n} : ∀ (t : Syn) (d : Decls), HasN x n d →
    HasN x n (t.elab d).2 ∧ (t.misuses x n → (t.elab d).1 = none)
  | .name y, d, h => by
    rw [Syn.elab]
    refine ⟨getType_has h, ?_⟩
    rintro ⟨rfl, hn⟩
    exact getType_bad h (by simpa [DTys.length] using fun q => hn q.symm)
  | .var _, d, h => by rw [Syn.elab]; exact ⟨h, fun q => q.elim⟩
  | .app args y, d, h => by
    have ih := Syns.elab_has args d h
    rw [Syn.elab]
    split
    · next e => rw [e] at ih; exact ⟨ih.1, fun _ => rfl⟩
    · next e =>
      have hl := Syns.elab_length _ _ _ _ e
      rw [e] at ih
      refine ⟨getType_has ih.1, ?_⟩
      rintro (⟨rfl, hn⟩ | hm)
      · exact getType_bad ih.1 (by omega)
      · cases ih.2 hm
  | .op o args, d, h => by
    have ih := Syns.elab_has args d h
    rw [Syn.elab]
    split
    · next e => rw [e] at ih; exact ⟨ih.1, fun _ => rfl⟩
    · next e =>
      rw [e] at ih
      refine ⟨ih.1, fun hm => ?_⟩
      cases ih.2 hm
theorem Syns.elab_has {x n} : ∀ (ts : Syns) (d : Decls), HasN x n d →
    HasN x n (ts.elab d).2 ∧ (ts.misuses x n → (ts.elab d).1 = none)
  | .nil, d, h => by rw [Syns.elab]; exact ⟨h, fun q => q.elim⟩
  | .cons t ts, d, h => by
    have ih := Syn.elab_has t d h
    rw [Syns.elab]
    split
    · next e =>
      rw [e] at ih
      exact ⟨(Syns.elab_has ts _ ih.1).1, fun _ => rfl⟩
    · next e =>
      rw [e] at ih
      have ih2 := Syns.elab_has ts _ ih.1
      split
      · next e2 => rw [e2] at ih2; exact ⟨ih2.1, fun _ => rfl⟩
      · next e2 =>
        rw [e2] at ih2
        refine ⟨ih2.1, ?_⟩
        rintro (hm | hm)
        · cases ih.2 hm
        · cases ih2.2 hm
end

theorem elabCtors_has {x n} : ∀ (cs : List (String × Syns)) (d : Decls), HasN x n d →
    HasN x n (elabCtors d cs).2 ∧ ((∃ c ∈ cs, c.2.misuses x n) → (elabCtors d cs).1 = none)
  | [], d, h => by rw [elabCtors]; exact ⟨h, by rintro ⟨_, q, _⟩; cases q⟩
  | (c, as) :: cs, d, h => by
    have ih := Syns.elab_has as d h
    rw [elabCtors]
    split
    · next e =>
      rw [e] at ih
      exact ⟨(elabCtors_has cs _ ih.1).1, fun _ => rfl⟩
    · next e =>
      rw [e] at ih
      have ih2 := elabCtors_has cs _ ih.1
      split
      · next e2 => rw [e2] at ih2; exact ⟨ih2.1, fun _ => rfl⟩
      · next e2 =>
        rw [e2] at ih2
        refine ⟨ih2.1, ?_⟩
        rintro ⟨q, hq, hm⟩
        rcases List.mem_cons.1 hq with rfl | hq
        · cases ih.2 hm
        · cases ih2.2 ⟨q, hq, hm⟩

theorem elabDef_has {x n d t o d'} (h : HasN x n d) (e : elabDef d t = .ok (o, d')) :
    HasN x n d' ∧ ((∃ c ∈ t.ctors, c.2.misuses x n) → o = none) := by
  unfold elabDef at e
  have h1 : HasN x n (getType d t.name (varsOf t.params) .full).2 := getType_has h
  split at e
  · next e1 =>
    rw [e1] at h1
    cases e
    exact ⟨(elabCtors_has t.ctors _ h1).1, fun _ => rfl⟩
  · next e1 =>
    rw [e1] at h1
    have ih := elabCtors_has t.ctors _ h1
    split at e
    · next e2 => rw [e2] at ih; cases e; exact ⟨ih.1, fun _ => rfl⟩
    · next e2 =>
      rw [e2] at ih
      split at e
      · cases e
        refine ⟨ih.1, fun hm => ?_⟩
        cases ih.2 hm
      · cases e

theorem elabDefs_has {x n} : ∀ (ts : List TypeDef) (d : Decls) o d', HasN x n d → elabDefs d ts = .ok (o, d') →
    HasN x n d' ∧ ((∃ t ∈ ts, ∃ c ∈ t.ctors, c.2.misuses x n) → o = none)
  | [], d, o, d', h, e => by
    rw [elabDefs] at e
    cases e
    exact ⟨h, by rintro ⟨_, q, _⟩; cases q⟩
  | t :: ts, d, o, d', h, e => by
    rw [elabDefs] at e
    split at e
    · next o1 d1 e1 =>
      obtain ⟨h1, b1⟩ := elabDef_has h e1
      split at e
      · next o2 d2 e2 =>
        obtain ⟨h2, b2⟩ := elabDefs_has ts d1 _ _ h1 e2
        cases e
        refine ⟨h2, ?_⟩
        rintro ⟨q, hq, hm⟩
        rcases List.mem_cons.1 hq with rfl | hq
        · rw [b1 hm]
        · rw [b2 ⟨q, hq, hm⟩]
          cases o1 <;> rfl
      · next hn => exact absurd e (hn _ _)
    · next hn => exact absurd e (hn _ _)

theorem exec_has {x n g d o d'} (h : HasN x n d) (e : exec d (.lettype g) = .ok (o, d')) :
    HasN x n d' ∧ ((∃ t ∈ g, ∃ c ∈ t.ctors, c.2.misuses x n) → o = none) := by
  rw [exec] at e
  split at e
  · next cs d1 e1 =>
    obtain ⟨h1, b1⟩ := elabDefs_has g d _ _ h e1
    cases e
    refine ⟨h1, fun hm => ?_⟩
    cases b1 hm
  · next r hn =>
    exact elabDefs_has g d _ _ h e

theorem run_has {x n} : ∀ (gs : List (List TypeDef)) (d : Decls) os d', HasN x n d →
    run d (gs.map .lettype) = .ok (os, d') → ∀ (i : Nat) g, gs[i]? = some g →
      (∃ t ∈ g, ∃ c ∈ t.ctors, c.2.misuses x n) → os[i]? = some none
  | [], _, _, _, _, _, i, g, hg, _ => by simp at hg
  | g0 :: gs, d, os, d', h, e, i, g, hg, hm => by
    simp only [List.map_cons, run] at e
    split at e
    · next o d1 e1 =>
      obtain ⟨h1, b1⟩ := exec_has h e1
      split at e
      · next os' d2 e2 =>
        cases e
        cases i with
        | zero =>
          simp only [List.getElem?_cons_zero, Option.some.injEq] at hg
          subst hg
          rw [b1 hm]
          rfl
        | succ i => exact run_has gs d1 os' _ h1 e2 i g (by simpa using hg) hm
      all_goals cases e
    all_goals cases e

theorem varsOf_len : ∀ l : List Nat, (varsOf l).length = l.length
  | [] => rfl
  | _ :: l => by simp only [varsOf, DTys.length, varsOf_len l, List.length_cons]

theorem declare_has {t : TypeDef} (hp : t.params ≠ []) (hb : builtin t.name = none) (ht : t.name ≠ "tbl") {o d'}
    (e : exec Decls.start (.lettype [t]) = .ok (o, d')) : HasN t.name t.params.length d' := by
  have h0 : HasN t.name t.params.length (getType Decls.start t.name (varsOf t.params) .full).2 := by
    refine ⟨varsOf t.params, 0, ?_, ?_, varsOf_len _⟩
    · simp [getType, Decls.start, hb, ht, newConcrete]
    · cases hq : t.params with
      | nil => exact absurd hq hp
      | cons => simp [varsOf]
  have h1 : (getType Decls.start t.name (varsOf t.params) .full).1.isSome := by
    simp [getType, Decls.start, hb, ht, newConcrete]
  have key : ∀ o d1, elabDef Decls.start t = .ok (o, d1) → HasN t.name t.params.length d1 := by
    intro o d1 e
    unfold elabDef at e
    split at e
    · next q => rw [q] at h1; cases h1
    · next q =>
      rw [q] at h0
      have := (elabCtors_has t.ctors _ h0).1
      split at e
      · next q2 => rw [q2] at this; cases e; exact this
      · next q2 =>
        rw [q2] at this
        split at e
        · cases e; exact this
        · cases e
  have key2 : ∀ o d1, elabDefs Decls.start [t] = .ok (o, d1) → HasN t.name t.params.length d1 := by
    intro o d1 e
    rw [elabDefs] at e
    split at e
    · next q => simp only [elabDefs] at e; cases e; exact key _ _ q
    · next hn => exact absurd e (hn _ _)
  rw [exec] at e
  split at e
  · next q => cases e; exact key2 _ _ q
  · exact key2 _ _ e

end Voss.TC
