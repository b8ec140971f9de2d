import Verif.Txt.Regex
/-
C75: a regular expression is compiled by the C library, or the result of an earlier compilation is used.
-/
namespace Voss.Txt

variable {ρ : Type}

/-- Each line holds what the C library gave for its pattern. -/
def Sound (regcomp : List Char → Option ρ) (c : List (Line ρ)) : Prop :=
  ∀ l ∈ c, ∀ p, l.pat = some p → regcomp p = some l.code

theorem scan_hit (pat : List Char) : ∀ (ls : List (Line ρ)) (i o : Nat) (oi h : Int) (k : Nat),
    scan pat ls i o oi h = .inl k → ∃ j l, k = i + j ∧ ls[j]? = some l ∧ l.pat = some pat := by
  intro ls
  induction ls with
  | nil => intro i o oi h k e; simp [scan] at e
  | cons l ls ih =>
    intro i o oi h k e
    rw [scan] at e
    have next : ∀ o oi h, scan pat ls (i + 1) o oi h = .inl k →
        ∃ j l', k = i + j ∧ (l :: ls)[j]? = some l' ∧ l'.pat = some pat := by
      intro o oi h e
      obtain ⟨j, l', hk, hl, hp⟩ := ih _ _ _ _ _ e
      exact ⟨j + 1, l', by omega, by simpa using hl, hp⟩
    split at e
    · rename_i p hp
      split at e
      · rename_i heq
        cases e
        exact ⟨0, l, rfl, rfl, by rw [hp, heq]⟩
      · split at e
        · exact next _ _ _ e
        · exact next _ _ _ e
    · exact next _ _ _ e

/-- C75: whatever `compile_regexp` returns is what the C library gives for the pattern, an illegal pattern is reported
as such, and the cache stays so. -/
theorem c75_sound_partial (regcomp : List Char → Option ρ) (now : Nat) (c : List (Line ρ)) (h : Sound regcomp c)
    (pat : List Char) :
    (∀ r c', compileRegexp regcomp now c pat = .ok r c' → regcomp pat = some r ∧ Sound regcomp c' ∧ c'.length = c.length) ∧
    (∀ c', compileRegexp regcomp now c pat = .illegal c' → regcomp pat = none ∧ Sound regcomp c' ∧ c'.length = c.length) := by
  have hset : ∀ i (l : Line ρ), (∀ p, l.pat = some p → regcomp p = some l.code) → Sound regcomp (c.set i l) := by
    intro i l hl l' hl' p hp
    rcases List.mem_or_eq_of_mem_set hl' with hm | rfl
    · exact h l' hm p hp
    · exact hl p hp
  unfold compileRegexp
  split
  · rename_i i hs
    obtain ⟨j, l, rfl, hl, hp⟩ := scan_hit _ _ _ _ _ _ _ hs
    rw [Nat.zero_add, hl]
    have hm : l ∈ c := List.mem_of_getElem? hl
    constructor
    · intro r c' e
      simp only [Comp.ok.injEq] at e
      obtain ⟨rfl, rfl⟩ := e
      exact ⟨h l hm pat hp, hset _ _ (fun p hp' => h l hm p hp'), by simp⟩
    · intro c' e
      cases e
  · rename_i oldest hole hs
    generalize (if hole = -1 then hole else oldest) = idx
    simp only
    by_cases hi : idx < 0 ∨ (c.length : Int) ≤ idx
    · rw [if_pos hi]
      exact ⟨fun _ _ e => (nomatch e), fun _ e => (nomatch e)⟩
    · rw [if_neg hi]
      split
      · rename_i r _ hr
        constructor
        · intro r' c' e
          simp only [Comp.ok.injEq] at e
          obtain ⟨rfl, rfl⟩ := e
          refine ⟨hr, hset _ _ ?_, by simp⟩
          intro p hp
          simp only [Option.some.injEq] at hp
          rw [← hp]; exact hr
        · intro c' e
          cases e
      · rename_i l hr hl
        constructor
        · intro r' c' e
          cases e
        · intro c' e
          simp only [Comp.illegal.injEq] at e
          subst e
          exact ⟨hr, hset _ _ (fun p hp => (nomatch hp)), by simp⟩
      · exact ⟨fun _ _ e => (nomatch e), fun _ e => (nomatch e)⟩

example : ∃ (regcomp : List Char → Option Nat) (c : List (Line Nat)), Sound regcomp c ∧ c ≠ [] ∧
    ∃ c', compileRegexp regcomp 5 c "ab".toList = .ok 2 c' := by
  refine ⟨fun p => some p.length, [⟨some "ab".toList, 1, 2⟩], ?_, by simp, _, rfl⟩
  intro l hl p hp
  simp only [List.mem_singleton] at hl
  subst hl
  simp only [Option.some.injEq] at hp
  rw [← hp]; rfl

/-- C75 is violated: the first time a regular expression is used, whatever it is, the line with index -1 is freed and
overwritten; the branches for "there is a hole" and "there is none" are exchanged. -/
theorem c75_first_violated (regcomp : List Char → Option ρ) (now : Nat) (junk : ρ) (pat : List Char) :
    Sound regcomp (emptyCache junk) ∧ compileRegexp regcomp now (emptyCache junk) pat = .ub := by
  refine ⟨?_, rfl⟩
  intro l hl p hp
  have := List.eq_of_mem_replicate hl
  subst this
  cases hp

/-- C75 is violated: the same when all lines are in use and the pattern is new. -/
theorem c75_full_violated (regcomp : List Char → Option ρ) (now : Nat) (c : List (Line ρ)) (pat : List Char)
    (h : ∀ l ∈ c, ∃ p, l.pat = some p ∧ p ≠ pat) : compileRegexp regcomp now c pat = .ub := by
  have hs : ∀ (ls : List (Line ρ)) (i o : Nat) (oi : Int), (∀ l ∈ ls, ∃ p, l.pat = some p ∧ p ≠ pat) →
      ∃ k, scan pat ls i o oi (-1) = .inr (k, -1) := by
    intro ls
    induction ls with
    | nil => intro i o oi _; exact ⟨oi, rfl⟩
    | cons l ls ih =>
      intro i o oi hl
      obtain ⟨p, hp, hne⟩ := hl l (by simp)
      rw [scan, hp]
      simp only
      rw [if_neg hne]
      split
      · exact ih _ _ _ (fun l hl' => hl l (by simp [hl']))
      · exact ih _ _ _ (fun l hl' => hl l (by simp [hl']))
  obtain ⟨k, hk⟩ := hs c 0 0 (-1) h
  unfold compileRegexp
  rw [hk]
  simp

example : ∀ l ∈ List.replicate 10 (⟨some "a".toList, 1, 0⟩ : Line Nat), ∃ p, l.pat = some p ∧ p ≠ "b".toList := by
  intro l hl
  rw [List.eq_of_mem_replicate hl]
  exact ⟨_, rfl, by decide⟩

end Voss.Txt
