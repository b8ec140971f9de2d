import Verif.Bdd.SubstLemmas
/-
Functions of variable numbers and functions of variable names.
-/
namespace Voss.Bdd

open Classical in
/-- An assignment to names that induces the given assignment to numbers. -/
noncomputable def liftN (s : S) (ρ : Env) : NEnv := fun name =>
  decide (∃ v, v < s.nvars ∧ s.vname v = name ∧ ρ v = true)

theorem liftN_apply {s : S} (hv : VInv s) (ρ : Env) {v : Nat} (h : v < s.nvars) :
    liftN s ρ (s.vname v) = ρ v := by
  unfold liftN
  cases hb : ρ v with
  | true => exact decide_eq_true ⟨v, h, rfl, hb⟩
  | false =>
    apply decide_eq_false
    rintro ⟨w, h1, h2, h3⟩
    rw [hv.name_inj w v h1 h h2, hb] at h3
    exact absurd h3 (by simp)

/-- The number-level function is determined by the name-level one. -/
theorem nden_num {s : S} (hI : Inv s) {f : F} {g : BFun} {G : NEnv → Bool} (d : Denotes s f g)
    (h : ∀ η : NEnv, G η = g (fun v => η (s.vname v))) (ρ : Env) : g ρ = G (liftN s ρ) := by
  rw [h]
  apply d.onlyFrom hI.str
  intro v hv _
  rw [liftN_apply hI.vars ρ hv]

theorem nden_inj {s : S} (hI : Inv s) {f f' : F} {G : NEnv → Bool} (h : NDen s f G)
    (h' : NDen s f' G) : f = f' := by
  obtain ⟨g, d, e⟩ := h
  obtain ⟨g', d', e'⟩ := h'
  have : g = g' := funext fun ρ => by rw [nden_num hI d e, nden_num hI d' e']
  subst this
  exact canon hI.str d d'

theorem nden_det {s : S} {f : F} {G G' : NEnv → Bool} (h : NDen s f G) (h' : NDen s f G') : G = G' := by
  obtain ⟨g, d, e⟩ := h
  obtain ⟨g', d', e'⟩ := h'
  rw [d.det d'] at e
  funext η; rw [e, e']

theorem denotes_var_lt {s : S} (hs : SInv s) {f : F} {g : BFun} (d : Denotes s f g) {v : Nat}
    (h : DependsOn g v) : v < s.nvars := by
  by_contra hc
  obtain ⟨ρ, hρ⟩ := h
  apply hρ
  apply d.onlyFrom hs
  intro w hw _
  rw [set1_ne _ _ (by omega), set1_ne _ _ (by omega)]

theorem setN_vname {s : S} (hv : VInv s) (η : NEnv) {v w : Nat} (h : v < s.nvars) (hw : w < s.nvars) (b : Bool) :
    setN η (s.vname v) b (s.vname w) = set1 (fun v => η (s.vname v)) v b w := by
  unfold setN set1
  by_cases hwv : w = v
  · subst hwv; simp
  · have : s.vname w ≠ s.vname v := fun e => hwv (hv.name_inj w v hw h e)
    simp [hwv, this]

theorem ndependsOn_iff {s : S} (hI : Inv s) {f : F} {g : BFun} {G : NEnv → Bool} (d : Denotes s f g)
    (h : ∀ η : NEnv, G η = g (fun v => η (s.vname v))) (name : String) :
    NDependsOn G name ↔ ∃ v, v < s.nvars ∧ s.vname v = name ∧ DependsOn g v := by
  constructor
  · rintro ⟨η, hη⟩
    by_cases hex : ∃ v, v < s.nvars ∧ s.vname v = name
    · obtain ⟨v, hv, rfl⟩ := hex
      refine ⟨v, hv, rfl, fun v => η (s.vname v), fun he => hη ?_⟩
      rw [h, h]
      have key : ∀ b, g (fun w => setN η (s.vname v) b (s.vname w)) = g (set1 (fun v => η (s.vname v)) v b) :=
        fun b => d.onlyFrom hI.str _ _ fun w hw _ => setN_vname hI.vars η hv hw b
      rw [key, key]; exact he
    · exfalso
      apply hη
      rw [h, h]
      apply d.onlyFrom hI.str
      intro w hw _
      have : s.vname w ≠ name := fun e => hex ⟨w, hw, e⟩
      simp [setN, this]
  · rintro ⟨v, hv, rfl, ρ, hρ⟩
    refine ⟨liftN s ρ, fun he => hρ ?_⟩
    rw [h, h] at he
    have key : ∀ b, g (fun w => setN (liftN s ρ) (s.vname v) b (s.vname w)) = g (set1 ρ v b) := by
      intro b
      apply d.onlyFrom hI.str
      intro w hw _
      rw [setN_vname hI.vars _ hv hw]
      unfold set1
      split
      · rfl
      · exact liftN_apply hI.vars ρ hw
    rw [key, key] at he
    exact he

end Voss.Bdd
