import Verif.Sum.Lemmas
/- Lemmas for C100: the sums. -/
namespace Voss.Sum
open Voss.Pre

variable {o : Order}

/-! ### The variables -/

/-- The variable is not in the list. -/
abbrev frOf (vars : List String) (v : String) : Bool := decide (v ∉ vars)

theorem free_filter (vars : List String) (fs : List (Fn o)) : (allVars vars fs).filter (frOf vars) = freeVars vars fs := by
  refine sorted_ext (o := o) (List.Pairwise.sublist List.filter_sublist (sorted_sortNames o _))
    (List.Pairwise.sublist List.filter_sublist (Fn.depends_sorted fs)) fun n => ?_
  simp only [List.mem_filter, allVars, freeVars, Fn.depends, mem_sortNames, List.mem_append, decide_eq_true_eq]
  tauto

theorem bound_perm (vars : List String) (fs : List (Fn o)) : (bound (frOf vars) (allVars vars fs)).Perm vars.dedup := by
  refine (List.perm_ext_iff_of_nodup (((sorted_sortNames o _).nodup).sublist List.filter_sublist)
    (List.nodup_dedup _)).2 fun n => ?_
  simp only [List.mem_filter, allVars, mem_sortNames, List.mem_append, List.mem_dedup, frOf, decide_not, Bool.not_not,
    decide_eq_true_eq]
  tauto

theorem fs_at (vars : List String) (fs : List (Fn o)) :
    Conj.ofList (freeVars vars fs) = fsAt (frOf vars) (decide (freeVars vars fs = [])) (allVars vars fs) := by
  unfold Conj.ofList fsAt
  rw [free_filter]
  by_cases h : freeVars vars fs = [] <;> simp [h]

theorem safe_harmless {z : Option String} {vars : List String} {fs : List (Fn o)} (h : Safe o z vars fs) :
    Harmless z (frOf vars) (decide (freeVars vars fs = [])) (allVars vars fs) := by
  by_cases hf : freeVars vars fs = []
  · exact .inl (by simp [hf])
  · refine .inr fun v m hm hfil hz => ?_
    obtain ⟨f, l, hfl⟩ := List.exists_cons_of_ne_nil hf
    have hff : f ∈ freeVars vars fs := by rw [hfl]; simp
    have hff' : f ∈ (allVars vars fs).filter (frOf vars) := by rw [free_filter]; exact hff
    have hfv : f ∉ vars := by simpa using (List.mem_filter.1 hff).2
    have hall := (List.mem_filter.1 hff').1
    have hv : v ∈ vars := by
      by_contra hv
      rw [List.filter_cons_of_pos (by simpa using hv)] at hfil
      exact absurd hfil (by simp)
    have hlt := h v hz hv f (List.mem_filter.1 hff).1 hfv
    obtain ⟨pre, hpre⟩ := hm
    have hs : Sorted o (allVars vars fs) := sorted_sortNames o _
    rw [← hpre] at hs hall
    rcases List.mem_append.1 hall with hp | hp
    · have := (List.pairwise_append.1 hs).2.2 f hp v (by simp)
      omega
    · have : f ∈ (v :: m).filter (frOf vars) := List.mem_filter.2 ⟨hp, by simpa using hfv⟩
      rw [hfil] at this
      exact absurd this (by simp)

theorem none_free {vars : List String} {fs : List (Fn o)} (h : decide (freeVars vars fs = []) = true) :
    ∀ w ∈ allVars vars fs, frOf vars w = false := by
  intro w hw
  rw [decide_eq_true_eq, ← free_filter] at h
  by_contra hc
  have : w ∈ (allVars vars fs).filter (frOf vars) := List.mem_filter.2 ⟨hw, by simpa using hc⟩
  rw [h] at this
  exact absurd this (by simp)

theorem vars_all {vars : List String} {fs : List (Fn o)} {f : Fn o} (hf : f ∈ fs) : ∀ n ∈ f.1.vars, n ∈ allVars vars fs := by
  intro n hn
  unfold allVars
  rw [mem_sortNames, List.mem_append]
  exact .inl (List.mem_flatMap.2 ⟨f, hf, hn⟩)

theorem count_top {z : Option String} {vars : List String} {fs : List (Fn o)} (hall : allVars vars fs ≠ [])
    (hs : Safe o z vars fs) {f : Fn o} (hf : f ∈ fs) {t : Cache o} (ht : Good o (frOf vars) (allVars vars fs) t) :
    ∃ r t', count z f.1 (.ofList (allVars vars fs)) (.ofList (freeVars vars fs)) t = some (r, t') ∧
      Good o (frOf vars) (allVars vars fs) t' ∧ r ≠ [] ∧
      ∀ η, Bv.sv r η = total vars.dedup (ind f.1) η := by
  obtain ⟨r, t', h1, h2, h3, h4⟩ := count_spec (sorted_sortNames o _) (safe_harmless hs) none_free f.1 0
    (allVars vars fs) t f.2 (List.suffix_refl _) (vars_all hf) ht
  refine ⟨r, t', ?_, h2, h3, fun η => by rw [h4, total_perm _ (bound_perm vars fs)]⟩
  rw [fs_at, Conj.ofList, if_neg hall]
  exact h1

/-- The value of the bits, none of which is a sign. -/
abbrev unsigned (l : List (Fn o)) (η : Env) : Int := Bv.uv (Bv.bits l η)

theorem unsigned_cons (b : Fn o) (bs : List (Fn o)) (η : Env) :
    unsigned (b :: bs) η = ind b.1 η * 2 ^ bs.length + unsigned bs η := by
  have e : Bv.Fml.den b η = b.1.ev η := rfl
  unfold unsigned
  rw [Bv.bits_cons, e]
  simp only [Bv.uv, Bv.bits_length, ind]
  cases b.1.ev η <;> simp

theorem sumLoop_spec {z : Option String} {vars : List String} {fs : List (Fn o)} (hall : allVars vars fs ≠ [])
    (hs : Safe o z vars fs) : ∀ (bs sum : List (Fn o)) (t : Cache o), (∀ f ∈ bs, f ∈ fs) →
    Good o (frOf vars) (allVars vars fs) t → sum ≠ [] →
    ∃ r, sumLoop z (.ofList (allVars vars fs)) (.ofList (freeVars vars fs)) bs sum t = some r ∧ r ≠ [] ∧
      ∀ η, Bv.sv r η = Bv.sv sum η + total vars.dedup (unsigned bs) η
  | [], sum, t, _, _, hsum => by
    refine ⟨sum, rfl, hsum, fun η => ?_⟩
    rw [show unsigned ([] : List (Fn o)) = fun _ => (0 : Int) from funext fun η => by simp [unsigned, Bv.uv], total_zero]
    omega
  | b :: bs, sum, t, hb, ht, hsum => by
    obtain ⟨r, t', h1, h2, h3, h4⟩ := count_top hall hs (hb b (by simp)) ht
    obtain ⟨q, g1, g2, g3⟩ := sumLoop_spec hall hs bs (add sum (shiftLeft r bs.length)) t'
      (fun f hf => hb f (by simp [hf])) h2 (add_ne_nil _ _)
    refine ⟨q, by rw [sumLoop, h1]; exact g1, g2, fun η => ?_⟩
    rw [g3, sv_add hsum (shiftLeft_ne_nil h3 _), sv_shiftLeft h3, h4, ← total_mul,
      total_congr (g := unsigned (b :: bs)) _ _ (unsigned_cons b bs), total_add]
    ring

theorem good_nil (fr : String → Bool) (all : List String) : Good o fr all [] := fun d r h => absurd h (by simp)

theorem sv_trim_ne {l : List (Fn o)} (h : l ≠ []) : Bv.trim l ≠ [] ∧ ∀ η, Bv.sv (Bv.trim l) η = Bv.sv l η :=
  ⟨Bv.trim_ne_nil _ h, fun η => Bv.sv_trim η l⟩

theorem bvSumC_spec {z : Option String} {vars : List String} {bv : List (Fn o)} (hall : allVars vars bv ≠ [])
    (hs : Safe o z vars bv) : ∃ r, bvSumC z vars bv = some r ∧ r ≠ [] ∧
      ∀ η, Bv.sv r η = total vars.dedup (unsigned bv) η := by
  obtain ⟨r, h1, h2, h3⟩ := sumLoop_spec hall hs bv [Fn.ff o] [] (fun f hf => hf) (good_nil _ _) (by simp)
  refine ⟨_, by rw [bvSumC, h1]; rfl, (sv_trim_ne h2).1, fun η => ?_⟩
  rw [(sv_trim_ne h2).2, h3, sv_zero]
  omega

/-! ### No variables at all -/

theorem leaf_of_vars {d : Dd} (h : d.vars = []) : ∃ b, d = .leaf b := by
  cases d with
  | leaf b => exact ⟨b, rfl⟩
  | node v a b => simp [Dd.vars] at h

theorem sumLoop_const (z : Option String) : ∀ (bs sum : List (Fn o)) (t : Cache o), (∀ f ∈ bs, f.1.vars = []) → sum ≠ [] →
    ∃ r, sumLoop z .one .one bs sum t = some r ∧ r ≠ [] ∧ ∀ η, Bv.sv r η = Bv.sv sum η + 2 * unsigned bs η
  | [], sum, t, _, hsum => ⟨sum, rfl, hsum, fun η => by simp [unsigned, Bv.uv]⟩
  | b :: bs, sum, t, hb, hsum => by
    obtain ⟨c, hc⟩ := leaf_of_vars (hb b (by simp))
    have key : ∃ r, count z b.1 .one .one t = some (r, t) ∧ r ≠ [] ∧ ∀ η, Bv.sv r η = 2 * ind b.1 η := by
      rw [hc]
      cases c with
      | false => exact ⟨_, by rw [count], by simp, fun η => by simp [ind, Dd.ev]; exact sv_zero η⟩
      | true =>
        refine ⟨_, by rw [count], shiftLeft_ne_nil (by simp) _, fun η => ?_⟩
        have e1 : Bv.Fml.den (Fn.ff o) η = false := rfl
        have e2 : Bv.Fml.den (Fn.tt o) η = true := rfl
        rw [sv_shiftLeft (by simp)]
        simp [Bv.sv, e1, e2, Bv.tc, Bv.uv, zeros, getNext, ind, Dd.ev]
    obtain ⟨r, h1, h3, h4⟩ := key
    obtain ⟨q, g1, g2, g3⟩ := sumLoop_const z bs (add sum (shiftLeft r bs.length)) t
      (fun f hf => hb f (by simp [hf])) (add_ne_nil _ _)
    refine ⟨q, by rw [sumLoop, h1]; exact g1, g2, fun η => ?_⟩
    rw [g3, sv_add hsum (shiftLeft_ne_nil h3 _), sv_shiftLeft h3, h4, unsigned_cons]
    ring

theorem all_nil {vars : List String} {bv : List (Fn o)} : allVars vars bv = [] ↔ vars = [] ∧ Fn.depends bv = [] := by
  have h : ∀ l : List String, l = [] ↔ ∀ n, n ∉ l := fun l => List.eq_nil_iff_forall_not_mem
  rw [h, h, h]
  unfold allVars Fn.depends
  simp only [mem_sortNames, List.mem_append, not_or]
  constructor
  · exact fun h => ⟨fun n => (h n).2, fun n => (h n).1⟩
  · exact fun h n => ⟨h.2 n, h.1 n⟩

theorem bvSumC_const (z : Option String) {bv : List (Fn o)} (h : Fn.depends bv = []) :
    ∃ r, bvSumC z [] bv = some r ∧ r ≠ [] ∧ ∀ η, Bv.sv r η = 2 * unsigned bv η := by
  have hall : allVars [] bv = [] := all_nil.2 ⟨rfl, h⟩
  obtain ⟨r, h1, h2, h3⟩ := sumLoop_const z bv [Fn.ff o] [] (fun f hf => by
    rw [List.eq_nil_iff_forall_not_mem]
    intro n hn
    have := vars_all (vars := []) hf n hn
    rw [hall] at this
    exact absurd this (by simp)) (by simp)
  refine ⟨_, by rw [bvSumC, hall, freeVars, h]; simp only [Conj.ofList, List.filter_nil, if_true]; rw [h1]; rfl,
    (sv_trim_ne h2).1, fun η => ?_⟩
  rw [(sv_trim_ne h2).2, h3, sv_zero]
  omega

/-! ### Counting -/

theorem countLoop_spec {z : Option String} {vars : List String} {fs : List (Fn o)} (hall : allVars vars fs ≠ [])
    (hs : Safe o z vars fs) : ∀ (l : List (Fn o)) (t : Cache o), (∀ f ∈ l, f ∈ fs) →
    Good o (frOf vars) (allVars vars fs) t →
    ∃ rs, countLoop z (.ofList (allVars vars fs)) (.ofList (freeVars vars fs)) l t = some rs ∧
      List.Forall₂ (fun f r => ∀ η, Bv.sv r η = total vars.dedup (fun η => if Fn.ev f η then 1 else 0) η) l rs
  | [], t, _, _ => ⟨[], rfl, .nil⟩
  | b :: bs, t, hb, ht => by
    obtain ⟨r, t', h1, h2, h3, h4⟩ := count_top hall hs (hb b (by simp)) ht
    obtain ⟨q, g1, g2⟩ := countLoop_spec hall hs bs t' (fun f hf => hb f (by simp [hf])) h2
    refine ⟨Bv.trim r :: q, by rw [countLoop, h1]; simp only [Option.bind_some]; rw [g1]; rfl, .cons (fun η => ?_) g2⟩
    rw [(sv_trim_ne h3).2, h4]
    rfl

/-! ### What the parts of a bit-vector depend on -/

section
variable {F E : Type} [Bv.Fml F E] {P : F → Prop}

/-- Closed under the connectives. -/
structure Closed (P : F → Prop) : Prop where
  zero : P Bv.Fml.zero
  one : P Bv.Fml.one
  not : ∀ a, P a → P (Bv.Fml.not a)
  and : ∀ a b, P a → P b → P (Bv.Fml.and a b)
  or : ∀ a b, P a → P b → P (Bv.Fml.or a b)
  xor : ∀ a b, P a → P b → P (Bv.Fml.xor a b)

theorem trim_all : ∀ {l : List F}, (∀ f ∈ l, P f) → ∀ f ∈ Bv.trim l, P f
  | [], h => by simp
  | [a], h => by simpa [Bv.trim] using h
  | a :: b :: l, h => by
    rw [Bv.trim]
    split
    · exact trim_all fun f hf => h f (List.mem_cons_of_mem _ hf)
    · exact h

theorem headD_all (hc : Closed P) {l : List F} (h : ∀ f ∈ l, P f) : P (l.headD Bv.Fml.zero) := by
  cases l with
  | nil => exact hc.zero
  | cons a l => exact h a (by simp)

theorem sxTo_all (hc : Closed P) {l : List F} (h : ∀ f ∈ l, P f) (n : Nat) : ∀ f ∈ Bv.sxTo n l, P f := by
  intro f hf
  unfold Bv.sxTo at hf
  rcases List.mem_append.1 hf with hf | hf
  · rw [List.eq_of_mem_replicate hf]; exact headD_all hc h
  · exact h f hf

theorem zipWith_all {g : F → F → F} : ∀ {l m : List F}, (∀ a b, P a → P b → P (g a b)) → (∀ f ∈ l, P f) → (∀ f ∈ m, P f) →
    ∀ f ∈ List.zipWith g l m, P f
  | [], m, _, _, _ => by simp
  | a :: l, [], _, _, _ => by simp
  | a :: l, b :: m, hg, hl, hm => by
    intro f hf
    simp only [List.zipWith_cons_cons, List.mem_cons] at hf
    rcases hf with rfl | hf
    · exact hg _ _ (hl a (by simp)) (hm b (by simp))
    · exact zipWith_all hg (fun f hf => hl f (by simp [hf])) (fun f hf => hm f (by simp [hf])) f hf

theorem iteList_all (hc : Closed P) {c : F} {l m : List F} (h : P c) (hl : ∀ f ∈ l, P f) (hm : ∀ f ∈ m, P f) :
    ∀ f ∈ Bv.iteList c l m, P f := by
  unfold Bv.iteList
  exact trim_all (zipWith_all (fun a b ha hb => hc.or _ _ (hc.and _ _ h ha) (hc.and _ _ (hc.not _ h) hb))
    (sxTo_all hc hl _) (sxTo_all hc hm _))

theorem addRec_all (hc : Closed P) : ∀ {l m : List F}, (∀ f ∈ l, P f) → (∀ f ∈ m, P f) →
    (∀ f ∈ (Bv.addRec false l m).1, P f) ∧ P (Bv.addRec false l m).2
  | [], m, _, _ => by simp [Bv.addRec, hc.zero]
  | a :: l, [], _, _ => by simp [Bv.addRec, hc.zero]
  | a :: l, b :: m, hl, hm => by
    have ih := addRec_all hc (l := l) (m := m) (fun f hf => hl f (by simp [hf])) (fun f hf => hm f (by simp [hf]))
    have ha := hl a (by simp)
    have hb := hm b (by simp)
    simp only [Bv.addRec, Bool.false_eq_true, if_false]
    refine ⟨?_, hc.or _ _ (hc.and _ _ ha hb) (hc.or _ _ (hc.and _ _ ha ih.2) (hc.and _ _ hb ih.2))⟩
    intro f hf
    rcases List.mem_cons.1 hf with rfl | hf
    · exact hc.xor _ _ ha (hc.xor _ _ hb ih.2)
    · exact ih.1 f hf

theorem genAdd_all (hc : Closed P) {l m : List F} (hl : ∀ f ∈ l, P f) (hm : ∀ f ∈ m, P f) :
    ∀ f ∈ Bv.genAdd false l m, P f := by
  unfold Bv.genAdd
  refine trim_all (addRec_all hc ?_ ?_).1
  · intro f hf
    rcases List.mem_cons.1 hf with rfl | hf
    · exact headD_all hc hl
    · exact hl f hf
  · intro f hf
    rcases List.mem_cons.1 hf with rfl | hf
    · exact headD_all hc hm
    · exact hm f hf

theorem bvNOT_all (hc : Closed P) {l : List F} (hl : ∀ f ∈ l, P f) : ∀ f ∈ Bv.bvNOT l, P f := by
  unfold Bv.bvNOT
  refine trim_all fun f hf => ?_
  obtain ⟨a, ha, rfl⟩ := List.mem_map.1 hf
  exact hc.not _ (hl a ha)

end

theorem bvNeg_all {P : Fn o → Prop} (hc : Closed P) {l r : List (Fn o)} (hl : ∀ f ∈ l, P f) (h : bvNeg l = some r) :
    ∀ f ∈ r, P f := by
  unfold bvNeg Bv.bvAdd at h
  by_cases hn : Bv.bvNOT l = []
  · rw [hn] at h
    simp [Bv.guard2] at h
  · rw [Bv.guard2_ne _ _ hn (by simp)] at h
    simp only [Option.some.injEq] at h
    rw [← h]
    refine trim_all (genAdd_all hc (sxTo_all hc (bvNOT_all hc hl) _) (sxTo_all hc ?_ _))
    intro f hf
    simp only [List.mem_cons, List.not_mem_nil, or_false] at hf
    rcases hf with rfl | rfl
    · exact hc.zero
    · exact hc.one

/-- Functions with the same value under both assignments. -/
theorem same_closed (η ζ : Env) : Closed fun f : Fn o => f.ev η = f.ev ζ where
  zero := rfl
  one := rfl
  not a h := by
    have e := fun η => Bv.Fml.den_not a η
    exact (e η).trans ((congrArg _ h).trans (e ζ).symm)
  and a b h h' := by
    have e := fun η => Bv.Fml.den_and a b η
    exact (e η).trans ((congrArg₂ _ h h').trans (e ζ).symm)
  or a b h h' := by
    have e := fun η => Bv.Fml.den_or a b η
    exact (e η).trans ((congrArg₂ _ h h').trans (e ζ).symm)
  xor a b h h' := by
    have e := fun η => Bv.Fml.den_xor a b η
    exact (e η).trans ((congrArg₂ _ h h').trans (e ζ).symm)

/-- What depends on the same variables at most. -/
def Within (l m : List (Fn o)) : Prop := ∀ η ζ : Env, (∀ f ∈ m, f.ev η = f.ev ζ) → ∀ f ∈ l, f.ev η = f.ev ζ

theorem Within.depends {l m : List (Fn o)} (h : Within l m) : ∀ n ∈ Fn.depends l, n ∈ Fn.depends m := by
  intro n hn
  obtain ⟨f, hf, η, hne⟩ := Fn.mem_depends.1 hn
  by_contra hc
  refine hne (h _ _ (fun g hg => ?_) f hf)
  refine Fn.ev_depends hg fun k hk => ?_
  have : k ≠ n := fun e => hc (e ▸ hk)
  simp [Env.set, this]

theorem Within.safe {z : Option String} {vars : List String} {l m : List (Fn o)} (h : Within l m) (hs : Safe o z vars m) :
    Safe o z vars l := fun v h1 h2 f hf hfv => hs v h1 h2 f (h.depends f hf) hfv

theorem sv_same {l : List (Fn o)} {η ζ : Env} (h : ∀ f ∈ l, f.ev η = f.ev ζ) : Bv.sv l η = Bv.sv l ζ := by
  unfold Bv.sv Bv.bits
  exact congrArg _ (List.map_congr_left fun f hf => h f hf)

theorem sv_depends_nil {l : List (Fn o)} (h : Fn.depends l = []) (η ζ : Env) : Bv.sv l η = Bv.sv l ζ :=
  sv_same fun f hf => Fn.ev_depends hf fun n hn => by rw [h] at hn; exact absurd hn (by simp)

theorem unsigned_eq {l : List (Fn o)} {η : Env} (h : 0 ≤ Bv.sv l η) : unsigned l η = Bv.sv l η :=
  (Bv.tc_nonneg_uv _ h).symm

/-- The builtin, when the vector is never negative. -/
theorem bvSumC_pos {z : Option String} {vars : List String} {bv : List (Fn o)} (hs : Safe o z vars bv)
    (hp : ∀ η, 0 ≤ Bv.sv bv η) (hz : vars ≠ [] ∨ Fn.depends bv ≠ [] ∨ ∀ η, Bv.sv bv η = 0) :
    ∃ r, bvSumC z vars bv = some r ∧ r ≠ [] ∧ ∀ η, Bv.sv r η = total vars.dedup (Bv.sv bv) η := by
  by_cases hall : allVars vars bv = []
  · obtain ⟨hv, hd⟩ := all_nil.1 hall
    have h0 : ∀ η, Bv.sv bv η = 0 := by
      rcases hz with h | h | h
      · exact absurd hv h
      · exact absurd hd h
      · exact h
    subst hv
    obtain ⟨r, h1, h2, h3⟩ := bvSumC_const z hd
    refine ⟨r, h1, h2, fun η => ?_⟩
    rw [h3, unsigned_eq (hp η), h0]
    exact (h0 η).symm
  · obtain ⟨r, h1, h2, h3⟩ := bvSumC_spec hall hs
    exact ⟨r, h1, h2, fun η => by rw [h3, total_congr _ _ fun η => unsigned_eq (hp η)]⟩

theorem geq_zero {bv : List (Fn o)} (hne : bv ≠ []) :
    ∃ c, Bv.bvGeq bv [Fn.ff o] = some c ∧ ∀ η, c.ev η = decide (0 ≤ Bv.sv bv η) := by
  obtain ⟨c, h1, h2⟩ := (Bv.c11_compare bv [Fn.ff o] hne (by simp)).2.2.2.1
  exact ⟨c, h1, fun η => by have := h2 η; rw [sv_zero] at this; exact this⟩

/-- A conditional outside of other conditionals, between vectors. -/
theorem branch_bv (c : Fn o) (hc : c ≠ Fn.tt o) {x y : List (Fn o)} (hx : x ≠ []) (hy : y ≠ []) {t : Fn o → Out (List (Fn o))}
    {e : Fn o → Out (List (Fn o))} (ht : ∀ p, t p = .ok x) (he : ∀ p, e p = .ok y) :
    ∃ r, branch (Fn.tt o) c t e mergeBv = .ok r ∧ r ≠ [] ∧ (∀ η, Bv.sv r η = if c.ev η then Bv.sv x η else Bv.sv y η) ∧
      (∀ η ζ : Env, c.ev η = c.ev ζ → (∀ f ∈ x, f.ev η = f.ev ζ) → (∀ f ∈ y, f.ev η = f.ev ζ) → ∀ f ∈ r, f.ev η = f.ev ζ) := by
  unfold branch
  rw [if_neg hc]
  by_cases c2 : c = Fn.ff o
  · rw [if_pos c2]
    exact ⟨y, he _, hy, fun η => by rw [c2]; rfl, fun η ζ _ _ h => h⟩
  · rw [if_neg c2]
    have e1 : (Fn.tt o).and c = c := Fn.ext fun η => by simp
    have e2 : (Fn.tt o).and c.not = c.not := Fn.ext fun η => by simp
    rw [e1, e2, if_neg c2, if_neg (by
      intro h
      refine hc (Fn.ext fun η => ?_)
      have := congrArg (fun f => f.ev η) h
      simpa using this), ht, he]
    refine ⟨_, rfl, Bv.iteList_ne_nil _ _ _ hx hy, fun η => Bv.sv_iteList c x y hx hy η, ?_⟩
    intro η ζ hcc h1 h2
    exact iteList_all (same_closed η ζ) hcc h1 h2

end Voss.Sum
