import Verif.Type.Lemmas
/-
Helper lemmas: copies of types, inference.
-/
namespace Voss.TC

variable {ar : String → Nat} {G : Nat → Prop} {s : St} {θ : Nat → Ty}

/-! ### Outcomes -/

/-- The function ends in `ok a` with `P a`, or in `fail` with `N`. -/
def Outcome {α : Type} (f : Nat → Res α) (P : α → Prop) (N : Prop) : Prop := (∃ a, Ev f (.ok a) ∧ P a) ∨ (Ev f .fail ∧ N)

theorem Outcome.pure {α : Type} {a : α} {P : α → Prop} {N : Prop} (h : P a) : Outcome (fun _ => Res.ok a) P N :=
  .inl ⟨a, Ev.const _, h⟩

theorem Outcome.fail {α : Type} {P : α → Prop} {N : Prop} (h : N) : Outcome (fun _ => (Res.fail : Res α)) P N := .inr ⟨Ev.const _, h⟩

theorem Outcome.bind {α β : Type} {f : Nat → Res α} {g : Nat → α → Res β} {P : α → Prop} {N : Prop} {Q : β → Prop} {M : Prop}
    (h1 : Outcome f P N) (h2 : ∀ a, P a → Outcome (fun n => g n a) Q M) (h3 : N → M) : Outcome (fun n => f n >>= g n) Q M := by
  rcases h1 with ⟨a, e, h⟩ | ⟨e, h⟩
  · rcases h2 a h with ⟨b, e2, h'⟩ | ⟨e2, h'⟩
    · exact .inl ⟨b, e.bind e2, h'⟩
    · exact .inr ⟨e.bind e2, h'⟩
  · exact .inr ⟨e.bind_fail, h3 h⟩

theorem Outcome.and {α : Type} {f : Nat → Res α} {P Q : α → Prop} {N : Prop} (h : Outcome f P N) (hq : ∀ n a, f n = .ok a → Q a) :
    Outcome f (fun a => P a ∧ Q a) N := by
  rcases h with ⟨a, ⟨N, hN⟩, h⟩ | h
  · exact .inl ⟨a, ⟨N, hN⟩, h, hq N a (hN N (Nat.le_refl _))⟩
  · exact .inr h

/-- The store can be solved. -/
def Reach (ar : String → Nat) (G : Nat → Prop) (s : St) : Prop :=
  (∃ θ, Inv ar G s θ) ∧ ∀ p ∈ s.unres, G p.1 ∧ Good ar G s.next p.2

/-- `ρ` satisfies the bindings, and gives the numbers of overloaded names their types. -/
def SolU (s : St) (ρ : Nat → Ty) : Prop := Sol s.bind ρ ∧ ∀ p ∈ s.unres, ρ p.1 = p.2.sub ρ

theorem Res.assoc {α β γ : Type} (x : Res α) (f : α → Res β) (g : β → Res γ) : (x >>= f >>= g) = (x >>= fun a => f a >>= g) := by
  cases x <;> rfl

theorem resolve_out (R : Reach ar G s) (t : Ty) : Outcome (fun n => Res.ofOption (resolve s.bind n t))
    (fun t' => (∀ v, t' = .var v → s.bind v = none) ∧ (Good ar G s.next t → Good ar G s.next t') ∧ ∀ ρ, Sol s.bind ρ → t'.sub ρ = t.sub ρ)
    False := by
  obtain ⟨⟨θ, I⟩, _⟩ := R
  obtain ⟨t', e, _, h1, h2, h3, _⟩ := resolve_ev I t
  exact .inl ⟨t', e.ofOption, h1, h2, h3⟩

theorem unify_out (R : Reach ar G s) {t1 t2 : Ty} (g1 : Good ar G s.next t1) (g2 : Good ar G s.next t2) :
    Outcome (fun n => unify! n s t1 t2)
      (fun s' => Ext s s' ∧ Reach ar G s' ∧ s'.next = s.next ∧ (∀ ρ, SolU s' ρ ↔ SolU s ρ ∧ t1.sub ρ = t2.sub ρ)
        ∧ ∀ ρ, Sol s'.bind ρ ↔ Sol s.bind ρ ∧ t1.sub ρ = t2.sub ρ)
      (∀ ρ, SolU s ρ → t1.sub ρ ≠ t2.sub ρ) := by
  obtain ⟨⟨θ, I⟩, hU⟩ := R
  obtain ⟨b, s', e, hx, hm⟩ := unify_ok I g1 g2
  cases b with
  | true =>
    refine .inl ⟨s', e.map fun n h => by simp only [unify!, h]; rfl, hx.1, ⟨hm.1, ?_⟩, hm.2.1, fun ρ => ?_, hm.2.2⟩
    · rw [hx.2, hm.2.1]; exact hU
    · simp only [SolU, hm.2.2 ρ, hx.2]
      constructor
      · rintro ⟨⟨h1, h2⟩, h3⟩; exact ⟨⟨h1, h3⟩, h2⟩
      · rintro ⟨⟨h1, h3⟩, h2⟩; exact ⟨⟨h1, h2⟩, h3⟩
  | false => exact .inr ⟨e.map fun n h => by simp only [unify!, h]; rfl, fun ρ h => hm ρ h.1⟩

/-! ### New variables -/

theorem Inv.more (I : Inv ar G s θ) {m : Nat} (h : s.next ≤ m) : Inv ar G { s with next := m } θ := by
  refine ⟨I.sol, I.unb, I.mg, ?_, ?_, I.vars, fun v hv => Nat.lt_of_lt_of_le (I.gen v hv) h, I.time⟩
  · intro v t hv
    obtain ⟨h1, h2, h3⟩ := I.bound v t hv
    exact ⟨Nat.lt_of_lt_of_le h1 h, h2, h3.mono h⟩
  · intro v hv hG
    by_cases hlt : v < s.next
    · exact (I.good v hlt hG).mono h
    · have : s.bind v = none := by
        cases hb : s.bind v with
        | none => rfl
        | some t => exact absurd (I.bound v t hb).1 hlt
      rw [I.unb v this]
      exact ⟨⟨hv, hG⟩, trivial⟩

theorem Reach.more (R : Reach ar G s) {m : Nat} (h : s.next ≤ m) : Reach ar G { s with next := m } :=
  ⟨⟨_, R.1.choose_spec.more h⟩, fun p hp => ⟨(R.2 p hp).1, (R.2 p hp).2.mono h⟩⟩

theorem Reach.fresh_good (R : Reach ar G s) : Good ar G (s.next + 1) (.var s.next) := by
  obtain ⟨⟨θ, I⟩, _⟩ := R
  exact ⟨⟨Nat.lt_succ_self _, fun h => absurd (I.gen _ h) (Nat.lt_irrefl _)⟩, trivial⟩

theorem Ext.more (s : St) {m : Nat} (h : s.next ≤ m) : Ext s { s with next := m } := ⟨h, [], rfl, rfl⟩

/-- Solutions depend on the old variables only. -/
theorem sol_congr (R : Reach ar G s) {ρ ρ' : Nat → Ty} (h : ∀ v, v < s.next → ρ' v = ρ v) (hs : Sol s.bind ρ) : Sol s.bind ρ' := by
  obtain ⟨⟨θ, I⟩, _⟩ := R
  intro v t hv
  obtain ⟨h1, _, h3⟩ := I.bound v t hv
  rw [h v h1, hs v t hv]
  exact (Ty.sub_congr (fun w hw => h w hw.1) t h3.all).symm

theorem solU_congr (R : Reach ar G s) {ρ ρ' : Nat → Ty} (h : ∀ v, v < s.next → ρ' v = ρ v) (hs : SolU s ρ) : SolU s ρ' := by
  refine ⟨sol_congr R h hs.1, fun p hp => ?_⟩
  obtain ⟨⟨θ, I⟩, hU⟩ := R
  obtain ⟨h1, h2⟩ := hU p hp
  rw [h p.1 (I.gen _ h1), hs.2 p hp]
  exact (Ty.sub_congr (fun w hw => h w hw.1) p.2 h2.all).symm

theorem good_congr {ρ ρ' : Nat → Ty} {n : Nat} (h : ∀ v, v < n → ρ' v = ρ v) {t : Ty} (hg : Good ar G n t) : t.sub ρ' = t.sub ρ :=
  Ty.sub_congr (fun w hw => h w hw.1) t hg.all

/-- Give the variable `v` a value. -/
def upd (ρ : Nat → Ty) (v : Nat) (t : Ty) : Nat → Ty := fun w => if w = v then t else ρ w

theorem upd_below {ρ : Nat → Ty} {v : Nat} {t : Ty} : ∀ w, w < v → upd ρ v t w = ρ w := by
  intro w hw
  simp [upd, Nat.ne_of_lt hw]

@[simp] theorem upd_self {ρ : Nat → Ty} {v : Nat} {t : Ty} : upd ρ v t v = t := by simp [upd]

/-! ### Copies -/

/-- The renaming that the `alias` fields describe. -/
def ren (memo : List (Nat × Nat)) (v : Nat) : Ty := .var ((memo.lookup v).getD 0)

structure MOK (start : Nat) (memo : List (Nat × Nat)) (next : Nat) : Prop where
  rng : ∀ v w, memo.lookup v = some w → start ≤ w ∧ w < next
  inj : ∀ v v' w, memo.lookup v = some w → memo.lookup v' = some w → v = v'

def MLe (memo memo' : List (Nat × Nat)) : Prop := ∀ v w, memo.lookup v = some w → memo'.lookup v = some w

theorem ren_le {memo memo' : List (Nat × Nat)} (h : MLe memo memo') {t : Ty} (ht : t.All fun v => (memo.lookup v).isSome) :
    t.sub (ren memo') = t.sub (ren memo) := by
  refine Ty.sub_congr (fun v hv => ?_) t ht
  obtain ⟨w, hw⟩ := Option.isSome_iff_exists.1 hv
  simp [ren, hw, h v w hw]

theorem lookup_cons_ne {α : Type} {v w : Nat} {a : α} {l : List (Nat × α)} (h : v ≠ w) : ((w, a) :: l).lookup v = l.lookup v := by
  have : (v == w) = false := by simp [h]
  simp [List.lookup_cons, this]

theorem copy_ev (I : Inv ar G s θ) (start : Nat) : ∀ (k : Nat),
    (∀ (t : Ty) memo next, (t.sub θ).size ≤ k → start ≤ next → MOK start memo next → ∃ t' memo' next',
      Ev (fun n => copy s.bind n memo next t) (some (t', memo', next')) ∧ next ≤ next' ∧ MOK start memo' next' ∧ MLe memo memo'
        ∧ ((t.sub θ).All fun v => (memo'.lookup v).isSome) ∧ t' = (t.sub θ).sub (ren memo'))
    ∧ ∀ (ts : Tys) memo next, (ts.sub θ).size ≤ k → start ≤ next → MOK start memo next → ∃ ts' memo' next',
      Ev (fun n => copyAll s.bind n memo next ts) (some (ts', memo', next')) ∧ next ≤ next' ∧ MOK start memo' next' ∧ MLe memo memo'
        ∧ ((ts.sub θ).All fun v => (memo'.lookup v).isSome) ∧ ts' = (ts.sub θ).sub (ren memo') := by
  intro k
  induction k with
  | zero =>
    constructor
    · intro t _ _ h; have := (t.sub θ).size_pos; omega
    · intro t _ _ h; cases t <;> simp [Tys.sub, Tys.size] at h
  | succ k ih =>
    constructor
    · intro t memo next h hst hM
      obtain ⟨t', e1, e2, e3, _⟩ := resolve_ev I t
      rw [← e2] at h ⊢
      cases t' with
      | var v =>
        have hw : Ty.sub θ (.var v) = .var v := I.unb v (e3 v rfl)
        rw [hw]
        cases hl : memo.lookup v with
        | some w =>
          refine ⟨.var w, memo, next, Ev.of_succ (e1.map fun n e => ?_), Nat.le_refl _, hM, fun _ _ => id, ?_, ?_⟩
          · simp [copy, e, hl]
          · simp [Ty.All, hl]
          · simp [Ty.sub, ren, hl]
        | none =>
          refine ⟨.var next, (v, next) :: memo, next + 1, Ev.of_succ (e1.map fun n e => ?_), Nat.le_succ _, ⟨?_, ?_⟩, ?_, ?_, ?_⟩
          · simp [copy, e, hl]
          · intro x w hx
            by_cases hxv : x = v
            · subst hxv; simp at hx; omega
            · rw [lookup_cons_ne hxv] at hx
              have := hM.rng x w hx
              omega
          · intro x x' w hx hx'
            by_cases h1 : x = v <;> by_cases h2 : x' = v
            · rw [h1, h2]
            · subst h1
              rw [lookup_cons_ne h2] at hx'
              simp at hx
              have := hM.rng x' w hx'
              omega
            · subst h2
              rw [lookup_cons_ne h1] at hx
              simp at hx'
              have := hM.rng x w hx
              omega
            · rw [lookup_cons_ne h1] at hx
              rw [lookup_cons_ne h2] at hx'
              exact hM.inj x x' w hx hx'
          · intro x w hx
            have : x ≠ v := by rintro rfl; rw [hl] at hx; cases hx
            rw [lookup_cons_ne this]; exact hx
          · simp [Ty.All]
          · simp [Ty.sub, ren]
      | con o ts =>
        have h' : (ts.sub θ).size ≤ k := by simp only [Ty.sub, Ty.size] at h; omega
        obtain ⟨ts', memo', next', f1, f2, f3, f4, f5, f6⟩ := ih.2 ts memo next h' hst hM
        refine ⟨.con o ts', memo', next', Ev.of_succ (e1.map2 f1 fun n e e' => ?_), f2, f3, f4, f5, by rw [f6]; rfl⟩
        simp [copy, e, e']
    · intro ts memo next h hst hM
      cases ts with
      | nil => exact ⟨.nil, memo, next, Ev.of_succ (Ev.const _), Nat.le_refl _, hM, fun _ _ => id, trivial, rfl⟩
      | cons t ts =>
        simp only [Tys.sub, Tys.size] at h
        obtain ⟨t', memo1, next1, e1, e2, e3, e4, e5, e6⟩ := ih.1 t memo next (by omega) hst hM
        obtain ⟨ts', memo2, next2, f1, f2, f3, f4, f5, f6⟩ := ih.2 ts memo1 next1 (by omega) (by omega) e3
        refine ⟨.cons t' ts', memo2, next2, Ev.of_succ (e1.map2 f1 fun n e e' => ?_), by omega, f3, fun v w h => f4 v w (e4 v w h), ⟨?_, f5⟩, ?_⟩
        · simp [copyAll, e, e']
        · refine e5.mono fun v hv => ?_
          obtain ⟨w, hw⟩ := Option.isSome_iff_exists.1 hv
          simp [f4 v w hw]
        · simp only [Tys.sub]
          rw [ren_le f4 e5, e6, f6]

/-- The copy of a type has the same instances, and new variables. -/
theorem inst_out (I : Inv ar G s θ) {t : Ty} (hwf : (t.sub θ).WF ar) : Outcome (fun n => inst n s t)
    (fun r => ∃ m, s.next ≤ m ∧ r.2 = { s with next := m } ∧ r.1.WF ar ∧ (r.1.All fun v => s.next ≤ v ∧ v < m)
      ∧ (∀ ρ, ∃ σ, r.1.sub ρ = (t.sub θ).sub σ)
      ∧ (∀ σ ρ : Nat → Ty, ∃ ρ' : Nat → Ty, (∀ v, v < s.next → ρ' v = ρ v) ∧ r.1.sub ρ' = (t.sub θ).sub σ)) False := by
  obtain ⟨t', memo, m, e, h1, h2, _, h4, h5⟩ := (copy_ev I s.next _).1 t [] s.next (Nat.le_refl _) (Nat.le_refl _) ⟨by simp, by simp⟩
  refine .inl ⟨(t', { s with next := m }), e.map fun n he => ?_, m, h1, rfl, ?_, ?_, ?_, ?_⟩
  · simp only [inst, he]; rfl
  · rw [h5]; exact Ty.wf_sub (ρ := ren memo) (fun _ => trivial) hwf
  · rw [h5, Ty.all_sub]
    refine h4.mono fun v hv => ?_
    obtain ⟨w, hw⟩ := Option.isSome_iff_exists.1 hv
    simp only [ren, Ty.All, hw, Option.getD_some]
    exact h2.rng v w hw
  · intro ρ
    exact ⟨_, by rw [h5, Ty.sub_sub]⟩
  · intro σ ρ
    classical
    refine ⟨fun w => if h : ∃ v, memo.lookup v = some w then σ h.choose else ρ w, ?_, ?_⟩
    · intro v hv
      dsimp only
      rw [dif_neg]
      rintro ⟨x, hx⟩
      have := h2.rng x v hx
      omega
    · rw [h5, Ty.sub_sub]
      refine Ty.sub_congr (fun v hv => ?_) _ h4
      obtain ⟨w, hw⟩ := Option.isSome_iff_exists.1 hv
      have hex : ∃ v, memo.lookup v = some w := ⟨v, hw⟩
      simp only [ren, hw, Option.getD_some, Ty.sub]
      rw [dif_pos hex, h2.inj _ _ _ hex.choose_spec hw]

/-! ### Inference -/

/-- The last part of the `APPLY_ND` case. -/
def appTail (n : Nat) (s : St) (fnTp argTp : Ty) : Res (Ty × St) := do
  let (a, b) ← arrowParts fnTp
  let s ← unify! n s argTp a
  .ok (← Res.ofOption (resolve s.bind n b), s)

theorem Good.arrow {n : Nat} {a b : Ty} : Good ar G n (.arrow a b) ↔ Good ar G n a ∧ Good ar G n b := by
  constructor
  · rintro ⟨h1, h2⟩
    exact ⟨⟨h1.1, h2.2.1⟩, h1.2.1, h2.2.2.1⟩
  · rintro ⟨⟨h1, h2⟩, h3, h4⟩
    exact ⟨⟨h1, h3, trivial⟩, rfl, h2, h4, trivial⟩

theorem Good.list {n : Nat} {a : Ty} : Good ar G n (.list a) ↔ Good ar G n a := by
  constructor
  · rintro ⟨h1, h2⟩
    exact ⟨h1.1, h2.2.1⟩
  · rintro ⟨h1, h2⟩
    exact ⟨⟨h1, trivial⟩, rfl, h2, trivial⟩

theorem sub_arrow (ρ : Nat → Ty) (a b : Ty) : Ty.sub ρ (.arrow a b) = .arrow (a.sub ρ) (b.sub ρ) := rfl
theorem sub_list (ρ : Nat → Ty) (a : Ty) : Ty.sub ρ (.list a) = .list (a.sub ρ) := rfl

/-- A function type has two parts. -/
theorem arrow_parts {n : Nat} {ts : Tys} (h : Good ar G n (.con .arrow ts)) : ∃ a b, Ty.con .arrow ts = .arrow a b := by
  have := h.wf.1
  cases ts with
  | nil => simp [Tys.length, Op.arity] at this
  | cons a ts => cases ts with
    | nil => simp [Tys.length, Op.arity] at this
    | cons b ts => cases ts with
      | nil => exact ⟨a, b, rfl⟩
      | cons => simp [Tys.length, Op.arity] at this

/-- What a step of inference yields: `P` says what the solutions satisfy, `Q τ` what it takes to find a
solution where the type is `τ`. -/
structure Got (ar : String → Nat) (G : Nat → Prop) (s : St) (P : (Nat → Ty) → Ty → Prop) (Q : (Nat → Ty) → Ty → Prop) (r : Ty × St) : Prop where
  ext : Ext s r.2
  reach : Reach ar G r.2
  good : Good ar G r.2.next r.1
  sound : ∀ ρ, SolU r.2 ρ → SolU s ρ ∧ P ρ (r.1.sub ρ)
  complete : ∀ ρ τ, SolU s ρ → Q ρ τ → ∃ ρ', (∀ v, v < s.next → ρ' v = ρ v) ∧ SolU r.2 ρ' ∧ r.1.sub ρ' = τ

theorem appTail_out (R : Reach ar G s) {o : Op} {ts : Tys} {ta : Ty} (gf : Good ar G s.next (.con o ts)) (ga : Good ar G s.next ta) :
    Outcome (fun n => appTail n s (.con o ts) ta)
      (Got ar G s (fun ρ β => Ty.sub ρ (.con o ts) = .arrow (ta.sub ρ) β) (fun ρ β => Ty.sub ρ (.con o ts) = .arrow (ta.sub ρ) β))
      (∀ ρ β, SolU s ρ → Ty.sub ρ (.con o ts) ≠ .arrow (ta.sub ρ) β) := by
  by_cases ho : o = .arrow
  · subst ho
    obtain ⟨a, b, e⟩ := arrow_parts gf
    rw [e] at gf ⊢
    obtain ⟨g1, g2⟩ := Good.arrow.1 gf
    show Outcome (fun n => unify! n s ta a >>= fun s => Res.ofOption (resolve s.bind n b) >>= fun t => .ok (t, s)) _ _
    refine Outcome.bind (unify_out R ga g1) (fun s' h => ?_) (fun h ρ β hs e => ?_)
    · obtain ⟨hx, R', hn, hs, _⟩ := h
      refine Outcome.bind (resolve_out R' b) (fun t' h' => Outcome.pure ⟨hx, R', h'.2.1 (by rw [hn]; exact g2), ?_, ?_⟩) False.elim
      · intro ρ hρ
        obtain ⟨h1, h2⟩ := (hs ρ).1 hρ
        refine ⟨h1, ?_⟩
        rw [sub_arrow, h'.2.2 ρ hρ.1, h2]
      · intro ρ β hρ hq
        rw [sub_arrow] at hq
        have h1 : a.sub ρ = ta.sub ρ := by injection hq with _ h; injection h
        have h2 : b.sub ρ = β := by injection hq with _ h; injection h with _ h; injection h
        have hρ' := (hs ρ).2 ⟨hρ, h1.symm⟩
        exact ⟨ρ, fun _ _ => rfl, hρ', by rw [h'.2.2 ρ hρ'.1, h2]⟩
    · rw [sub_arrow] at e
      refine h ρ hs ?_
      injection e with _ h; injection h with h; exact h.symm
  · have : (fun n => appTail n s (.con o ts) ta) = fun _ => Res.fail := by
      funext n
      cases o <;> first | rfl | exact absurd rfl ho
    rw [this]
    refine Outcome.fail fun ρ β _ h => ho ?_
    injection h

theorem inferApp_out (R : Reach ar G s) {tf ta : Ty} (gf : Good ar G s.next tf) (ga : Good ar G s.next ta) :
    Outcome (fun n => inferApp n s tf ta)
      (Got ar G s (fun ρ β => tf.sub ρ = .arrow (ta.sub ρ) β) (fun ρ β => tf.sub ρ = .arrow (ta.sub ρ) β))
      (∀ ρ β, SolU s ρ → tf.sub ρ ≠ .arrow (ta.sub ρ) β) := by
  simp only [inferApp]
  refine Outcome.bind (resolve_out R tf) (fun rf hf => ?_) False.elim
  refine Outcome.bind (resolve_out R ta) (fun ra ha => ?_) False.elim
  have gf' := hf.2.1 gf
  have ga' := ha.2.1 ga
  cases rf with
  | con o ts =>
    have H := appTail_out R gf' ga'
    rcases H with ⟨r, e, h⟩ | ⟨e, h⟩
    · refine .inl ⟨r, e, h.ext, h.reach, h.good, ?_, ?_⟩
      · intro ρ hρ
        obtain ⟨h1, h2⟩ := h.sound ρ hρ
        exact ⟨h1, by rw [← hf.2.2 ρ h1.1, ← ha.2.2 ρ h1.1]; exact h2⟩
      · intro ρ τ hρ hq
        exact h.complete ρ τ hρ (by rw [hf.2.2 ρ hρ.1, ha.2.2 ρ hρ.1]; exact hq)
    · refine .inr ⟨e, fun ρ β hρ hq => h ρ β hρ (by rw [hf.2.2 ρ hρ.1, ha.2.2 ρ hρ.1]; exact hq)⟩
  | var v =>
    have hv := hf.1 v rfl
    let s1 : St := { s with next := s.next + 1 }
    have hle : s.next ≤ s.next + 1 := Nat.le_succ _
    have R1 : Reach ar G s1 := R.more hle
    suffices H : Outcome (fun n => (mkArrow n s1 ra (.var s.next) >>= fun expected => unify! n s1 (.var v) expected >>= fun s =>
        Res.ofOption (resolve s.bind n (.var v)) >>= fun f => .ok (f, s)) >>= fun p => appTail n p.2 p.1 ra)
        (Got ar G s (fun ρ β => tf.sub ρ = .arrow (ta.sub ρ) β) (fun ρ β => tf.sub ρ = .arrow (ta.sub ρ) β))
        (∀ ρ β, SolU s ρ → tf.sub ρ ≠ .arrow (ta.sub ρ) β) by
      simp only [Res.assoc] at H
      exact H
    -- the new function type
    have H1 : Outcome (fun n => mkArrow n s1 ra (.var s.next) >>= fun expected => unify! n s1 (.var v) expected >>= fun s =>
        Res.ofOption (resolve s.bind n (.var v)) >>= fun f => Res.ok (f, s))
        (fun p => Ext s p.2 ∧ Reach ar G p.2 ∧ p.2.next = s.next + 1 ∧ (∃ o ts, p.1 = .con o ts) ∧ Good ar G p.2.next p.1
          ∧ (∀ ρ, SolU p.2 ρ ↔ SolU s ρ ∧ ρ v = .arrow (ra.sub ρ) (ρ s.next)) ∧ ∀ ρ, SolU p.2 ρ → p.1.sub ρ = ρ v)
        (∀ ρ, SolU s ρ → ρ v ≠ .arrow (ra.sub ρ) (ρ s.next)) := by
      simp only [mkArrow]
      have A : Outcome (fun n => Res.ofOption (resolve s1.bind n (.var s.next)) >>= fun b => Res.ofOption (resolve s1.bind n ra) >>= fun a => Res.ok (Ty.arrow a b))
          (fun x => Good ar G (s.next + 1) x ∧ ∀ ρ, Sol s.bind ρ → x.sub ρ = .arrow (ra.sub ρ) (ρ s.next)) False := by
        refine Outcome.bind (resolve_out R1 (.var s.next)) (fun rb hb => ?_) False.elim
        refine Outcome.bind (resolve_out R1 ra) (fun ra' ha' => ?_) False.elim
        refine Outcome.pure ⟨Good.arrow.2 ⟨ha'.2.1 (ga'.mono hle), hb.2.1 R.fresh_good⟩, fun ρ hρ => ?_⟩
        rw [sub_arrow, ha'.2.2 ρ hρ, hb.2.2 ρ hρ]
        rfl
      refine Outcome.bind A (fun x hx => ?_) False.elim
      refine Outcome.bind (unify_out R1 (gf'.mono hle) hx.1) (fun s2 h2 => ?_) (fun h ρ hρ hq => h ρ hρ (by rw [hx.2 ρ hρ.1]; exact hq))
      obtain ⟨hx2, R2, hn2, hs2, hs3⟩ := h2
      have hs2' : ∀ ρ, SolU s2 ρ ↔ SolU s ρ ∧ ρ v = .arrow (ra.sub ρ) (ρ s.next) := by
        intro ρ
        rw [hs2 ρ]
        constructor
        · rintro ⟨h1, h2⟩; exact ⟨h1, by rw [← hx.2 ρ h1.1]; exact h2⟩
        · rintro ⟨h1, h2⟩; exact ⟨h1, by rw [hx.2 ρ h1.1]; exact h2⟩
      refine Outcome.bind (resolve_out R2 (.var v)) (fun f hf2 => ?_) False.elim
      refine Outcome.pure ⟨(Ext.more s hle).trans hx2, R2, hn2, ?_, hf2.2.1 (by rw [hn2]; exact gf'.mono hle), hs2', fun ρ hρ => hf2.2.2 ρ hρ.1⟩
      obtain ⟨⟨θ2, I2⟩, _⟩ := R2
      cases f with
      | con o ts => exact ⟨o, ts, rfl⟩
      | var w =>
        have h1 := hf2.2.2 θ2 I2.sol
        have h2 := (hs3 θ2).1 I2.sol
        rw [hx.2 θ2 h2.1] at h2
        rw [show Ty.sub θ2 (.var w) = .var w from I2.unb w (hf2.1 w rfl), h2.2] at h1
        cases h1
    -- a solution of the old store is extended to the new variable
    have hext : ∀ ρ β, SolU s ρ → tf.sub ρ = .arrow (ta.sub ρ) β → SolU s (upd ρ s.next β) ∧
        (upd ρ s.next β) v = .arrow (ra.sub (upd ρ s.next β)) (upd ρ s.next β s.next) := by
      intro ρ β hρ hq
      have hb : ∀ w, w < s.next → upd ρ s.next β w = ρ w := upd_below
      refine ⟨solU_congr R hb hρ, ?_⟩
      rw [good_congr hb ga', upd_self, ha.2.2 ρ hρ.1, ← hq, ← hf.2.2 ρ hρ.1]
      exact hb v gf'.all.1
    refine Outcome.bind H1 (fun p hp => ?_) (fun h ρ β hρ hq => ?_)
    · obtain ⟨hx2, R2, hn2, ⟨o, ts, hp1⟩, hg2, hs2, hr2⟩ := hp
      obtain ⟨p1, s2⟩ := p
      simp only at hx2 R2 hn2 hp1 hg2 hs2 hr2 ⊢
      subst hp1
      have H := appTail_out R2 hg2 (ga'.mono (by rw [hn2]; exact hle))
      rcases H with ⟨r, e, h⟩ | ⟨e, h⟩
      · refine .inl ⟨r, e, hx2.trans h.ext, h.reach, h.good, ?_, ?_⟩
        · intro ρ hρ
          obtain ⟨h1, h2⟩ := h.sound ρ hρ
          obtain ⟨h3, h4⟩ := (hs2 ρ).1 h1
          refine ⟨h3, ?_⟩
          rw [hr2 ρ h1] at h2
          rw [← hf.2.2 ρ h3.1, ← ha.2.2 ρ h3.1]
          exact h2
        · intro ρ τ hρ hq
          obtain ⟨h1, h2⟩ := hext ρ τ hρ hq
          have h3 := (hs2 _).2 ⟨h1, h2⟩
          obtain ⟨ρ', a1, a2, a3⟩ := h.complete (upd ρ s.next τ) τ h3 (by rw [hr2 _ h3, h2, upd_self])
          refine ⟨ρ', fun w hw => ?_, a2, a3⟩
          rw [a1 w (by rw [hn2]; omega)]
          exact upd_below w hw
      · refine .inr ⟨e, fun ρ β hρ hq => ?_⟩
        obtain ⟨h1, h2⟩ := hext ρ β hρ hq
        have h3 := (hs2 _).2 ⟨h1, h2⟩
        exact h _ β h3 (by rw [hr2 _ h3, h2, upd_self])
    · obtain ⟨h1, h2⟩ := hext ρ β hρ hq
      exact h _ h1 h2

/-- The types of the bound variables. -/
def subEnv (ρ : Nat → Ty) (env : List (String × Ty)) : List (String × Ty) := env.map fun p => (p.1, p.2.sub ρ)

theorem lookup_subEnv (ρ : Nat → Ty) (x : String) : ∀ env, (subEnv ρ env).lookup x = (env.lookup x).map (Ty.sub ρ)
  | [] => rfl
  | (y, t) :: env => by
    simp only [subEnv, List.map_cons, List.lookup_cons]
    cases x == y
    · exact lookup_subEnv ρ x env
    · rfl

theorem subEnv_congr {ρ ρ' : Nat → Ty} {n : Nat} (h : ∀ v, v < n → ρ' v = ρ v) : ∀ {env : List (String × Ty)},
    (∀ p ∈ env, Good ar G n p.2) → subEnv ρ' env = subEnv ρ env
  | [], _ => rfl
  | p :: env, hg => by
    simp only [subEnv, List.map_cons]
    rw [good_congr h (hg p (by simp))]
    congr 1
    exact subEnv_congr h fun q hq => hg q (by simp [hq])

theorem hasType_congr {H : Nat → Prop} {ρ ρ' : Nat → Ty} (h : ∀ v, H v ∨ G v → ρ' v = ρ v) {e : Tm} : ∀ {xs Γ τ}, e.OK ar G H xs →
    HasType ρ Γ e τ → HasType ρ' Γ e τ := by
  intro xs Γ τ hok ht
  induction ht generalizing xs with
  | var hx => exact .var hx
  | lit => exact .lit
  | const hi => exact .const hi
  | ov hi =>
    rw [← h _ (.inr hok.2.2)] at hi ⊢
    exact .ov hi
  | app _ _ ih1 ih2 => exact .app (ih1 hok.1) (ih2 hok.2)
  | nil => exact .nil
  | cons _ _ ih1 ih2 => exact .cons (ih1 hok.1) (ih2 hok.2)
  | lam _ ih => exact .lam (ih hok)
  | @hint _ _ t _ ih =>
    have e : t.sub ρ = t.sub ρ' := (Ty.sub_congr (fun v hv => h v (.inl hv)) t hok.2.2).symm
    have := ih hok.1
    rw [e] at this ⊢
    exact .hint this

theorem below {H : Nat → Prop} {ρ ρ' : Nat → Ty} (R : Reach ar G s) (hH : ∀ v, H v → v < s.next ∧ ¬ G v) (h : ∀ v, v < s.next → ρ' v = ρ v) :
    ∀ v, H v ∨ G v → ρ' v = ρ v := by
  obtain ⟨⟨θ, I⟩, _⟩ := R
  rintro v (hv | hv)
  · exact h v (hH v hv).1
  · exact h v (I.gen v hv)

theorem mem_lookup {x : String} : ∀ {env : List (String × Ty)}, x ∈ env.map (·.1) → ∃ t, env.lookup x = some t ∧ (x, t) ∈ env
  | [], h => by cases h
  | (y, t) :: env, h => by
    simp only [List.lookup_cons]
    by_cases hxy : x = y
    · subst hxy; exact ⟨t, by simp, by simp⟩
    · have : (x == y) = false := by simp [hxy]
      rw [this]
      simp only [List.map_cons, List.mem_cons, hxy, false_or] at h
      obtain ⟨t', h1, h2⟩ := mem_lookup h
      exact ⟨t', h1, by simp [h2]⟩

/-- A new instance of the type of a defined name. -/
theorem inst_const (R : Reach ar G s) {t : Ty} (hwf : t.WF ar) (hall : t.All G) : Outcome (fun n => inst n s t)
    (fun r => ∃ m, s.next ≤ m ∧ r.2 = { s with next := m } ∧ Good ar G m r.1 ∧ (∀ ρ, Instance t (r.1.sub ρ))
      ∧ ∀ τ (ρ : Nat → Ty), Instance t τ → ∃ ρ' : Nat → Ty, (∀ v, v < s.next → ρ' v = ρ v) ∧ r.1.sub ρ' = τ) False := by
  obtain ⟨⟨θ, I⟩, _⟩ := R
  have htθ : t.sub θ = t := by
    have : t.sub θ = t.sub .var := Ty.sub_congr (fun v hv => I.unb v (by
      cases hb : s.bind v with
      | none => rfl
      | some u => exact absurd hv (I.bound v u hb).2.1)) t hall
    rw [this, Ty.sub_var]
  have H := inst_out I (t := t) (by rw [htθ]; exact hwf)
  rw [htθ] at H
  rcases H with ⟨⟨t', s'⟩, e, m, h1, h2, h3, h4, h5, h6⟩ | ⟨_, h⟩
  · refine .inl ⟨_, e, m, h1, h2, ⟨?_, h3⟩, h5, ?_⟩
    · exact h4.mono fun v hv => ⟨hv.2, fun hG => by have := I.gen v hG; omega⟩
    · rintro τ ρ ⟨σ, rfl⟩
      exact h6 σ ρ
  · exact h.elim

/-- Inference finds the most general solution. -/
theorem infer_out {H : Nat → Prop} {e : Tm} : ∀ {s : St} {env : List (String × Ty)}, Reach ar G s → e.OK ar G H (env.map (·.1)) →
    (∀ v, H v → v < s.next ∧ ¬ G v) → (∀ p ∈ env, Good ar G s.next p.2) →
    Outcome (fun n => infer n s env e)
      (Got ar G s (fun ρ τ => HasType ρ (subEnv ρ env) e τ) (fun ρ τ => HasType ρ (subEnv ρ env) e τ))
      (∀ ρ τ, SolU s ρ → ¬ HasType ρ (subEnv ρ env) e τ) := by
  induction e with
  | var x =>
    intro s env R hok hH henv
    obtain ⟨t, h1, h2⟩ := mem_lookup hok
    simp only [infer, h1]
    have hl : ∀ ρ, (subEnv ρ env).lookup x = some (t.sub ρ) := fun ρ => by rw [lookup_subEnv, h1]; rfl
    refine Outcome.pure ⟨Ext.refl s, R, henv _ h2, fun ρ hρ => ⟨hρ, .var (hl ρ)⟩, fun ρ τ hρ hq => ⟨ρ, fun _ _ => rfl, hρ, ?_⟩⟩
    cases hq with
    | var hx => rw [hl] at hx; cases hx; rfl
  | lit o =>
    intro s env R hok hH henv
    simp only [infer]
    refine Outcome.pure ⟨Ext.refl s, R, ⟨trivial, hok.symm, trivial⟩, fun ρ hρ => ⟨hρ, .lit⟩, fun ρ τ hρ hq => ⟨ρ, fun _ _ => rfl, hρ, ?_⟩⟩
    cases hq; rfl
  | const t =>
    intro s env R hok hH henv
    simp only [infer]
    rcases inst_const R hok.1 hok.2 with ⟨⟨t', s'⟩, e, m, h1, h2, h3, h4, h5⟩ | ⟨_, h⟩
    · simp only at h2 h3 h4 h5
      subst h2
      refine .inl ⟨_, e, Ext.more s h1, R.more h1, h3, ?_, ?_⟩
      · exact fun ρ hρ => ⟨hρ, .const (h4 ρ)⟩
      · intro ρ τ hρ hq
        cases hq with
        | const hi =>
          obtain ⟨ρ', a1, a2⟩ := h5 τ ρ hi
          exact ⟨ρ', a1, solU_congr R a1 hρ, a2⟩
    · exact h.elim
  | ov v t =>
    intro s env R hok hH henv
    simp only [infer]
    refine Outcome.bind (inst_const R hok.1 hok.2.1) (fun r hr => ?_) False.elim
    obtain ⟨t', s'⟩ := r
    obtain ⟨m, h1, h2, h3, h4, h5⟩ := hr
    simp only at h2 h3 h4 h5
    subst h2
    have hvn : v < s.next := R.1.choose_spec.gen v hok.2.2
    have hi : Reach ar G { s with next := m, unres := (v, t') :: s.unres } := ⟨?_, ?_⟩
    refine Outcome.pure ⟨⟨h1, [], rfl, rfl⟩, hi, h3, ?_, ?_⟩
    rotate_left 2
    · obtain ⟨θ, I⟩ := (R.more h1).1
      exact ⟨θ, I.sol, I.unb, I.mg, I.bound, I.good, I.vars, I.gen, I.time⟩
    · intro p hp
      rcases List.mem_cons.1 hp with rfl | hp
      · exact ⟨hok.2.2, h3⟩
      · exact (R.more h1).2 p hp
    · intro ρ hρ
      have e : ρ v = t'.sub ρ := hρ.2 (v, t') (by simp)
      refine ⟨⟨hρ.1, fun p hp => hρ.2 p (by simp [hp])⟩, ?_⟩
      simp only
      rw [← e]
      exact .ov (by rw [e]; exact h4 ρ)
    · intro ρ τ hρ hq
      cases hq with
      | ov hi =>
        obtain ⟨ρ', a1, a2⟩ := h5 _ ρ hi
        have hs := solU_congr R a1 hρ
        refine ⟨ρ', a1, ⟨hs.1, fun p hp => ?_⟩, a2⟩
        rcases List.mem_cons.1 hp with rfl | hp
        · rw [a2, a1 v hvn]
        · exact hs.2 p hp
  | app f a ihf iha =>
    intro s env R hok hH henv
    simp only [infer]
    refine Outcome.bind (ihf R hok.1 hH henv) (fun rf hf => ?_) (fun h ρ τ hρ hq => ?_)
    · obtain ⟨tf, s1⟩ := rf
      have hn1 := hf.ext.next
      have henv1 : ∀ p ∈ env, Good ar G s1.next p.2 := fun p hp => (henv p hp).mono hn1
      refine Outcome.bind (iha hf.reach hok.2 (fun v hv => ⟨Nat.lt_of_lt_of_le (hH v hv).1 hn1, (hH v hv).2⟩) henv1) (fun ra ha => ?_) (fun h ρ τ hρ hq => ?_)
      · obtain ⟨ta, s2⟩ := ra
        have hn2 := ha.ext.next
        -- a typing gives a solution for both parts
        have key : ∀ ρ τ, SolU s ρ → HasType ρ (subEnv ρ env) (.app f a) τ → ∃ ρ', (∀ v, v < s.next → ρ' v = ρ v) ∧ SolU s2 ρ'
            ∧ tf.sub ρ' = .arrow (ta.sub ρ') τ := by
          intro ρ τ hρ hq
          cases hq with
          | @app _ _ _ α _ q1 q2 =>
            obtain ⟨ρ1, a1, a2, a3⟩ := hf.complete ρ _ hρ q1
            have q2' : HasType ρ1 (subEnv ρ1 env) a α := by
              rw [subEnv_congr a1 henv]
              exact hasType_congr (below R hH a1) hok.2 q2
            obtain ⟨ρ2, b1, b2, b3⟩ := ha.complete ρ1 _ a2 q2'
            refine ⟨ρ2, fun v hv => (b1 v (by simp only at hn1 ⊢; omega)).trans (a1 v hv), b2, ?_⟩
            rw [b3, good_congr b1 hf.good, a3]
        rcases inferApp_out ha.reach (hf.good.mono hn2) ha.good with ⟨r, e, h⟩ | ⟨e, h⟩
        · refine .inl ⟨r, e, (hf.ext.trans ha.ext).trans h.ext, h.reach, h.good, ?_, ?_⟩
          · intro ρ hρ
            obtain ⟨h1, h2⟩ := h.sound ρ hρ
            obtain ⟨h3, h4⟩ := ha.sound ρ h1
            obtain ⟨h5, h6⟩ := hf.sound ρ h3
            refine ⟨h5, ?_⟩
            simp only at h6 h4 h2
            rw [h2] at h6
            exact .app h6 h4
          · intro ρ τ hρ hq
            obtain ⟨ρ', a1, a2, a3⟩ := key ρ τ hρ hq
            obtain ⟨ρ2, b1, b2, b3⟩ := h.complete ρ' τ a2 a3
            exact ⟨ρ2, fun v hv => (b1 v (by simp only at hn1 hn2 ⊢; omega)).trans (a1 v hv), b2, b3⟩
        · refine .inr ⟨e, fun ρ τ hρ hq => ?_⟩
          obtain ⟨ρ', a1, a2, a3⟩ := key ρ τ hρ hq
          exact h ρ' τ a2 a3
      · cases hq with
        | @app _ _ _ α _ q1 q2 =>
          obtain ⟨ρ1, a1, a2, a3⟩ := hf.complete ρ _ hρ q1
          refine h ρ1 α a2 ?_
          rw [subEnv_congr a1 henv]
          exact hasType_congr (below R hH a1) hok.2 q2
    · cases hq with
      | app q1 q2 => exact h ρ _ hρ q1
  | nil =>
    intro s env R hok hH henv
    simp only [infer, St.fresh, mkList]
    have hle : s.next ≤ s.next + 1 := Nat.le_succ _
    have R1 : Reach ar G { s with next := s.next + 1 } := R.more hle
    have A : Outcome (fun n => Res.ofOption (resolve s.bind n (.var s.next)) >>= fun b => Res.ok (Ty.list b))
        (fun x => Good ar G (s.next + 1) x ∧ ∀ ρ, Sol s.bind ρ → x.sub ρ = .list (ρ s.next)) False := by
      refine Outcome.bind (resolve_out R1 (.var s.next)) (fun rb hb => ?_) False.elim
      refine Outcome.pure ⟨Good.list.2 (hb.2.1 R.fresh_good), fun ρ hρ => ?_⟩
      rw [sub_list, hb.2.2 ρ hρ]; rfl
    refine Outcome.bind A (fun x hx => ?_) False.elim
    refine Outcome.pure ⟨Ext.more s hle, R1, hx.1, fun ρ hρ => ⟨hρ, ?_⟩, fun ρ τ hρ hq => ?_⟩
    · simp only
      rw [hx.2 ρ hρ.1]; exact .nil
    · cases hq with
      | @nil _ α =>
        have hs := solU_congr R (upd_below (ρ := ρ) (t := α)) hρ
        exact ⟨upd ρ s.next α, upd_below, hs, by rw [hx.2 _ hs.1, upd_self]⟩
  | cons h t ihh iht =>
    intro s env R hok hH henv
    simp only [infer, mkList]
    refine Outcome.bind (ihh R hok.1 hH henv) (fun rf hf => ?_) (fun h ρ τ hρ hq => ?_)
    · obtain ⟨th, s1⟩ := rf
      have hn1 := hf.ext.next
      have henv1 : ∀ p ∈ env, Good ar G s1.next p.2 := fun p hp => (henv p hp).mono hn1
      refine Outcome.bind (iht hf.reach hok.2 (fun v hv => ⟨Nat.lt_of_lt_of_le (hH v hv).1 hn1, (hH v hv).2⟩) henv1) (fun ra ha => ?_) (fun h ρ τ hρ hq => ?_)
      · obtain ⟨tt, s2⟩ := ra
        have hn2 := ha.ext.next
        have key : ∀ ρ τ, SolU s ρ → HasType ρ (subEnv ρ env) (.cons h t) τ → ∃ ρ', (∀ v, v < s.next → ρ' v = ρ v) ∧ SolU s2 ρ'
            ∧ tt.sub ρ' = .list (th.sub ρ') ∧ tt.sub ρ' = τ := by
          intro ρ τ hρ hq
          cases hq with
          | @cons _ _ _ α q1 q2 =>
            obtain ⟨ρ1, a1, a2, a3⟩ := hf.complete ρ _ hρ q1
            have q2' : HasType ρ1 (subEnv ρ1 env) t (.list α) := by
              rw [subEnv_congr a1 henv]
              exact hasType_congr (below R hH a1) hok.2 q2
            obtain ⟨ρ2, b1, b2, b3⟩ := ha.complete ρ1 _ a2 q2'
            refine ⟨ρ2, fun v hv => (b1 v (by simp only at hn1 ⊢; omega)).trans (a1 v hv), b2, ?_, b3⟩
            rw [b3, good_congr b1 hf.good, a3]
        have A : Outcome (fun n => Res.ofOption (resolve s2.bind n th) >>= fun b => Res.ok (Ty.list b))
            (fun x => Good ar G s2.next x ∧ ∀ ρ, Sol s2.bind ρ → x.sub ρ = .list (th.sub ρ)) False := by
          refine Outcome.bind (resolve_out ha.reach th) (fun rb hb => ?_) False.elim
          refine Outcome.pure ⟨Good.list.2 (hb.2.1 (hf.good.mono hn2)), fun ρ hρ => ?_⟩
          rw [sub_list, hb.2.2 ρ hρ]
        refine Outcome.bind A (fun x hx => ?_) False.elim
        refine Outcome.bind (unify_out ha.reach ha.good hx.1) (fun s3 h3 => ?_) (fun h ρ τ hρ hq => ?_)
        · obtain ⟨hx3, R3, hn3, hs3, _⟩ := h3
          refine Outcome.bind (resolve_out R3 tt) (fun r hr => ?_) False.elim
          refine Outcome.pure ⟨(hf.ext.trans ha.ext).trans hx3, R3, hr.2.1 (by rw [hn3]; exact ha.good), ?_, ?_⟩
          · intro ρ hρ
            obtain ⟨h1, h2⟩ := (hs3 ρ).1 hρ
            obtain ⟨h3, h4⟩ := ha.sound ρ h1
            obtain ⟨h5, h6⟩ := hf.sound ρ h3
            refine ⟨h5, ?_⟩
            simp only at h6 h4 ⊢
            rw [hr.2.2 ρ hρ.1]
            rw [h2, hx.2 ρ h1.1] at h4 ⊢
            exact .cons h6 h4
          · intro ρ τ hρ hq
            obtain ⟨ρ', a1, a2, a3, a4⟩ := key ρ τ hρ hq
            have := (hs3 ρ').2 ⟨a2, by rw [a3, hx.2 ρ' a2.1]⟩
            exact ⟨ρ', a1, this, by rw [hr.2.2 ρ' this.1, a4]⟩
        · obtain ⟨ρ', a1, a2, a3, a4⟩ := key ρ τ hρ hq
          exact h ρ' a2 (by rw [a3, hx.2 ρ' a2.1])
      · cases hq with
        | @cons _ _ _ α q1 q2 =>
          obtain ⟨ρ1, a1, a2, a3⟩ := hf.complete ρ _ hρ q1
          refine h ρ1 (.list α) a2 ?_
          rw [subEnv_congr a1 henv]
          exact hasType_congr (below R hH a1) hok.2 q2
    · cases hq with
      | cons q1 q2 => exact h ρ _ hρ q1
  | lam x b ih =>
    intro s env R hok hH henv
    simp only [infer, St.fresh, mkArrow]
    have hle : s.next ≤ s.next + 1 := Nat.le_succ _
    have R1 : Reach ar G { s with next := s.next + 1 } := R.more hle
    have henv1 : ∀ p ∈ (x, Ty.var s.next) :: env, Good ar G (s.next + 1) p.2 := by
      intro p hp
      rcases List.mem_cons.1 hp with rfl | hp
      · exact R.fresh_good
      · exact (henv p hp).mono hle
    -- the variable stands for the type of the argument
    have key : ∀ ρ τ, SolU s ρ → HasType ρ (subEnv ρ env) (.lam x b) τ → ∃ α β, τ = .arrow α β ∧
        HasType (upd ρ s.next α) (subEnv (upd ρ s.next α) ((x, .var s.next) :: env)) b β := by
      intro ρ τ hρ hq
      cases hq with
      | @lam _ _ _ α β q =>
        refine ⟨α, β, rfl, ?_⟩
        have : subEnv (upd ρ s.next α) ((x, .var s.next) :: env) = (x, α) :: subEnv ρ env := by
          rw [← subEnv_congr (ρ := ρ) (ρ' := upd ρ s.next α) upd_below henv]
          simp [subEnv, Ty.sub]
        rw [this]
        exact hasType_congr (below R hH upd_below) hok q
    refine Outcome.bind (ih R1 hok (fun v hv => ⟨Nat.lt_of_lt_of_le (hH v hv).1 hle, (hH v hv).2⟩) henv1) (fun rb hb => ?_) (fun h ρ τ hρ hq => ?_)
    · obtain ⟨tb, s1⟩ := rb
      have hn1 : s.next + 1 ≤ s1.next := hb.ext.next
      have A : Outcome (fun n => Res.ofOption (resolve s1.bind n tb) >>= fun b => Res.ofOption (resolve s1.bind n (.var s.next)) >>= fun a => Res.ok (Ty.arrow a b))
          (fun x => Good ar G s1.next x ∧ ∀ ρ, Sol s1.bind ρ → x.sub ρ = .arrow (ρ s.next) (tb.sub ρ)) False := by
        refine Outcome.bind (resolve_out hb.reach tb) (fun rb' hb' => ?_) False.elim
        refine Outcome.bind (resolve_out hb.reach (.var s.next)) (fun ra' ha' => ?_) False.elim
        refine Outcome.pure ⟨Good.arrow.2 ⟨ha'.2.1 (R.fresh_good.mono hn1), hb'.2.1 hb.good⟩, fun ρ hρ => ?_⟩
        rw [sub_arrow, ha'.2.2 ρ hρ, hb'.2.2 ρ hρ]
        rfl
      refine Outcome.bind A (fun r hr => ?_) False.elim
      refine Outcome.pure ⟨(Ext.more s hle).trans hb.ext, hb.reach, hr.1, ?_, ?_⟩
      · intro ρ hρ
        obtain ⟨h1, h2⟩ := hb.sound ρ hρ
        refine ⟨h1, ?_⟩
        simp only
        rw [hr.2 ρ hρ.1]
        exact .lam h2
      · intro ρ τ hρ hq
        obtain ⟨α, β, rfl, q⟩ := key ρ τ hρ hq
        obtain ⟨ρ', a1, a2, a3⟩ := hb.complete (upd ρ s.next α) β (solU_congr R upd_below hρ) q
        refine ⟨ρ', fun v hv => (a1 v (Nat.lt_of_lt_of_le hv hle)).trans (upd_below v hv), a2, ?_⟩
        simp only at a3 ⊢
        rw [hr.2 ρ' a2.1, a3, a1 s.next (Nat.lt_succ_self _), upd_self]
    · obtain ⟨α, β, rfl, q⟩ := key ρ τ hρ hq
      exact h _ β (solU_congr R upd_below hρ) q
  | hint e t ih =>
    intro s env R hok hH henv
    simp only [infer]
    refine Outcome.bind (ih R hok.1 hH henv) (fun rf hf => ?_) (fun h ρ τ hρ hq => ?_)
    · obtain ⟨te, s1⟩ := rf
      have hn1 := hf.ext.next
      have gt : Good ar G s1.next t := ⟨hok.2.2.mono fun v hv => ⟨Nat.lt_of_lt_of_le (hH v hv).1 hn1, (hH v hv).2⟩, hok.2.1⟩
      have key : ∀ ρ τ, SolU s ρ → HasType ρ (subEnv ρ env) (.hint e t) τ → ∃ ρ', (∀ v, v < s.next → ρ' v = ρ v) ∧ SolU s1 ρ'
            ∧ te.sub ρ' = t.sub ρ' ∧ te.sub ρ' = τ := by
        intro ρ τ hρ hq
        cases hq with
        | hint q =>
          obtain ⟨ρ1, a1, a2, a3⟩ := hf.complete ρ _ hρ q
          refine ⟨ρ1, a1, a2, ?_, a3⟩
          rw [a3]
          exact (Ty.sub_congr (fun v hv => a1 v (hH v hv).1) t hok.2.2).symm
      refine Outcome.bind (unify_out hf.reach hf.good gt) (fun s3 h3 => ?_) (fun h ρ τ hρ hq => ?_)
      · obtain ⟨hx3, R3, hn3, hs3, _⟩ := h3
        refine Outcome.bind (resolve_out R3 te) (fun r hr => ?_) False.elim
        refine Outcome.pure ⟨hf.ext.trans hx3, R3, hr.2.1 (by rw [hn3]; exact hf.good), ?_, ?_⟩
        · intro ρ hρ
          obtain ⟨h1, h2⟩ := (hs3 ρ).1 hρ
          obtain ⟨h3, h4⟩ := hf.sound ρ h1
          refine ⟨h3, ?_⟩
          simp only at h4 ⊢
          rw [hr.2.2 ρ hρ.1]
          rw [h2] at h4 ⊢
          exact .hint h4
        · intro ρ τ hρ hq
          obtain ⟨ρ', a1, a2, a3, a4⟩ := key ρ τ hρ hq
          have := (hs3 ρ').2 ⟨a2, a3⟩
          exact ⟨ρ', a1, this, by rw [hr.2.2 ρ' this.1, a4]⟩
      · obtain ⟨ρ', a1, a2, a3, a4⟩ := key ρ τ hρ hq
        exact h ρ' a2 a3
    · cases hq with
      | hint q => exact h ρ _ hρ q

/-- A solution stays one when its variables are replaced. -/
theorem Sol.comp {b : Nat → Option Ty} {ρ : Nat → Ty} (h : Sol b ρ) (κ : Nat → Ty) : Sol b fun v => (ρ v).sub κ := by
  intro v t hv
  show (ρ v).sub κ = _
  rw [h v t hv, Ty.sub_sub]

/-- The empty store. -/
theorem inv_empty {n : Nat} {tr : List Nat} (h : ∀ v, G v → v < n) : Inv ar G ⟨fun _ => none, n, tr, []⟩ .var :=
  ⟨fun _ _ h => by simp at h, fun _ _ => rfl, fun _ _ _ => rfl, fun _ _ h => by simp at h, fun v hv hG => ⟨⟨hv, hG⟩, trivial⟩,
    fun _ _ _ h => by simp at h, h, fun _ => 0, 0, fun _ _ h => by simp at h, fun _ => Nat.le_refl _, fun _ _ => rfl⟩

/-- A solution of the bindings, changed to give the numbers of overloaded names their types. -/
theorem solU_of_sol (R : Reach ar G s) (hd : (s.unres.map (·.1)).Nodup) {ρ : Nat → Ty} (h : Sol s.bind ρ) :
    ∃ ρ' : Nat → Ty, SolU s ρ' ∧ ∀ v, ¬ G v → ρ' v = ρ v := by
  obtain ⟨⟨θ, I⟩, hU⟩ := R
  let ρ' : Nat → Ty := fun v => match s.unres.lookup v with
    | some t => t.sub ρ
    | none => ρ v
  have hl : ∀ (l : List (Nat × Ty)) v t, l.lookup v = some t → (v, t) ∈ l := by
    intro l
    induction l with
    | nil => intro v t h; cases h
    | cons p l ih =>
      intro v t h
      rw [List.lookup_cons] at h
      split at h
      · next hv => cases h; simp at hv; subst hv; simp
      · exact List.mem_cons_of_mem _ (ih v t h)
  have hl' : ∀ (l : List (Nat × Ty)), (l.map (·.1)).Nodup → ∀ p ∈ l, l.lookup p.1 = some p.2 := by
    intro l
    induction l with
    | nil => intro _ p hp; cases hp
    | cons q l ih =>
      intro hd p hp
      simp only [List.map_cons, List.nodup_cons] at hd
      rw [List.lookup_cons]
      rcases List.mem_cons.1 hp with rfl | hp
      · simp
      · have : p.1 ≠ q.1 := fun e => hd.1 (by rw [← e]; exact List.mem_map_of_mem hp)
        rw [beq_false_of_ne this]
        exact ih hd.2 p hp
  have hnG : ∀ v, ¬ G v → ρ' v = ρ v := by
    intro v hv
    simp only [ρ']
    split
    · next t ht => exact absurd (hU _ (hl _ v t ht)).1 hv
    · rfl
  have hsub : ∀ {n t}, Good ar G n t → t.sub ρ' = t.sub ρ := fun g => Ty.sub_congr (fun w hw => hnG w hw.2) _ g.all
  refine ⟨ρ', ⟨?_, ?_⟩, hnG⟩
  · intro v t hv
    obtain ⟨_, h2, h3⟩ := I.bound v t hv
    rw [hnG v h2, h v t hv, hsub h3]
  · intro p hp
    rw [hsub (hU p hp).2]
    simp only [ρ', hl' _ hd p hp]

/-! ### The overloaded names that are met -/

theorem Res.bind_ok {α β : Type} {x : Res α} {f : α → Res β} {b : β} (h : (x >>= f) = .ok b) : ∃ a, x = .ok a ∧ f a = .ok b := by
  cases x with
  | ok a => exact ⟨a, rfl, h⟩
  | _ => cases h

theorem unify_unres (n : Nat) : (∀ s t1 t2 b s', unify n s t1 t2 = .ok (b, s') → s'.unres = s.unres)
    ∧ ∀ s t1 t2 b s', unifyAll n s t1 t2 = .ok (b, s') → s'.unres = s.unres := by
  induction n with
  | zero => exact ⟨fun _ _ _ _ _ h => by simp [unify] at h, fun _ _ _ _ _ h => by simp [unifyAll] at h⟩
  | succ n ih =>
    constructor
    · intro s t1 t2 b s' h
      rw [unify] at h
      obtain ⟨t1, _, h⟩ := Res.bind_ok h
      obtain ⟨t2, _, h⟩ := Res.bind_ok h
      cases t1 with
      | var v =>
        simp only at h
        obtain ⟨o, _, h⟩ := Res.bind_ok h
        split at h
        · split at h <;> cases h <;> rfl
        · cases h; rfl
      | con o ts => cases t2 with
        | var v => exact ih.1 _ _ _ _ _ h
        | con o' ts' =>
          simp only at h
          split at h
          · cases h; rfl
          · exact ih.2 _ _ _ _ _ h
    · intro s t1 t2 b s' h
      cases t1 with
      | nil => cases h; rfl
      | cons t ts => cases t2 with
        | nil => cases h
        | cons t' ts' =>
          rw [unifyAll] at h
          obtain ⟨⟨b1, s1⟩, h1, h⟩ := Res.bind_ok h
          simp only at h
          have e1 := ih.1 _ _ _ _ _ h1
          split at h
          · rw [ih.2 _ _ _ _ _ h, e1]
          · cases h; exact e1

theorem unify!_unres {n : Nat} {s s' : St} {t1 t2 : Ty} (h : unify! n s t1 t2 = .ok s') : s'.unres = s.unres := by
  obtain ⟨⟨b, s1⟩, h1, h⟩ := Res.bind_ok h
  simp only at h
  split at h
  · cases h; exact (unify_unres n).1 _ _ _ _ _ h1
  · cases h

theorem inst_unres {n : Nat} {s s' : St} {t t' : Ty} (h : inst n s t = .ok (t', s')) : s'.unres = s.unres := by
  obtain ⟨a, h1, h⟩ := Res.bind_ok h
  cases h
  rfl

theorem appTail_unres {n : Nat} {s s' : St} {tf ta t : Ty} (h : appTail n s tf ta = .ok (t, s')) : s'.unres = s.unres := by
  obtain ⟨⟨a, b⟩, h1, h⟩ := Res.bind_ok h
  obtain ⟨s1, h2, h⟩ := Res.bind_ok h
  obtain ⟨t1, h3, h⟩ := Res.bind_ok h
  cases h
  exact unify!_unres h2

theorem inferApp_unres {n : Nat} {s s' : St} {tf ta t : Ty} (h : inferApp n s tf ta = .ok (t, s')) : s'.unres = s.unres := by
  obtain ⟨f, _, h⟩ := Res.bind_ok h
  obtain ⟨a, _, h⟩ := Res.bind_ok h
  cases f with
  | con o ts => exact appTail_unres h
  | var v =>
    obtain ⟨x, _, h⟩ := Res.bind_ok h
    obtain ⟨s2, h2, h⟩ := Res.bind_ok h
    obtain ⟨f, _, h⟩ := Res.bind_ok h
    rw [appTail_unres h, unify!_unres h2]

theorem infer_occs {n : Nat} {e : Tm} : ∀ {s s' env t}, infer n s env e = .ok (t, s') → s'.unres.map (·.1) = e.occs ++ s.unres.map (·.1) := by
  induction e with
  | var x =>
    intro s s' env t h
    simp only [infer] at h
    split at h <;> cases h
    rfl
  | lit o => intro s s' env t h; cases h; rfl
  | const c => intro s s' env t h; rw [inst_unres h]; rfl
  | ov v c =>
    intro s s' env t h
    obtain ⟨⟨t1, s1⟩, h1, h⟩ := Res.bind_ok h
    cases h
    simp [inst_unres h1, Tm.occs]
  | app f a ihf iha =>
    intro s s' env t h
    obtain ⟨⟨t1, s1⟩, h1, h⟩ := Res.bind_ok h
    obtain ⟨⟨t2, s2⟩, h2, h⟩ := Res.bind_ok h
    rw [inferApp_unres h, iha h2, ihf h1]
    simp [Tm.occs]
  | nil =>
    intro s s' env t h
    obtain ⟨x, _, h⟩ := Res.bind_ok h
    cases h; rfl
  | cons f a ihf iha =>
    intro s s' env t h
    obtain ⟨⟨t1, s1⟩, h1, h⟩ := Res.bind_ok h
    obtain ⟨⟨t2, s2⟩, h2, h⟩ := Res.bind_ok h
    obtain ⟨p, _, h⟩ := Res.bind_ok h
    obtain ⟨s3, h3, h⟩ := Res.bind_ok h
    obtain ⟨q, _, h⟩ := Res.bind_ok h
    cases h
    rw [unify!_unres h3, iha h2, ihf h1]
    simp [Tm.occs]
  | lam x b ih =>
    intro s s' env t h
    obtain ⟨⟨t1, s1⟩, h1, h⟩ := Res.bind_ok h
    obtain ⟨q, _, h⟩ := Res.bind_ok h
    cases h
    rw [ih h1]
    simp [Tm.occs]
  | hint e c ih =>
    intro s s' env t h
    obtain ⟨⟨t1, s1⟩, h1, h⟩ := Res.bind_ok h
    obtain ⟨s3, h3, h⟩ := Res.bind_ok h
    obtain ⟨q, _, h⟩ := Res.bind_ok h
    cases h
    rw [unify!_unres h3, ih h1]
    rfl

theorem typeCheck_out {H : Nat → Prop} {e : Tm} {n0 : Nat} {tr : List Nat} (hok : e.OK ar G H []) (hH : ∀ v, H v → v < n0 ∧ ¬ G v) (hG : ∀ v, G v → v < n0)
    (hd : e.occs.Nodup) : Outcome (fun n => typeCheck n ⟨fun _ => none, n0, tr, []⟩ e)
      (fun r => (∀ τ, Types e τ ↔ Instance r.1 τ) ∧ r.1.WF ar ∧ ∃ m, n0 ≤ m ∧ (r.1.All fun v => n0 ≤ v ∧ v < m) ∧ r.2 = ⟨fun _ => none, m, tr, []⟩)
      (∀ τ, ¬ Types e τ) := by
  have hsol : ∀ ρ tr, SolU ⟨fun _ => none, n0, tr, []⟩ ρ := fun ρ _ => ⟨fun v t h => by simp at h, fun p hp => by simp at hp⟩
  have hin := infer_out (env := []) (s := ⟨fun _ => none, n0, [], []⟩) ⟨⟨_, inv_empty hG⟩, fun p hp => by simp at hp⟩ hok hH (by simp)
  have hin := hin.and fun n r h => infer_occs h
  simp only [typeCheck]
  refine Outcome.bind hin (fun r hr => ?_) (fun h τ ht => ?_)
  · obtain ⟨t, s1⟩ := r
    obtain ⟨hr, hoc⟩ := hr
    simp only [List.map_nil, List.append_nil] at hoc
    obtain ⟨⟨θ, I⟩, hU⟩ := hr.reach
    refine Outcome.bind (inst_out I (I.goodSub hr.good).wf) (fun r h => ?_) False.elim
    obtain ⟨t', s2⟩ := r
    obtain ⟨m, h1, h2, h3, h4, h5, h6⟩ := h
    simp only at h2 h3 h4 h5 h6
    subst h2
    obtain ⟨l, l1, l2⟩ := hr.ext.trail
    simp only [List.append_nil] at l1 l2
    have hn : n0 ≤ s1.next := hr.ext.next
    refine Outcome.pure ⟨?_, h3, m, Nat.le_trans hn h1, h4.mono fun v hv => ⟨Nat.le_trans hn hv.1, hv.2⟩, ?_⟩
    · intro τ
      constructor
      · rintro ⟨η, hq⟩
        obtain ⟨ρ, _, a2, a3⟩ := hr.complete η τ (hsol η _) hq
        obtain ⟨ρ', _, b2⟩ := h6 ρ ρ
        exact ⟨ρ', by rw [b2, I.mgt a2.1]; exact a3.symm⟩
      · rintro ⟨ρ, rfl⟩
        obtain ⟨κ, hκ⟩ := h5 ρ
        obtain ⟨ρ', b1, b2⟩ := solU_of_sol ⟨⟨θ, I⟩, hU⟩ (by rw [hoc]; exact hd) (I.sol.comp κ)
        have := (hr.sound _ b1).2
        refine ⟨ρ', ?_⟩
        simp only
        rw [hκ, Ty.sub_sub, ← Ty.sub_congr (fun w hw => b2 w hw.2) t hr.good.all]
        exact this
    · simp only [l1, l2]
  · obtain ⟨η, hq⟩ := ht
    exact h η τ (hsol η _) hq

end Voss.TC
