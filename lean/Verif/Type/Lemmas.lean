import Verif.Type.Spec
/-
Helper lemmas: substitutions, the store, unification.
-/
namespace Voss.TC

/-! ### Types and substitutions -/

mutual
theorem Ty.sub_var : ∀ t : Ty, t.sub .var = t
  | .var v => rfl
  | .con o ts => by simp [Ty.sub, Tys.sub_var ts]
theorem Tys.sub_var : ∀ t : Tys, t.sub .var = t
  | .nil => rfl
  | .cons t ts => by simp [Tys.sub, Ty.sub_var t, Tys.sub_var ts]
end

mutual
theorem Ty.sub_sub (ρ σ : Nat → Ty) : ∀ t : Ty, (t.sub ρ).sub σ = t.sub fun v => (ρ v).sub σ
  | .var v => rfl
  | .con o ts => by simp [Ty.sub, Tys.sub_sub ρ σ ts]
theorem Tys.sub_sub (ρ σ : Nat → Ty) : ∀ t : Tys, (t.sub ρ).sub σ = t.sub fun v => (ρ v).sub σ
  | .nil => rfl
  | .cons t ts => by simp [Tys.sub, Ty.sub_sub ρ σ t, Tys.sub_sub ρ σ ts]
end

mutual
theorem Ty.sub_congr {P : Nat → Prop} {ρ σ : Nat → Ty} (h : ∀ v, P v → ρ v = σ v) : ∀ t : Ty, t.All P → t.sub ρ = t.sub σ
  | .var v, ht => h v ht
  | .con o ts, ht => by simp [Ty.sub, Tys.sub_congr h ts ht]
theorem Tys.sub_congr {P : Nat → Prop} {ρ σ : Nat → Ty} (h : ∀ v, P v → ρ v = σ v) : ∀ t : Tys, t.All P → t.sub ρ = t.sub σ
  | .nil, _ => rfl
  | .cons t ts, ht => by simp [Tys.sub, Ty.sub_congr h t ht.1, Tys.sub_congr h ts ht.2]
end

mutual
theorem Ty.All.mono {P Q : Nat → Prop} (h : ∀ v, P v → Q v) : ∀ {t : Ty}, t.All P → t.All Q
  | .var v, ht => h v ht
  | .con _ ts, ht => Tys.All.mono (t := ts) h ht
theorem Tys.All.mono {P Q : Nat → Prop} (h : ∀ v, P v → Q v) : ∀ {t : Tys}, t.All P → t.All Q
  | .nil, _ => trivial
  | .cons t ts, ht => ⟨Ty.All.mono (t := t) h ht.1, Tys.All.mono (t := ts) h ht.2⟩
end

mutual
theorem Ty.All.and {P Q : Nat → Prop} : ∀ {t : Ty}, t.All P → t.All Q → t.All fun v => P v ∧ Q v
  | .var v, h1, h2 => ⟨h1, h2⟩
  | .con _ ts, h1, h2 => Tys.All.and (t := ts) h1 h2
theorem Tys.All.and {P Q : Nat → Prop} : ∀ {t : Tys}, t.All P → t.All Q → t.All fun v => P v ∧ Q v
  | .nil, _, _ => trivial
  | .cons t ts, h1, h2 => ⟨Ty.All.and (t := t) h1.1 h2.1, Tys.All.and (t := ts) h1.2 h2.2⟩
end

mutual
theorem Ty.all_true : ∀ t : Ty, t.All fun _ => True
  | .var _ => trivial
  | .con _ ts => Tys.all_true ts
theorem Tys.all_true : ∀ t : Tys, t.All fun _ => True
  | .nil => trivial
  | .cons t ts => ⟨Ty.all_true t, Tys.all_true ts⟩
end

mutual
theorem Ty.all_sub {P : Nat → Prop} {ρ : Nat → Ty} : ∀ t : Ty, (t.sub ρ).All P ↔ t.All fun v => (ρ v).All P
  | .var v => Iff.rfl
  | .con _ ts => Tys.all_sub ts
theorem Tys.all_sub {P : Nat → Prop} {ρ : Nat → Ty} : ∀ t : Tys, (t.sub ρ).All P ↔ t.All fun v => (ρ v).All P
  | .nil => Iff.rfl
  | .cons t ts => by simp [Tys.sub, Tys.All, Ty.all_sub t, Tys.all_sub ts]
end

theorem Tys.length_sub {ρ : Nat → Ty} : ∀ t : Tys, (t.sub ρ).length = t.length
  | .nil => rfl
  | .cons t ts => by simp [Tys.sub, Tys.length, Tys.length_sub ts]

mutual
theorem Ty.wf_sub {ar : String → Nat} {ρ : Nat → Ty} (h : ∀ v, (ρ v).WF ar) : ∀ {t : Ty}, t.WF ar → (t.sub ρ).WF ar
  | .var v, _ => h v
  | .con o ts, ht => ⟨by rw [Tys.length_sub]; exact ht.1, Tys.wf_sub h ht.2⟩
theorem Tys.wf_sub {ar : String → Nat} {ρ : Nat → Ty} (h : ∀ v, (ρ v).WF ar) : ∀ {t : Tys}, t.WF ar → (t.sub ρ).WF ar
  | .nil, _ => trivial
  | .cons t ts, ht => ⟨Ty.wf_sub h ht.1, Tys.wf_sub h ht.2⟩
end

mutual
/-- The size of a type. -/
def Ty.size : Ty → Nat
  | .var _ => 1
  | .con _ ts => ts.size + 1
def Tys.size : Tys → Nat
  | .nil => 1
  | .cons t ts => t.size + ts.size + 1
end

theorem Ty.size_pos (t : Ty) : 0 < t.size := by cases t <;> simp [Ty.size]

mutual
/-- Does the variable occur? -/
def Ty.has (v : Nat) : Ty → Bool
  | .var w => v == w
  | .con _ ts => ts.has v
def Tys.has (v : Nat) : Tys → Bool
  | .nil => false
  | .cons t ts => t.has v || ts.has v
end

mutual
theorem Ty.has_all {v : Nat} : ∀ {t : Ty}, t.has v = false → t.All (· ≠ v)
  | .var w, h => by simp [Ty.has] at h; exact fun e => h e.symm
  | .con _ ts, h => Tys.has_all (t := ts) h
theorem Tys.has_all {v : Nat} : ∀ {t : Tys}, t.has v = false → t.All (· ≠ v)
  | .nil, _ => trivial
  | .cons t ts, h => by
    simp [Tys.has] at h
    exact ⟨Ty.has_all h.1, Tys.has_all h.2⟩
end

mutual
/-- A type that contains a variable is at least as large as what the variable stands for. -/
theorem Ty.size_has {ρ : Nat → Ty} {v : Nat} : ∀ {t : Ty}, t.has v = true → (ρ v).size ≤ (t.sub ρ).size
  | .var w, h => by simp [Ty.has] at h; subst h; exact Nat.le_refl _
  | .con _ ts, h => by
    have := Tys.size_has (ρ := ρ) (t := ts) h
    simp only [Ty.sub, Ty.size]
    omega
theorem Tys.size_has {ρ : Nat → Ty} {v : Nat} : ∀ {t : Tys}, t.has v = true → (ρ v).size < (t.sub ρ).size
  | .nil, h => by simp [Tys.has] at h
  | .cons t ts, h => by
    simp [Tys.has] at h
    simp only [Tys.sub, Tys.size]
    rcases h with h | h
    · have := Ty.size_has (ρ := ρ) h
      omega
    · have := Tys.size_has (ρ := ρ) h
      omega
end

/-! ### Eventually -/

/-- From some fuel on, the result is `a`. -/
def Ev {α : Type} (f : Nat → α) (a : α) : Prop := ∃ n0, ∀ n, n0 ≤ n → f n = a

theorem Ev.const {α : Type} (a : α) : Ev (fun _ => a) a := ⟨0, fun _ _ => rfl⟩

theorem Ev.of_succ {α : Type} {f : Nat → α} {a : α} (h : Ev (fun n => f (n + 1)) a) : Ev f a := by
  obtain ⟨n0, h⟩ := h
  refine ⟨n0 + 1, fun n hn => ?_⟩
  obtain ⟨m, rfl⟩ : ∃ m, n = m + 1 := ⟨n - 1, by omega⟩
  exact h m (by omega)

theorem Ev.and {α β : Type} {f : Nat → α} {g : Nat → β} {a : α} {b : β} (h1 : Ev f a) (h2 : Ev g b) :
    ∃ n0, ∀ n, n0 ≤ n → f n = a ∧ g n = b := by
  obtain ⟨n1, h1⟩ := h1
  obtain ⟨n2, h2⟩ := h2
  exact ⟨max n1 n2, fun n hn => ⟨h1 n (by omega), h2 n (by omega)⟩⟩

theorem Ev.congr {α : Type} {f g : Nat → α} {a : α} (h : Ev f a) (e : ∀ n, f n = a → g n = a) : Ev g a := by
  obtain ⟨n0, h⟩ := h
  exact ⟨n0, fun n hn => e n (h n hn)⟩

theorem Ev.map {α β : Type} {f : Nat → α} {g : Nat → β} {a : α} {b : β} (h : Ev f a) (e : ∀ n, f n = a → g n = b) : Ev g b := by
  obtain ⟨n0, h⟩ := h
  exact ⟨n0, fun n hn => e n (h n hn)⟩

theorem Ev.map2 {α β γ : Type} {f : Nat → α} {g : Nat → β} {k : Nat → γ} {a : α} {b : β} {c : γ} (h1 : Ev f a) (h2 : Ev g b)
    (e : ∀ n, f n = a → g n = b → k n = c) : Ev k c := by
  obtain ⟨n0, h⟩ := h1.and h2
  exact ⟨n0, fun n hn => e n (h n hn).1 (h n hn).2⟩

theorem Ev.bind {α β : Type} {f : Nat → Res α} {g : Nat → α → Res β} {a : α} {r : Res β} (h1 : Ev f (.ok a))
    (h2 : Ev (fun n => g n a) r) : Ev (fun n => f n >>= g n) r := by
  obtain ⟨n0, h⟩ := h1.and h2
  exact ⟨n0, fun n hn => by show (f n >>= g n) = r; rw [(h n hn).1]; exact (h n hn).2⟩

theorem Ev.bind_fail {α β : Type} {f : Nat → Res α} {g : Nat → α → Res β} (h1 : Ev f .fail) : Ev (fun n => f n >>= g n) .fail := by
  obtain ⟨n0, h⟩ := h1
  exact ⟨n0, fun n hn => by show (f n >>= g n) = .fail; rw [h n hn]; rfl⟩

theorem Ev.ofOption {α : Type} {f : Nat → Option α} {a : α} (h : Ev f (some a)) : Ev (fun n => Res.ofOption (f n)) (.ok a) := by
  obtain ⟨n0, h⟩ := h
  exact ⟨n0, fun n hn => by show Res.ofOption (f n) = _; rw [h n hn]; rfl⟩

/-! ### The store -/

/-- `ρ` satisfies the bindings. -/
def Sol (bind : Nat → Option Ty) (ρ : Nat → Ty) : Prop := ∀ v t, bind v = some t → ρ v = t.sub ρ

/-- The types in play: below `next`, not among the variables `G` of types of defined names, well formed. -/
structure Good (ar : String → Nat) (G : Nat → Prop) (next : Nat) (t : Ty) : Prop where
  all : t.All fun v => v < next ∧ ¬ G v
  wf : t.WF ar

/-- The invariant of the store; `θ` is its solved form. -/
structure Inv (ar : String → Nat) (G : Nat → Prop) (s : St) (θ : Nat → Ty) : Prop where
  sol : Sol s.bind θ
  unb : ∀ v, s.bind v = none → θ v = .var v
  mg : ∀ ρ, Sol s.bind ρ → ∀ v, (θ v).sub ρ = ρ v
  bound : ∀ v t, s.bind v = some t → v < s.next ∧ ¬ G v ∧ Good ar G s.next t
  good : ∀ v, v < s.next → ¬ G v → Good ar G s.next (θ v)
  vars : ∀ v w t, s.bind v = some t → (θ w).All (· ≠ v)
  gen : ∀ v, G v → v < s.next
  time : ∃ (τ : Nat → Nat) (N : Nat), (∀ v w, s.bind v = some (.var w) → τ v < τ w) ∧ (∀ v, τ v ≤ N) ∧ ∀ v, s.bind v = none → τ v = N

variable {ar : String → Nat} {G : Nat → Prop} {s : St} {θ : Nat → Ty}

theorem Good.mono {n m : Nat} {t : Ty} (h : Good ar G n t) (hn : n ≤ m) : Good ar G m t :=
  ⟨h.all.mono fun _ hv => ⟨by omega, hv.2⟩, h.wf⟩

theorem Inv.mgt (I : Inv ar G s θ) {ρ : Nat → Ty} (h : Sol s.bind ρ) (t : Ty) : (t.sub θ).sub ρ = t.sub ρ := by
  rw [Ty.sub_sub]
  congr 1
  funext v
  exact I.mg ρ h v

theorem Inv.idem (I : Inv ar G s θ) (t : Ty) : (t.sub θ).sub θ = t.sub θ := I.mgt I.sol t

theorem Inv.goodSub (I : Inv ar G s θ) {t : Ty} (h : Good ar G s.next t) : Good ar G s.next (t.sub θ) := by
  refine ⟨?_, ?_⟩
  · rw [Ty.all_sub]
    exact h.all.mono fun v hv => (I.good v hv.1 hv.2).all
  · classical
    have : t.sub θ = t.sub fun v => if v < s.next ∧ ¬ G v then θ v else .var v :=
      Ty.sub_congr (P := fun v => v < s.next ∧ ¬ G v) (fun v hv => by rw [if_pos hv]) t h.all
    rw [this]
    refine Ty.wf_sub (fun v => ?_) h.wf
    split
    · next hv => exact (I.good v hv.1 hv.2).wf
    · trivial

/-- `get_real_type` finds the top of the type. -/
theorem resolve_ev (I : Inv ar G s θ) (t : Ty) : ∃ t', Ev (fun n => resolve s.bind n t) (some t') ∧ t'.sub θ = t.sub θ
    ∧ (∀ v, t' = .var v → s.bind v = none) ∧ (Good ar G s.next t → Good ar G s.next t')
    ∧ (∀ ρ, Sol s.bind ρ → t'.sub ρ = t.sub ρ) ∧ ((∃ v, t = .var v ∧ (s.bind v).isSome) ∨ t' = t) := by
  obtain ⟨τ, N, h1, h2, h3⟩ := I.time
  cases t with
  | con o ts =>
    exact ⟨.con o ts, Ev.of_succ (Ev.const _), rfl, fun v e => (by cases e), id, fun _ _ => rfl, .inr rfl⟩
  | var v =>
    generalize hk : N - τ v = k
    induction k using Nat.strongRecOn generalizing v with
    | ind k ih =>
      cases hb : s.bind v with
      | none =>
        refine ⟨.var v, Ev.of_succ ((Ev.const _).congr fun n _ => ?_), rfl, fun w e => by cases e; exact hb, id, fun _ _ => rfl, .inr rfl⟩
        simp [resolve, hb]
      | some t =>
        have hg := (I.bound v t hb).2.2
        have hs : t.sub θ = Ty.sub θ (.var v) := (I.sol v t hb).symm
        have hsr : ∀ ρ, Sol s.bind ρ → t.sub ρ = Ty.sub ρ (.var v) := fun ρ hρ => (hρ v t hb).symm
        have hst : ∀ t', Ev (fun n => resolve s.bind n t) (some t') → Ev (fun n => resolve s.bind n (.var v)) (some t') :=
          fun t' h => Ev.of_succ (h.congr fun n e => by simp [resolve, hb, e])
        cases t with
        | con o ts =>
          exact ⟨.con o ts, hst _ (Ev.of_succ (Ev.const _)), hs, fun w e => (by cases e), fun _ => hg, hsr, .inl ⟨v, rfl, by simp [hb]⟩⟩
        | var w =>
          have hlt := h1 v w hb
          have := h2 w
          obtain ⟨t', e1, e2, e3, e4, e5, _⟩ := ih (N - τ w) (by omega) w rfl
          exact ⟨t', hst _ e1, e2.trans hs, e3, fun _ => e4 hg, fun ρ hρ => (e5 ρ hρ).trans (hsr ρ hρ), .inl ⟨v, rfl, by simp [hb]⟩⟩

/-- `occurs` looks through the bindings. -/
theorem occurs_ev (I : Inv ar G s θ) (v : Nat) : ∀ (k : Nat),
    (∀ t : Ty, (t.sub θ).size ≤ k → Ev (fun n => occurs s.bind v n t) (some ((t.sub θ).has v)))
    ∧ ∀ ts : Tys, (ts.sub θ).size ≤ k → Ev (fun n => occursIn s.bind v n ts) (some ((ts.sub θ).has v)) := by
  intro k
  induction k with
  | zero =>
    constructor
    · intro t h; have := (t.sub θ).size_pos; omega
    · intro t h; cases t <;> simp [Tys.sub, Tys.size] at h
  | succ k ih =>
    constructor
    · intro t h
      obtain ⟨t', e1, e2, e3, _⟩ := resolve_ev I t
      rw [← e2] at h ⊢
      cases t' with
      | var w =>
        have hw : Ty.sub θ (.var w) = .var w := I.unb w (e3 w rfl)
        refine Ev.of_succ (e1.map fun n e => ?_)
        simp only [occurs, e, hw, Ty.has]
        rfl
      | con o ts =>
        have h' : (ts.sub θ).size ≤ k := by simp only [Ty.sub, Ty.size] at h; omega
        refine Ev.of_succ (e1.map2 (ih.2 ts h') fun n e e' => ?_)
        simp only [occurs, e]
        exact e'
    · intro ts h
      cases ts with
      | nil => exact Ev.of_succ (Ev.const _)
      | cons t ts =>
        simp only [Tys.sub, Tys.size] at h
        refine Ev.of_succ ((ih.1 t (by omega)).map2 (ih.2 ts (by omega)) fun n e e' => ?_)
        simp only [occursIn, e, e', Tys.sub, Tys.has]
        cases (t.sub θ).has v <;> rfl

theorem occurs_ok (I : Inv ar G s θ) (v : Nat) (t : Ty) : Ev (fun n => occurs s.bind v n t) (some ((t.sub θ).has v)) :=
  (occurs_ev I v _).1 t (Nat.le_refl _)

/-- The variables that can still be bound. -/
def unbound (s : St) : Nat := ((List.range s.next).filter fun v => (s.bind v).isNone).length

theorem filter_length_lt {p q : Nat → Bool} : ∀ {l : List Nat} {v : Nat}, (∀ x, q x = true → p x = true) → v ∈ l → p v = true →
    q v = false → (l.filter q).length < (l.filter p).length
  | [], v, _, hv, _, _ => by cases hv
  | x :: l, v, h, hv, hp, hq => by
    have hle : ∀ l : List Nat, (l.filter q).length ≤ (l.filter p).length := by
      intro l
      induction l with
      | nil => simp
      | cons a l ih =>
        simp only [List.filter_cons]
        split
        · next ha => rw [if_pos (h a ha)]; simp only [List.length_cons]; omega
        · split
          · simp only [List.length_cons]; omega
          · exact ih
    simp only [List.filter_cons]
    rcases List.mem_cons.1 hv with rfl | hv
    · rw [if_pos hp, if_neg (by simp [hq])]
      have := hle l
      simp only [List.length_cons]
      omega
    · have ih := filter_length_lt h hv hp hq
      split
      · next ha => rw [if_pos (h x ha)]; simp only [List.length_cons]; omega
      · split
        · simp only [List.length_cons]; omega
        · exact ih

/-- Bind a variable that does not occur in the type. -/
theorem set_inv (I : Inv ar G s θ) {v : Nat} {t : Ty} (hv : s.bind v = none) (hvn : v < s.next ∧ ¬ G v) (hg : Good ar G s.next t)
    (hr : ∀ w, t = .var w → s.bind w = none) (ho : (t.sub θ).has v = false) :
    (∃ θ', Inv ar G (s.set v t) θ') ∧ (∀ ρ, Sol (s.set v t).bind ρ ↔ Sol s.bind ρ ∧ ρ v = t.sub ρ) ∧ unbound (s.set v t) < unbound s := by
  have hall := Ty.has_all ho
  have hsol : ∀ ρ, Sol (s.set v t).bind ρ ↔ Sol s.bind ρ ∧ ρ v = t.sub ρ := by
    intro ρ
    constructor
    · intro h
      refine ⟨fun w u hw => h w u ?_, h v t ?_⟩
      · have : w ≠ v := by rintro rfl; rw [hv] at hw; cases hw
        simp [St.set, this, hw]
      · simp [St.set]
    · rintro ⟨h1, h2⟩ w u hw
      simp only [St.set] at hw
      split at hw
      · next e => cases hw; subst e; exact h2
      · exact h1 w u hw
  -- the solved form
  let δ : Nat → Ty := fun w => if w = v then t.sub θ else .var w
  have hδ : (t.sub θ).sub δ = t.sub θ := by
    rw [Ty.sub_congr (σ := .var) (fun w (hw : w ≠ v) => by simp [δ, hw]) _ hall, Ty.sub_var]
  let θ' : Nat → Ty := fun w => (θ w).sub δ
  have hsub : ∀ u : Ty, u.sub θ' = (u.sub θ).sub δ := fun u => (Ty.sub_sub θ δ u).symm
  have hδall : ∀ w, (δ w).All (· ≠ v) := by
    intro w
    by_cases h : w = v
    · simp only [δ, if_pos h]; exact hall
    · simp only [δ, if_neg h]; exact h
  have hθv : θ' v = t.sub θ := by simp only [θ', I.unb v hv, Ty.sub, δ, if_pos]
  refine ⟨⟨θ', ?_⟩, hsol, ?_⟩
  · refine ⟨?_, ?_, ?_, ?_, ?_, ?_, I.gen, ?_⟩
    · rw [hsol]
      refine ⟨fun w u hw => ?_, ?_⟩
      · show (θ w).sub δ = _
        rw [I.sol w u hw, hsub]
      · rw [hθv, hsub, hδ]
    · intro w hw
      simp only [St.set] at hw
      split at hw
      · cases hw
      · next hne => simp only [θ', I.unb w hw, Ty.sub, δ, if_neg hne]
    · intro ρ hρ w
      obtain ⟨h1, h2⟩ := (hsol ρ).1 hρ
      show ((θ w).sub δ).sub ρ = _
      rw [Ty.sub_sub]
      have : (fun x => (δ x).sub ρ) = ρ := by
        funext x
        by_cases h : x = v
        · subst h; simp only [δ, if_pos]; rw [I.mgt h1, h2]
        · simp only [δ, if_neg h, Ty.sub]
      rw [this]
      exact I.mg ρ h1 w
    · intro w u hw
      simp only [St.set] at hw ⊢
      split at hw
      · next e => cases hw; subst e; exact ⟨hvn.1, hvn.2, hg⟩
      · exact I.bound w u hw
    · intro w hw hwG
      have h1 := I.good w hw hwG
      have ht := I.goodSub hg
      refine ⟨?_, ?_⟩
      · show ((θ w).sub δ).All _
        rw [Ty.all_sub]
        refine h1.all.mono fun x hx => ?_
        by_cases h : x = v
        · simp only [δ, if_pos h]; exact ht.all
        · simp only [δ, if_neg h]; exact hx
      · refine Ty.wf_sub (fun x => ?_) h1.wf
        by_cases h : x = v
        · simp only [δ, if_pos h]; exact ht.wf
        · simp only [δ, if_neg h]; trivial
    · intro w x u hw
      show ((θ x).sub δ).All _
      rw [Ty.all_sub]
      by_cases h : w = v
      · subst h
        exact (Ty.all_true _).mono fun y _ => hδall y
      · simp only [St.set, if_neg h] at hw
        refine (I.vars w x u hw).mono fun y hy => ?_
        by_cases h' : y = v
        · simp only [δ, if_pos h']
          rw [Ty.all_sub]
          exact (Ty.all_true t).mono fun z _ => I.vars w z u hw
        · simp only [δ, if_neg h']; exact hy
    · obtain ⟨τ, N, h1, h2, h3⟩ := I.time
      refine ⟨fun w => if w = v then N else if (s.bind w).isSome then τ w else N + 1, N + 1, ?_, ?_, ?_⟩
      · intro w x hw
        simp only [St.set] at hw
        split at hw
        · next e =>
          cases hw
          subst e
          have hx := hr x rfl
          have : x ≠ w := by
            rintro rfl
            rw [show Ty.sub θ (.var x) = .var x from I.unb x hx] at ho
            simp [Ty.has] at ho
          simp [this, hx]
        · next hne =>
          have := h1 w x hw
          have h2x := h2 w
          by_cases hxv : x = v
          · subst hxv
            have := h3 x hv
            simp [hne, hw]
            omega
          · simp only [if_neg hne, if_neg hxv, hw, Option.isSome_some, if_true]
            split
            · exact this
            · omega
      · intro w
        have := h2 w
        show (if w = v then N else if (s.bind w).isSome then τ w else N + 1) ≤ N + 1
        split
        · omega
        · split <;> omega
      · intro w hw
        simp only [St.set] at hw
        split at hw
        · cases hw
        · next hne => simp [hne, hw]
  · refine filter_length_lt (v := v) (fun x hx => ?_) (List.mem_range.2 hvn.1) (by simp [hv]) (by simp [St.set])
    simp only [St.set] at hx
    split at hx
    · cases hx
    · exact hx

/-- A later state: some variables have been bound, and restoring unbinds them. -/
structure Ext (s s' : St) : Prop where
  next : s.next ≤ s'.next
  trail : ∃ l, s'.trail = l ++ s.trail ∧ restore s'.bind l = s.bind

theorem Ext.refl (s : St) : Ext s s := ⟨Nat.le_refl _, [], rfl, rfl⟩

theorem restore_append (b : Nat → Option Ty) : ∀ l l', restore b (l ++ l') = restore (restore b l) l'
  | [], _ => rfl
  | v :: l, l' => restore_append _ l l'

theorem Ext.trans {s s' s'' : St} (h1 : Ext s s') (h2 : Ext s' s'') : Ext s s'' := by
  obtain ⟨l, e1, e2⟩ := h1.trail
  obtain ⟨l', e3, e4⟩ := h2.trail
  refine ⟨Nat.le_trans h1.next h2.next, l' ++ l, by rw [e3, e1, List.append_assoc], ?_⟩
  rw [restore_append, e4, e2]

theorem set_ext {v : Nat} {t : Ty} (hv : s.bind v = none) : Ext s (s.set v t) := by
  refine ⟨Nat.le_refl _, [v], rfl, ?_⟩
  funext w
  simp only [restore, St.set]
  by_cases h : w = v
  · rw [if_pos h, h, hv]
  · rw [if_neg h, if_neg h]

/-- What `unify` achieves. -/
def Unified (ar : String → Nat) (G : Nat → Prop) (s : St) (θ : Nat → Ty) (eqn : (Nat → Ty) → Prop) (f : Nat → Res (Bool × St)) : Prop :=
  ∃ b s', Ev f (.ok (b, s')) ∧ (Ext s s' ∧ s'.unres = s.unres) ∧
    match b with
    | true => (s' = s ∨ ∃ θ', Inv ar G s' θ' ∧ unbound s' < unbound s) ∧ s'.next = s.next ∧ ∀ ρ, Sol s'.bind ρ ↔ Sol s.bind ρ ∧ eqn ρ
    | false => ∀ ρ, Sol s.bind ρ → ¬ eqn ρ

/-- The body of `unify`, after both types have been looked up. -/
def uBody (n : Nat) (s : St) (r1 r2 : Ty) : Res (Bool × St) :=
  match r1, r2 with
  | .var v, t2 => do
    if ← Res.ofOption (occurs s.bind v n t2) then
      if Ty.var v ≠ t2 then .ok (false, s) else .ok (true, s)
    else .ok (true, s.set v t2)
  | .con o ts, .var v => unify n s (.var v) (.con o ts)
  | .con o ts, .con o' ts' => if o ≠ o' then .ok (false, s) else unifyAll n s ts ts'

/-- The first type is a variable. -/
theorem unify_var (I : Inv ar G s θ) {v : Nat} {t : Ty} (hv : s.bind v = none) (hg : Good ar G s.next (.var v)) (hgt : Good ar G s.next t)
    (ht : ∀ w, t = .var w → s.bind w = none) :
    Unified ar G s θ (fun ρ => ρ v = t.sub ρ) fun n => uBody n s (.var v) t := by
  have ho := occurs_ok I v t
  cases hb : (t.sub θ).has v with
  | false =>
    rw [hb] at ho
    obtain ⟨⟨θ', h1⟩, h2, h3⟩ := set_inv I hv hg.all hgt ht hb
    refine ⟨true, s.set v t, ho.map fun n e => ?_, ⟨set_ext hv, rfl⟩, .inr ⟨θ', h1, h3⟩, rfl, h2⟩
    simp only [uBody, e]; rfl
  | true =>
    rw [hb] at ho
    by_cases he : Ty.var v = t
    · refine ⟨true, s, ho.map fun n e => ?_, ⟨Ext.refl s, rfl⟩, .inl rfl, rfl, fun ρ => ?_⟩
      · simp only [uBody, e]; show (if Ty.var v ≠ t then _ else _) = _; rw [if_neg (by simp [he])]
      · subst he; exact ⟨fun h => ⟨h, rfl⟩, fun h => h.1⟩
    · refine ⟨false, s, ho.map fun n e => ?_, ⟨Ext.refl s, rfl⟩, fun ρ hρ hvt => ?_⟩
      · simp only [uBody, e]; show (if Ty.var v ≠ t then _ else _) = _; rw [if_pos he]
      · cases t with
        | var w =>
          rw [show Ty.sub θ (.var w) = .var w from I.unb w (ht w rfl)] at hb
          simp [Ty.has] at hb
          exact he (by rw [hb])
        | con o ts =>
          have h1 : Tys.has v (ts.sub θ) = true := hb
          have h2 := Tys.size_has (ρ := ρ) h1
          have h3 := I.mgt hρ (.con o ts)
          rw [← hvt] at h3
          have h4 : (ρ v).size = ((ts.sub θ).sub ρ).size + 1 := by rw [← h3]; simp [Ty.sub, Ty.size]
          omega

theorem ofOption_bind {α β : Type} {o : Option α} {a : α} (h : o = some a) (f : α → Res β) : (Res.ofOption o >>= f) = f a := by rw [h]; rfl

theorem Good.args {o : Op} {ts : Tys} {n : Nat} (h : Good ar G n (.con o ts)) : ts.All (fun v => v < n ∧ ¬ G v) ∧ ts.WF ar :=
  ⟨h.all, h.wf.2⟩

theorem unify_succ (n : Nat) (s : St) (t1 t2 : Ty) :
    unify (n + 1) s t1 t2 = (Res.ofOption (resolve s.bind n t1) >>= fun r1 => Res.ofOption (resolve s.bind n t2) >>= fun r2 => uBody n s r1 r2) := by
  rw [unify]; rfl

theorem unify_ev : ∀ (k : Nat) {s : St} {θ : Nat → Ty}, Inv ar G s θ →
    (∀ j, unbound s = j → (∀ s' θ', Inv ar G s' θ' → unbound s' < j →
      (∀ t1 t2, Good ar G s'.next t1 → Good ar G s'.next t2 → Unified ar G s' θ' (fun ρ => t1.sub ρ = t2.sub ρ) fun n => unify n s' t1 t2)
      ∧ (∀ ts1 ts2 : Tys, ts1.All (fun v => v < s'.next ∧ ¬ G v) → ts1.WF ar → ts2.All (fun v => v < s'.next ∧ ¬ G v) → ts2.WF ar → ts1.length = ts2.length →
          Unified ar G s' θ' (fun ρ => ts1.sub ρ = ts2.sub ρ) fun n => unifyAll n s' ts1 ts2)) →
    (∀ t1 t2, (t1.sub θ).size + (t2.sub θ).size ≤ k → Good ar G s.next t1 → Good ar G s.next t2 →
        Unified ar G s θ (fun ρ => t1.sub ρ = t2.sub ρ) fun n => unify n s t1 t2)
    ∧ (∀ ts1 ts2 : Tys, (ts1.sub θ).size + (ts2.sub θ).size ≤ k → ts1.All (fun v => v < s.next ∧ ¬ G v) → ts1.WF ar →
        ts2.All (fun v => v < s.next ∧ ¬ G v) → ts2.WF ar → ts1.length = ts2.length →
        Unified ar G s θ (fun ρ => ts1.sub ρ = ts2.sub ρ) fun n => unifyAll n s ts1 ts2)) := by
  intro k
  induction k with
  | zero =>
    intro s θ I j hj hu
    constructor
    · intro t1 t2 h; have := (t1.sub θ).size_pos; omega
    · intro t1 t2 h; cases t1 <;> simp [Tys.sub, Tys.size] at h
  | succ k ih =>
    intro s θ I j hj hu
    obtain ⟨ih1, ih2⟩ := ih I j hj hu
    constructor
    · intro t1 t2 hk g1 g2
      obtain ⟨r1, e1, z1, v1, gg1, s1, _⟩ := resolve_ev I t1
      obtain ⟨r2, e2, z2, v2, gg2, s2, _⟩ := resolve_ev I t2
      rw [← z1, ← z2] at hk
      have hr1 := gg1 g1
      have hr2 := gg2 g2
      -- transfer to the resolved types
      suffices H : Unified ar G s θ (fun ρ => r1.sub ρ = r2.sub ρ) fun n => uBody n s r1 r2 by
        obtain ⟨b, s', hev, hx, hm⟩ := H
        refine ⟨b, s', Ev.of_succ ?_, hx, ?_⟩
        · obtain ⟨n0, h0⟩ := e1.and e2
          obtain ⟨n1, h1⟩ := hev
          refine ⟨max n0 n1, fun n hn => ?_⟩
          have ha := h0 n (by omega)
          have hb := h1 n (by omega)
          show unify (n + 1) s t1 t2 = _
          rw [unify_succ, ofOption_bind ha.1, ofOption_bind ha.2]
          exact hb
        · cases b with
          | true =>
            refine ⟨hm.1, hm.2.1, fun ρ => ?_⟩
            rw [hm.2.2 ρ]
            constructor
            · rintro ⟨h1, h2⟩; exact ⟨h1, (s1 ρ h1).symm.trans (h2.trans (s2 ρ h1))⟩
            · rintro ⟨h1, h2⟩; exact ⟨h1, (s1 ρ h1).trans (h2.trans (s2 ρ h1).symm)⟩
          | false =>
            intro ρ h1 h2
            exact hm ρ h1 ((s1 ρ h1).trans (h2.trans (s2 ρ h1).symm))
      cases r1 with
      | var v => exact unify_var I (v1 v rfl) hr1 hr2 v2
      | con o ts =>
        cases r2 with
        | var v =>
          obtain ⟨b, s', hev, hx, hm⟩ := unify_var I (v2 v rfl) hr2 hr1 (fun w e => by cases e)
          have hres : Ev (fun n => resolve s.bind n (.var v)) (some (.var v)) :=
            Ev.of_succ ((Ev.const _).congr fun n _ => by simp [resolve, v2 v rfl])
          have hres2 : Ev (fun n => resolve s.bind n (.con o ts)) (some (.con o ts)) := Ev.of_succ (Ev.const _)
          refine ⟨b, s', Ev.of_succ ?_, hx, ?_⟩
          · obtain ⟨n0, h0⟩ := hres.and hres2
            obtain ⟨n1, h1⟩ := hev
            refine ⟨max n0 n1, fun n hn => ?_⟩
            have ha := h0 n (by omega)
            have hb := h1 n (by omega)
            show unify (n + 1) s (.var v) (.con o ts) = _
            rw [unify_succ, ofOption_bind ha.1, ofOption_bind ha.2]
            exact hb
          · cases b with
            | true =>
              refine ⟨hm.1, hm.2.1, fun ρ => ?_⟩
              rw [hm.2.2 ρ]
              exact ⟨fun h => ⟨h.1, h.2.symm⟩, fun h => ⟨h.1, h.2.symm⟩⟩
            | false => exact fun ρ h1 h2 => hm ρ h1 h2.symm
        | con o' ts' =>
          by_cases ho : o = o'
          · subst ho
            simp only [Ty.sub, Ty.size] at hk
            obtain ⟨b, s', hev, hx, hm⟩ := ih2 ts ts' (by omega) hr1.args.1 hr1.args.2 hr2.args.1 hr2.args.2 (hr1.wf.1.trans hr2.wf.1.symm)
            refine ⟨b, s', hev.map fun n e => ?_, hx, ?_⟩
            · show (if o ≠ o then Res.ok (false, s) else unifyAll n s ts ts') = _
              rw [if_neg (by simp)]; exact e
            · cases b with
              | true =>
                refine ⟨hm.1, hm.2.1, fun ρ => ?_⟩
                rw [hm.2.2 ρ]
                simp [Ty.sub]
              | false => exact fun ρ h1 h2 => hm ρ h1 (by simpa [Ty.sub] using h2)
          · refine ⟨false, s, (Ev.const _).congr fun n _ => by simp [uBody, ho], ⟨Ext.refl s, rfl⟩, fun ρ _ h => ?_⟩
            simp [Ty.sub, ho] at h
    · intro ts1 ts2 hk a1 w1 a2 w2 hl
      cases ts1 with
      | nil =>
        cases ts2 with
        | nil => exact ⟨true, s, Ev.of_succ (Ev.const _), ⟨Ext.refl s, rfl⟩, .inl rfl, rfl, fun ρ => ⟨fun h => ⟨h, rfl⟩, fun h => h.1⟩⟩
        | cons => simp [Tys.length] at hl
      | cons t1 ts1 =>
        cases ts2 with
        | nil => simp [Tys.length] at hl
        | cons t2 ts2 =>
          simp only [Tys.sub, Tys.size] at hk
          simp only [Tys.length, Nat.add_right_cancel_iff] at hl
          obtain ⟨b, s', hev, hx, hm⟩ := ih1 t1 t2 (by omega) ⟨a1.1, w1.1⟩ ⟨a2.1, w2.1⟩
          cases b with
          | false =>
            refine ⟨false, s', Ev.of_succ (hev.map fun n e => ?_), hx, fun ρ h1 h2 => hm ρ h1 ?_⟩
            · simp only [unifyAll, e]; rfl
            · simp [Tys.sub] at h2; exact h2.1
          | true =>
            obtain ⟨hcase, hnext, hsol⟩ := hm
            have hrec : Unified ar G s' θ (fun ρ => ts1.sub ρ = ts2.sub ρ) fun n => unifyAll n s' ts1 ts2 := by
              rcases hcase with rfl | ⟨θ', I', hlt⟩
              · exact ih2 ts1 ts2 (by omega) a1.2 w1.2 a2.2 w2.2 hl
              · have := (hu s' θ' I' (by omega)).2 ts1 ts2 (by rw [hnext]; exact a1.2) w1.2 (by rw [hnext]; exact a2.2) w2.2 hl
                exact this
            obtain ⟨b2, s'', hev2, hx2, hm2⟩ := hrec
            refine ⟨b2, s'', Ev.of_succ (hev.map2 hev2 fun n e e2 => ?_), ⟨hx.1.trans hx2.1, hx2.2.trans hx.2⟩, ?_⟩
            · simp only [unifyAll, e]; exact e2
            · cases b2 with
              | false =>
                intro ρ h1 h2
                simp [Tys.sub] at h2
                exact hm2 ρ ((hsol ρ).2 ⟨h1, h2.1⟩) h2.2
              | true =>
                obtain ⟨hc2, hn2, hs2⟩ := hm2
                refine ⟨?_, hn2.trans hnext, fun ρ => ?_⟩
                · rcases hc2 with rfl | ⟨θ2, I2, hlt2⟩
                  · exact hcase
                  · rcases hcase with rfl | ⟨θ', I', hlt⟩
                    · exact .inr ⟨θ2, I2, hlt2⟩
                    · exact .inr ⟨θ2, I2, by omega⟩
                · rw [hs2 ρ, hsol ρ]
                  simp [Tys.sub, and_assoc]

theorem unify_all (j : Nat) : ∀ {s : St} {θ : Nat → Ty}, Inv ar G s θ → unbound s = j →
    (∀ t1 t2, Good ar G s.next t1 → Good ar G s.next t2 → Unified ar G s θ (fun ρ => t1.sub ρ = t2.sub ρ) fun n => unify n s t1 t2)
    ∧ (∀ ts1 ts2 : Tys, ts1.All (fun v => v < s.next ∧ ¬ G v) → ts1.WF ar → ts2.All (fun v => v < s.next ∧ ¬ G v) → ts2.WF ar → ts1.length = ts2.length →
          Unified ar G s θ (fun ρ => ts1.sub ρ = ts2.sub ρ) fun n => unifyAll n s ts1 ts2) := by
  induction j using Nat.strongRecOn with
  | ind j ih =>
    intro s θ I hj
    have h := fun k => unify_ev k I j hj (fun s' θ' I' hlt => ih (unbound s') hlt I' rfl)
    exact ⟨fun t1 t2 g1 g2 => (h _).1 t1 t2 (Nat.le_refl _) g1 g2,
      fun ts1 ts2 a1 w1 a2 w2 hl => (h _).2 ts1 ts2 (Nat.le_refl _) a1 w1 a2 w2 hl⟩

/-- `unify` ends, and tells whether the types can be made equal; if so it binds variables to exactly that
effect. -/
theorem unify_ok (I : Inv ar G s θ) {t1 t2 : Ty} (g1 : Good ar G s.next t1) (g2 : Good ar G s.next t2) :
    ∃ b s', Ev (fun n => unify n s t1 t2) (.ok (b, s')) ∧ (Ext s s' ∧ s'.unres = s.unres) ∧
      match b with
      | true => (∃ θ', Inv ar G s' θ') ∧ s'.next = s.next ∧ ∀ ρ, Sol s'.bind ρ ↔ Sol s.bind ρ ∧ t1.sub ρ = t2.sub ρ
      | false => ∀ ρ, Sol s.bind ρ → t1.sub ρ ≠ t2.sub ρ := by
  obtain ⟨b, s', hev, hx, hm⟩ := (unify_all _ I rfl).1 t1 t2 g1 g2
  refine ⟨b, s', hev, hx, ?_⟩
  cases b with
  | false => exact hm
  | true =>
    refine ⟨?_, hm.2⟩
    rcases hm.1 with rfl | ⟨θ', I', _⟩
    · exact ⟨θ, I⟩
    · exact ⟨θ', I'⟩

end Voss.TC
