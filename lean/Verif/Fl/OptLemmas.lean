import Verif.Fl.AbsLemmas
import Verif.Bdd.BinderLemmas
/-
Optimise preserves the values of terms.
-/
namespace Voss.Fl
open Voss.Bdd (decimal decimal_inj)

theorem zzName_inj {i j : Nat} (h : zzName i = zzName j) : i = j :=
  decimal_inj (List.append_cancel_left h)

/-- All names of a term, free and bound. -/
def Term.names : Term → List Name
  | .var x => [x]
  | .con _ => []
  | .app a b => a.names ++ b.names
  | .lam x b => x :: b.names

def Term.binders : Term → List Name
  | .var _ => []
  | .con _ => []
  | .app a b => a.binders ++ b.binders
  | .lam x b => x :: b.binders

theorem free_names {z : Name} {t : Term} (h : isFree z t = true) : z ∈ t.names := by
  induction t with
  | var x => simpa [isFree, Term.names] using h
  | con c => simp [isFree] at h
  | app a b iha ihb =>
    simp only [isFree, Bool.or_eq_true] at h
    rcases h with h | h
    · exact List.mem_append_left _ (iha h)
    · exact List.mem_append_right _ (ihb h)
  | lam x b ih =>
    simp only [isFree] at h
    split at h
    · cases h
    · exact List.mem_cons_of_mem _ (ih h)

variable {D : Type} (A : Alg D)

/-- Values depend on the free variables only. -/
theorem val_congr (t : Term) (ρ ρ' : Env D) (h : ∀ x, isFree x t = true → ρ x = ρ' x) (as : List D) (d : D) :
    Val A t ρ as d ↔ Val A t ρ' as d := by
  induction t generalizing ρ ρ' as d with
  | var x => simp only [Val]; rw [h x (by simp [isFree])]
  | con c => exact Iff.rfl
  | app a b iha ihb =>
    have ha := iha ρ ρ' (fun x hx => h x (by simp [isFree, hx]))
    have hb := ihb ρ ρ' (fun x hx => h x (by simp [isFree, hx]))
    simp only [Val, ha, hb]
  | lam x b ih =>
    have key : ∀ v as d, Val A b (ρ.set x v) as d ↔ Val A b (ρ'.set x v) as d := fun v as d =>
      ih _ _ (fun y hy => by
        by_cases e : y = x
        · subst e; rw [Env.set_same, Env.set_same]
        · rw [Env.set_other _ _ e, Env.set_other _ _ e]
          exact h y (by simp [isFree, e, hy])) as d
    cases as with
    | nil => simp only [Val]; exact forall_congr' fun v => key v _ _
    | cons v as => exact key v as d

/-- Replacing a variable by a variable, when neither is bound in the term. -/
def naive (old new : Name) : Term → Term
  | .var x => if x = old then .var new else .var x
  | .con c => .con c
  | .app a b => .app (naive old new a) (naive old new b)
  | .lam x b => .lam x (naive old new b)

theorem naive_size (old new : Name) (t : Term) : (naive old new t).size = t.size := by
  induction t with
  | var x => simp only [naive]; split <;> rfl
  | con c => rfl
  | app a b iha ihb => simp [naive, Term.size, iha, ihb]
  | lam x b ih => simp [naive, Term.size, ih]

theorem naive_binders (old new : Name) (t : Term) : (naive old new t).binders = t.binders := by
  induction t with
  | var x => simp only [naive]; split <;> rfl
  | con c => rfl
  | app a b iha ihb => simp [naive, Term.binders, iha, ihb]
  | lam x b ih => simp [naive, Term.binders, ih]

theorem substF_naive (k : Nat) (old new : Name) (t : Term) (n : Nat) (hk : t.size ≤ k)
    (ho : old ∉ t.binders) (hn : new ∉ t.binders) : substF k old new t n = (naive old new t, n) := by
  induction k generalizing t with
  | zero => cases t <;> simp [Term.size] at hk
  | succ k ih =>
    cases t with
    | var x => rfl
    | con c => rfl
    | app a b =>
      simp only [Term.size] at hk
      simp only [Term.binders, List.mem_append, not_or] at ho hn
      simp only [substF, naive]
      rw [ih a (by omega) ho.1 hn.1]
      simp only
      rw [ih b (by omega) ho.2 hn.2]
    | lam x b =>
      simp only [Term.size] at hk
      simp only [Term.binders, List.mem_cons, not_or] at ho hn
      simp only [substF, naive]
      rw [if_neg (fun e => ho.1 e.symm), if_pos (fun e => hn.1 e.symm), ih b (by omega) ho.2 hn.2]

theorem subst_naive (old new : Name) (t : Term) (n : Nat)
    (ho : old ∉ t.binders) (hn : new ∉ t.binders) : subst old new t n = (naive old new t, n) :=
  substF_naive _ _ _ _ _ (Nat.le_refl _) ho hn

theorem naive_free {old new : Name} {t : Term} (ho : old ∉ t.binders) {z : Name}
    (h : isFree z (naive old new t) = true) : z = new ∨ (isFree z t = true ∧ z ≠ old) := by
  induction t with
  | var x =>
    simp only [naive] at h
    split at h
    · left; simpa [isFree] using h
    · rename_i hx
      have : z = x := by simpa [isFree] using h
      subst this
      exact Or.inr ⟨by simp [isFree], hx⟩
  | con c => simp [naive, isFree] at h
  | app a b iha ihb =>
    simp only [Term.binders, List.mem_append, not_or] at ho
    simp only [naive, isFree, Bool.or_eq_true] at h ⊢
    rcases h with h | h
    · rcases iha ho.1 h with h | h
      · exact Or.inl h
      · exact Or.inr ⟨Or.inl h.1, h.2⟩
    · rcases ihb ho.2 h with h | h
      · exact Or.inl h
      · exact Or.inr ⟨Or.inr h.1, h.2⟩
  | lam x b ih =>
    simp only [Term.binders, List.mem_cons, not_or] at ho
    simp only [naive, isFree] at h ⊢
    split at h
    · cases h
    · rename_i e
      rw [if_neg e]
      exact ih ho.2 h

theorem set_set_comm (ρ : Env D) {x y : Name} (u v : D) (h : x ≠ y) :
    (ρ.set x u).set y v = (ρ.set y v).set x u := by
  funext z
  simp only [Env.set]
  by_cases h1 : z = x
  · subst h1; simp [h]
  · simp [h1]

theorem val_naive {old new : Name} (t : Term) (ho : old ∉ t.binders) (hn : new ∉ t.binders) (ρ : Env D)
    (as : List D) (d : D) : Val A (naive old new t) ρ as d ↔ Val A t (ρ.set old (ρ new)) as d := by
  induction t generalizing ρ as d with
  | var x =>
    simp only [naive]
    split
    · rename_i e; subst e; simp only [Val, Env.set_same]
    · rename_i e; simp only [Val, Env.set_other _ _ e]
  | con c => exact Iff.rfl
  | app a b iha ihb =>
    simp only [Term.binders, List.mem_append, not_or] at ho hn
    simp only [naive, Val, iha ho.1 hn.1, ihb ho.2 hn.2]
  | lam x b ih =>
    simp only [Term.binders, List.mem_cons, not_or] at ho hn
    have key : ∀ v as d, Val A (naive old new b) (ρ.set x v) as d ↔
        Val A b ((ρ.set old (ρ new)).set x v) as d := by
      intro v as d
      rw [ih ho.2 hn.2, Env.set_other ρ v hn.1, set_set_comm ρ _ _ (fun e => ho.1 e.symm)]
    cases as with
    | nil => simp only [naive, Val]; exact forall_congr' fun v => key v _ _
    | cons v as => exact key v as d

/-- No name of the program has the form the compiler generates. -/
def Term.NoZZ (t : Term) : Prop := ∀ x ∈ t.names, ∀ j, x ≠ zzName j

theorem plain_lam (x : Name) (b : Term) : (Term.lam x b).plain = .lam x (rmNamedArg b).plain := by
  unfold rmNamedArg
  split
  · simp [Term.plain]
  · rename_i h
    rw [Term.plain]
    exact h

theorem rmNamedArg_names (b : Term) : ∀ x ∈ (rmNamedArg b).names, x ∈ b.names := by
  intro x hx
  unfold rmNamedArg at hx
  split at hx
  · simp [Term.names, hx]
  · exact hx

/-- What `mk_uniq_names` gives. -/
structure Uniq (t : Term) (n : Nat) (r : Term × Nat) : Prop where
  le : n ≤ r.2
  bind : ∀ z ∈ r.1.binders, ∃ j, n ≤ j ∧ j < r.2 ∧ z = zzName j
  nodup : r.1.binders.Nodup
  free : ∀ z, isFree z r.1 = true → z ∈ t.names
  val : ∀ {D : Type} (A : Alg D) (ρ : Env D) (as : List D) (d : D), Val A r.1 ρ as d ↔ Val A t.plain ρ as d

theorem mkUniq_ok (m : Nat) : ∀ (t : Term) (n : Nat), t.size ≤ m → t.NoZZ → Uniq t n (mkUniq t n) := by
  induction m with
  | zero => intro t n h; cases t <;> simp [Term.size] at h
  | succ m ih =>
    intro t n hm hz
    cases t with
    | var x =>
      rw [mkUniq]
      exact ⟨Nat.le_refl _, fun z h => by simp [Term.binders] at h, List.nodup_nil,
        fun z h => free_names h, fun A ρ as d => Iff.rfl⟩
    | con c =>
      rw [mkUniq]
      exact ⟨Nat.le_refl _, fun z h => by simp [Term.binders] at h, List.nodup_nil,
        fun z h => free_names h, fun A ρ as d => Iff.rfl⟩
    | app a b =>
      simp only [Term.size] at hm
      have ha := ih a n (by omega) (fun x hx => hz x (List.mem_append_left _ hx))
      rw [mkUniq]
      generalize mkUniq a n = ra at ha
      obtain ⟨e, n1⟩ := ra
      have hb := ih b n1 (by omega) (fun x hx => hz x (List.mem_append_right _ hx))
      dsimp only
      generalize mkUniq b n1 = rb at hb
      obtain ⟨f, n2⟩ := rb
      dsimp only
      have l1 := ha.le
      have l2 := hb.le
      dsimp only at l1 l2
      refine ⟨by dsimp only; omega, ?_, ?_, ?_, ?_⟩
      · intro z hz
        rcases List.mem_append.1 hz with h | h
        · obtain ⟨j, h1, h2, h3⟩ := ha.bind z h
          exact ⟨j, h1, by dsimp only at h2 ⊢; omega, h3⟩
        · obtain ⟨j, h1, h2, h3⟩ := hb.bind z h
          exact ⟨j, by omega, h2, h3⟩
      · refine List.nodup_append.2 ⟨ha.nodup, hb.nodup, ?_⟩
        rintro z hza w hwb rfl
        obtain ⟨j, h1, h2, h3⟩ := ha.bind z hza
        obtain ⟨k, k1, k2, k3⟩ := hb.bind z hwb
        have := zzName_inj (h3.symm.trans k3)
        dsimp only at h2
        omega
      · intro z h
        simp only [isFree, Bool.or_eq_true] at h
        rcases h with h | h
        · exact List.mem_append_left _ (ha.free z h)
        · exact List.mem_append_right _ (hb.free z h)
      · intro D A ρ as d
        simp only [Val, Term.plain, ha.val A, hb.val A]
    | lam x b =>
      simp only [Term.size] at hm
      have hsz := rmNamedArg_size b
      have hzb : (rmNamedArg b).NoZZ := fun y hy => hz y (List.mem_cons_of_mem _ (rmNamedArg_names b y hy))
      have hb := ih (rmNamedArg b) (n + 1) (by omega) hzb
      rw [mkUniq]
      dsimp only
      generalize mkUniq (rmNamedArg b) (n + 1) = rb at hb
      obtain ⟨e, n1⟩ := rb
      dsimp only
      have l1 := hb.le
      dsimp only at l1
      have hx : x ∉ e.binders := fun h => by
        obtain ⟨j, _, _, h3⟩ := hb.bind x h
        exact hz x List.mem_cons_self j h3
      have hx2 : zzName n ∉ e.binders := fun h => by
        obtain ⟨j, h1, _, h3⟩ := hb.bind _ h
        have := zzName_inj h3
        omega
      have hnf : ∀ z, isFree z e = true → z ≠ zzName n := fun z h => hzb z (hb.free z h) n
      rw [subst_naive x (zzName n) e n1 hx hx2]
      refine ⟨by dsimp only; omega, ?_, ?_, ?_, ?_⟩
      · intro z h
        simp only [Term.binders, naive_binders, List.mem_cons] at h
        rcases h with rfl | h
        · exact ⟨n, Nat.le_refl _, by dsimp only; omega, rfl⟩
        · obtain ⟨j, h1, h2, h3⟩ := hb.bind z h
          exact ⟨j, by omega, h2, h3⟩
      · simp only [Term.binders, naive_binders]
        exact List.nodup_cons.2 ⟨hx2, hb.nodup⟩
      · intro z h
        simp only [isFree] at h
        split at h
        · cases h
        · rename_i hne
          rcases naive_free hx h with h | h
          · exact absurd h hne
          · exact List.mem_cons_of_mem _ (rmNamedArg_names b z (hb.free z h.1))
      · intro D A ρ as d
        rw [plain_lam]
        have key : ∀ v as d, Val A (naive x (zzName n) e) (ρ.set (zzName n) v) as d ↔
            Val A (rmNamedArg b).plain (ρ.set x v) as d := by
          intro v as d
          rw [val_naive A e hx hx2, Env.set_same, ← hb.val A]
          refine val_congr A e _ _ (fun y hy => ?_) as d
          by_cases e : y = x
          · subst e; rw [Env.set_same, Env.set_same]
          · rw [Env.set_other _ _ e, Env.set_other _ _ e, Env.set_other _ _ (hnf y hy)]
        cases as with
        | nil => simp only [Val]; exact forall_congr' fun v => key v _ _
        | cons v as => exact key v as d

/-- What `remove_aliases` gives. -/
structure Unal (t : Term) (n : Nat) (r : Term × Nat) : Prop where
  cnt : r.2 = n
  bind : r.1.binders.Sublist t.binders
  free : ∀ z, isFree z r.1 = true → isFree z t = true
  val : ∀ {D : Type} (A : Alg D) (ρ : Env D) (as : List D) (d : D), Val A r.1 ρ as d ↔ Val A t ρ as d

/-- Bound names are different from each other and from the free ones. -/
structure Term.Apart (t : Term) : Prop where
  nodup : t.binders.Nodup
  free : ∀ z ∈ t.binders, isFree z t = false

theorem Term.Apart.left {a b : Term} (h : (Term.app a b).Apart) : a.Apart where
  nodup := (List.nodup_append.1 h.nodup).1
  free z hz := by
    have := h.free z (List.mem_append_left _ hz)
    simp only [isFree, Bool.or_eq_false_iff] at this
    exact this.1

theorem Term.Apart.right {a b : Term} (h : (Term.app a b).Apart) : b.Apart where
  nodup := (List.nodup_append.1 h.nodup).2.1
  free z hz := by
    have := h.free z (List.mem_append_right _ hz)
    simp only [isFree, Bool.or_eq_false_iff] at this
    exact this.2

theorem Term.Apart.body {x : Name} {b : Term} (h : (Term.lam x b).Apart) : b.Apart where
  nodup := (List.nodup_cons.1 h.nodup).2
  free z hz := by
    have := h.free z (List.mem_cons_of_mem _ hz)
    simp only [isFree] at this
    split at this
    · rename_i e
      subst e
      exact absurd hz (List.nodup_cons.1 h.nodup).1
    · exact this

theorem Unal.app {a b : Term} {n : Nat} {ra rb : Term × Nat} (ha : Unal a n ra) (hb : Unal b n rb) :
    Unal (.app a b) n (.app ra.1 rb.1, n) where
  cnt := rfl
  bind := List.Sublist.append ha.bind hb.bind
  free z h := by
    simp only [isFree, Bool.or_eq_true] at h ⊢
    exact h.imp (ha.free z) (hb.free z)
  val A ρ as d := by simp only [Val, ha.val A, hb.val A]

theorem Unal.refl (t : Term) (n : Nat) : Unal t n (t, n) :=
  ⟨rfl, List.Sublist.refl _, fun _ h => h, fun _ _ _ _ => Iff.rfl⟩

theorem rmAliases_ok (t : Term) (n : Nat) (h : t.Apart) : Unal t n (rmAliases t n) := by
  induction t, n using rmAliases.induct with
  | case1 x n => exact Unal.refl _ _
  | case2 c n => exact Unal.refl _ _
  | case3 x f y n f' n' hf ih =>
    have hl := h.left.body
    have u := ih hl
    rw [rmAliases]
    generalize rmAliases f n = r at *
    obtain ⟨g, k⟩ := r
    obtain rfl : k = n := u.cnt
    cases hf
    dsimp only
    have hb : ∀ z ∈ f'.binders, z ∈ f.binders := fun z hz => u.bind.subset hz
    have hx : x ∉ f'.binders := fun hx => (List.nodup_cons.1 h.left.nodup).1 (hb x hx)
    have hy : y ∉ f'.binders := fun hy => by
      have := h.free y (List.mem_append_left _ (List.mem_cons_of_mem _ (hb y hy)))
      simp [isFree] at this
    rw [subst_naive x y f' _ hx hy]
    refine ⟨rfl, ?_, ?_, ?_⟩
    · simp only [naive_binders, Term.binders, List.append_nil]
      exact List.Sublist.cons _ u.bind
    · intro z hz
      rcases naive_free hx hz with e | ⟨h1, h2⟩
      · subst e; simp [isFree]
      · simp [isFree, h2, u.free z h1]
    · intro D A ρ as d
      rw [val_naive A f' hx hy, u.val A]
      simp [Val, Alg.apps]
  | case4 a b n hne ea na ha eb nb hb iha ihb =>
    have ua := iha h.left
    rw [rmAliases]
    · rw [ha] at ua
      obtain rfl : na = n := ua.cnt
      have ub := ihb h.right
      rw [ha]
      dsimp only
      rw [hb] at ub ⊢
      obtain rfl : nb = _ := ub.cnt
      exact Unal.app ua ub
    · exact hne
  | case5 x b n e k hb ih =>
    have u := ih h.body
    rw [rmAliases, hb]
    rw [hb] at u
    refine ⟨u.cnt, List.Sublist.cons_cons _ u.bind, ?_, ?_⟩
    · intro z hz
      simp only [isFree] at hz ⊢
      split at hz
      · cases hz
      · rename_i e
        rw [if_neg e]
        exact u.free z hz
    · intro D A ρ as d
      cases as with
      | nil => simp only [Val]; exact forall_congr' fun v => u.val A _ _ _
      | cons v as => exact u.val A _ _ _

/-- Optimise keeps the values. -/
theorem optimise_val (t : Term) (h : t.NoZZ) (ρ : Env D) (as : List D) (d : D) :
    Val A (optimise t) ρ as d ↔ Val A t.plain ρ as d := by
  have u := mkUniq_ok t.size t 0 (Nat.le_refl _) h
  unfold optimise
  generalize mkUniq t 0 = r at u
  obtain ⟨t1, n⟩ := r
  dsimp only
  have ap : t1.Apart := ⟨u.nodup, fun z hz => by
    obtain ⟨j, _, _, h3⟩ := u.bind z hz
    cases hc : isFree z t1 with
    | false => rfl
    | true => exact absurd h3 (h z (u.free z hc) j)⟩
  rw [(rmAliases_ok t1 n ap).val A, u.val A]

theorem compileTerm_val (t : Term) (h : t.NoZZ) (ρ : Env D) : Val A t.plain ρ [] ((compileTerm t).ev A ρ) := by
  rw [← optimise_val A t h]
  unfold compileTerm
  dsimp only
  split
  · exact compileSmall_val A _ ρ
  · exact compileBig_val A _ ρ

end Voss.Fl
