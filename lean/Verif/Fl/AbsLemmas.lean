import Verif.Fl.Spec
import Verif.Fl.Compile
import Mathlib.Tactic.Tauto
/-
Both abstraction algorithms are correct.
-/
namespace Voss.Fl

/-! ### strcmp and sets -/

theorem strcmp_eq : ∀ {a b : Name}, strcmp a b = .eq → a = b
  | [], [], _ => rfl
  | [], _ :: _, h => by simp [strcmp] at h
  | _ :: _, [], h => by simp [strcmp] at h
  | a :: as, b :: bs, h => by
    unfold strcmp at h
    split at h
    · cases h
    · split at h
      · cases h
      · have h1 : a.toNat = b.toNat := by omega
        have h2 : a = b := Char.ext (UInt32.toNat_inj.1 h1)
        rw [h2, strcmp_eq h]

theorem strcmp_self : ∀ a : Name, strcmp a a = .eq
  | [] => rfl
  | a :: as => by simp [strcmp, strcmp_self as]

theorem strcmp_gt : ∀ {a b : Name}, strcmp a b = .gt → strcmp b a = .lt
  | [], [], h => by simp [strcmp] at h
  | [], _ :: _, h => by simp [strcmp] at h
  | _ :: _, [], _ => rfl
  | a :: as, b :: bs, h => by
    unfold strcmp at h ⊢
    by_cases h1 : a.toNat < b.toNat
    · simp [h1] at h
    · by_cases h2 : b.toNat < a.toNat
      · simp [h2]
      · simp only [h1, h2, if_false] at h ⊢
        exact strcmp_gt h

theorem strcmp_trans : ∀ {a b c : Name}, strcmp a b = .lt → strcmp b c = .lt → strcmp a c = .lt
  | [], [], _, h, _ => by simp [strcmp] at h
  | [], _ :: _, [], _, h => by simp [strcmp] at h
  | [], _ :: _, _ :: _, _, _ => rfl
  | _ :: _, [], _, h, _ => by simp [strcmp] at h
  | _ :: _, _ :: _, [], _, h => by simp [strcmp] at h
  | a :: as, b :: bs, c :: cs, h, h' => by
    unfold strcmp at h h' ⊢
    by_cases h1 : a.toNat < c.toNat
    · simp [h1]
    · by_cases hab : a.toNat < b.toNat
      · by_cases hbc : b.toNat < c.toNat
        · omega
        · by_cases hcb : c.toNat < b.toNat
          · simp [hbc, hcb] at h'
          · omega
      · by_cases hba : b.toNat < a.toNat
        · simp [hab, hba] at h
        · simp only [hab, hba, if_false] at h
          by_cases hbc : b.toNat < c.toNat
          · omega
          · by_cases hcb : c.toNat < b.toNat
            · simp [hbc, hcb] at h'
            · simp only [hbc, hcb, if_false] at h'
              have h2 : ¬ c.toNat < a.toNat := by omega
              simp only [h1, h2, if_false]
              exact strcmp_trans h h'

theorem mem_setUnion (s1 s2 : List Name) (x : Name) : x ∈ setUnion s1 s2 ↔ x ∈ s1 ∨ x ∈ s2 := by
  induction s1, s2 using setUnion.induct with
  | case1 s2 => simp [setUnion]
  | case2 s1 h => cases s1 with
    | nil => simp [setUnion]
    | cons a as => simp [setUnion]
  | case3 a as b bs h ih => rw [setUnion, h]; simp only [List.mem_cons, ih]; tauto
  | case4 a as b bs h ih => rw [setUnion, h]; simp only [List.mem_cons, ih]; tauto
  | case5 a as b bs h ih =>
    rw [setUnion, h]; simp only [List.mem_cons, ih]
    rw [strcmp_eq h]; tauto

/-- Strictly increasing lists. -/
def Sorted (s : List Name) : Prop := s.Pairwise (fun a b => strcmp a b = .lt)

theorem sorted_setUnion (s1 s2 : List Name) (h1 : Sorted s1) (h2 : Sorted s2) : Sorted (setUnion s1 s2) := by
  induction s1, s2 using setUnion.induct with
  | case1 s2 => simpa [setUnion] using h2
  | case2 s1 h => cases s1 with
    | nil => simpa [setUnion] using h2
    | cons a as => simpa [setUnion] using h1
  | case3 a as b bs h ih =>
    rw [setUnion, h]
    have h1' := List.pairwise_cons.1 h1
    refine List.pairwise_cons.2 ⟨fun y hy => ?_, ih h1'.2 h2⟩
    rcases (mem_setUnion _ _ _).1 hy with hy | hy
    · exact h1'.1 y hy
    · rcases List.mem_cons.1 hy with rfl | hy
      · exact h
      · exact strcmp_trans h ((List.pairwise_cons.1 h2).1 y hy)
  | case4 a as b bs h ih =>
    rw [setUnion, h]
    have h2' := List.pairwise_cons.1 h2
    refine List.pairwise_cons.2 ⟨fun y hy => ?_, ih h1 h2'.2⟩
    rcases (mem_setUnion _ _ _).1 hy with hy | hy
    · rcases List.mem_cons.1 hy with rfl | hy
      · exact strcmp_gt h
      · exact strcmp_trans (strcmp_gt h) ((List.pairwise_cons.1 h1).1 y hy)
    · exact h2'.1 y hy
  | case5 a as b bs h ih =>
    rw [setUnion, h]
    have e := strcmp_eq h
    have h1' := List.pairwise_cons.1 h1
    have h2' := List.pairwise_cons.1 h2
    refine List.pairwise_cons.2 ⟨fun y hy => ?_, ih h1'.2 h2'.2⟩
    rcases (mem_setUnion _ _ _).1 hy with hy | hy
    · exact e ▸ h1'.1 y hy
    · exact h2'.1 y hy

theorem removeElement_sub (s : List Name) (x y : Name) : y ∈ removeElement s x → y ∈ s := by
  induction s with
  | nil => simp [removeElement]
  | cons a s ih =>
    unfold removeElement
    split
    · intro h; exact List.mem_cons_of_mem _ h
    · intro h
      rcases List.mem_cons.1 h with rfl | h
      · exact List.mem_cons_self
      · exact List.mem_cons_of_mem _ (ih h)

theorem sorted_removeElement (s : List Name) (x : Name) (h : Sorted s) : Sorted (removeElement s x) := by
  induction s with
  | nil => exact h
  | cons a s ih =>
    have h' := List.pairwise_cons.1 h
    unfold removeElement
    split
    · exact h'.2
    · exact List.pairwise_cons.2 ⟨fun y hy => h'.1 y (removeElement_sub _ _ _ hy), ih h'.2⟩

theorem mem_removeElement (s : List Name) (x y : Name) (h : Sorted s) :
    y ∈ removeElement s x ↔ y ∈ s ∧ y ≠ x := by
  induction s with
  | nil => simp [removeElement]
  | cons a s ih =>
    have h' := List.pairwise_cons.1 h
    unfold removeElement
    split
    · rename_i e; subst e
      constructor
      · intro hy
        refine ⟨List.mem_cons_of_mem _ hy, ?_⟩
        rintro rfl
        have := h'.1 _ hy
        rw [strcmp_self] at this; cases this
      · rintro ⟨hy, hne⟩
        rcases List.mem_cons.1 hy with rfl | hy
        · exact absurd rfl hne
        · exact hy
    · rename_i hne
      simp only [List.mem_cons, ih h'.2]
      constructor
      · rintro (rfl | ⟨h1, h2⟩)
        · exact ⟨Or.inl rfl, hne⟩
        · exact ⟨Or.inr h1, h2⟩
      · rintro ⟨rfl | h1, h2⟩
        · exact Or.inl rfl
        · exact Or.inr ⟨h1, h2⟩

/-! ### The free variable table is right -/

/-- Entry of a term node. -/
def ATerm.ok : ATerm → Term → Prop
  | .var x, .var y => x = y
  | .con c, .con c' => c = c'
  | .app fs a b, .app a' b' => a.ok a' ∧ b.ok b' ∧ ∀ x, x ∈ fs ↔ isFree x (.app a' b') = true
  | .lam fs x b, .lam x' b' => x = x' ∧ b.ok b' ∧ ∀ y, y ∈ fs ↔ isFree y (.lam x' b') = true
  | _, _ => False

theorem createFreeTbl_ok (t : Term) :
    (createFreeTbl t).ok t ∧ Sorted (createFreeTbl t).set ∧
      ∀ x, x ∈ (createFreeTbl t).set ↔ isFree x t = true := by
  induction t with
  | var x =>
    refine ⟨rfl, List.pairwise_singleton _ _, fun y => ?_⟩
    simp [createFreeTbl, ATerm.set, isFree]
  | con c => exact ⟨rfl, List.Pairwise.nil, fun y => by simp [createFreeTbl, ATerm.set, isFree]⟩
  | app a b iha ihb =>
    have hm : ∀ x, x ∈ (createFreeTbl (.app a b)).set ↔ isFree x (.app a b) = true := by
      intro x
      show x ∈ setUnion _ _ ↔ _
      rw [mem_setUnion, iha.2.2 x, ihb.2.2 x]
      simp [isFree]
    exact ⟨⟨iha.1, ihb.1, hm⟩, sorted_setUnion _ _ iha.2.1 ihb.2.1, hm⟩
  | lam x b ih =>
    have hm : ∀ y, y ∈ (createFreeTbl (.lam x b)).set ↔ isFree y (.lam x b) = true := by
      intro y
      show y ∈ removeElement _ _ ↔ _
      rw [mem_removeElement _ _ _ ih.2.1, ih.2.2 y]
      simp only [isFree]
      by_cases h : y = x
      · simp [h]
      · simp [h]
    exact ⟨⟨rfl, ih.1, hm⟩, sorted_removeElement _ _ ih.2.1, hm⟩

/-- All entries of a code graph are the sets of its variables. -/
def ACode.WF : ACode → Prop
  | .var _ => True
  | .con _ => True
  | .app fs a b => a.WF ∧ b.WF ∧ ∀ x, x ∈ fs ↔ x ∈ a.erase.fv ++ b.erase.fv

theorem ACode.mem_set {e : ACode} (h : e.WF) (x : Name) : x ∈ e.set ↔ x ∈ e.erase.fv := by
  cases e with
  | var y => rfl
  | con c => rfl
  | app fs a b => exact h.2.2 x

theorem WF_mk1 {p : Con} {e : ACode} (h : e.WF) : (mk1 p e).WF :=
  ⟨trivial, h, fun x => by simp [ACode.erase, Code.fv, ACode.mem_set h x]⟩

theorem WF_mk2 {r q : ACode} (hr : r.WF) (hq : q.WF) : (mk2 r q).WF :=
  ⟨hr, hq, fun x => by simp [mem_setUnion, ACode.mem_set hr x, ACode.mem_set hq x]⟩

theorem cachedIsFree_false {e : ACode} (h : e.WF) {x : Name} :
    cachedIsFree x e = false ↔ x ∉ e.erase.fv := by
  unfold cachedIsFree
  rw [← ACode.mem_set h x]
  simp

variable {D : Type} (A : Alg D)

theorem Env.set_same (ρ : Env D) (x : Name) (d : D) : (ρ.set x d) x = d := by simp [Env.set]

theorem Env.set_other (ρ : Env D) {x y : Name} (d : D) (h : y ≠ x) : (ρ.set x d) y = ρ y := by
  simp [Env.set, h]

/-- The value of code depends on its variables only. -/
theorem ev_congr (e : Code) (ρ ρ' : Env D) (h : ∀ x ∈ e.fv, ρ x = ρ' x) : e.ev A ρ = e.ev A ρ' := by
  induction e with
  | var x => exact h x (by simp [Code.fv])
  | con c => rfl
  | app a b iha ihb =>
    simp only [Code.ev]
    rw [iha (fun x hx => h x (by simp [Code.fv, hx])), ihb (fun x hx => h x (by simp [Code.fv, hx]))]

theorem ev_set_notin (e : Code) (ρ : Env D) (x : Name) (d : D) (h : x ∉ e.fv) :
    e.ev A (ρ.set x d) = e.ev A ρ :=
  ev_congr A e _ _ fun y hy => Env.set_other ρ d (fun e => h (e ▸ hy))

/-- What abstraction must do. -/
structure Abs (x : Name) (e r : ACode) : Prop where
  wf : r.WF
  fv : ∀ y, y ∈ r.erase.fv ↔ y ∈ e.erase.fv ∧ y ≠ x
  ev : ∀ {D : Type} (A : Alg D) (ρ : Env D) (d : D), A.app (r.erase.ev A ρ) d = e.erase.ev A (ρ.set x d)

theorem abs_K {x : Name} {e : ACode} (h : e.WF) (hx : x ∉ e.erase.fv) : Abs x e (mk1 .K e) where
  wf := WF_mk1 h
  fv y := by
    simp only [mk1, ACode.erase, Code.fv, List.nil_append]
    exact ⟨fun hy => ⟨hy, fun e => hx (e ▸ hy)⟩, fun hy => hy.1⟩
  ev A ρ d := by
    simp only [mk1, ACode.erase, Code.ev]
    rw [A.law_K, ev_set_notin A _ _ _ _ hx]

theorem abstractRec_ok (x : Name) (e : ACode) (h : e.WF) : Abs x e (abstractRec x e) := by
  induction e with
  | var y =>
    unfold abstractRec
    split
    · rename_i hc; exact abs_K h ((cachedIsFree_false h).1 hc)
    · rename_i hc
      have hxy : x = y := by simpa [cachedIsFree, ACode.set] using hc
      subst hxy
      refine ⟨trivial, fun y => ?_, fun A ρ d => ?_⟩
      · simp [ACode.erase, Code.fv]
      · simp [ACode.erase, Code.ev, A.law_I, Env.set]
  | con c =>
    unfold abstractRec
    have hc : cachedIsFree x (.con c) = false := rfl
    rw [if_pos hc]
    exact abs_K h ((cachedIsFree_false h).1 hc)
  | app fs e1 e2 ih1 ih2 =>
    have w1 := h.1
    have w2 := h.2.1
    have ih1 := ih1 w1
    have ih2 := ih2 w2
    unfold abstractRec
    split
    · rename_i hc; exact abs_K h ((cachedIsFree_false h).1 hc)
    · rename_i hc
      dsimp only
      split
      · rename_i h1
        have n1 := (cachedIsFree_false w1).1 h1
        split
        · rename_i hI
          rw [hI] at ih2
          have f2 : ∀ y, ¬ (y ∈ e2.erase.fv ∧ y ≠ x) := fun y hy => by
            have := (ih2.fv y).2 hy
            simp [ACode.erase, Code.fv] at this
          refine ⟨w1, fun y => ?_, fun A ρ d => ?_⟩
          · simp only [ACode.erase, Code.fv, List.mem_append]
            constructor
            · intro hy; exact ⟨Or.inl hy, fun e => n1 (e ▸ hy)⟩
            · rintro ⟨hy | hy, hne⟩
              · exact hy
              · exact absurd ⟨hy, hne⟩ (f2 y)
          · have := ih2.ev A ρ d
            simp only [ACode.erase, Code.ev, A.law_I] at this ⊢
            rw [ev_set_notin A _ _ _ _ n1, ← this]
        · rename_i fs1 fs2 q r hB
          rw [hB] at ih2
          have wq : q.WF := ih2.wf.1.2.1
          have wr : r.WF := ih2.wf.2.1
          refine ⟨WF_mk2 (WF_mk2 (WF_mk1 w1) wq) wr, fun y => ?_, fun A ρ d => ?_⟩
          · have := ih2.fv y
            simp only [mk1, mk2, ACode.erase, Code.fv, List.mem_append, List.nil_append] at this ⊢
            have hy : y ∈ e1.erase.fv → y ≠ x := fun hy e => n1 (e ▸ hy)
            tauto
          · have := ih2.ev A ρ d
            simp only [mk1, mk2, ACode.erase, Code.ev, A.law_B, A.law_Bstar] at this ⊢
            rw [this, ev_set_notin A _ _ _ _ n1]
        · refine ⟨WF_mk2 (WF_mk1 w1) ih2.wf, fun y => ?_, fun A ρ d => ?_⟩
          · have := ih2.fv y
            simp only [mk1, mk2, ACode.erase, Code.fv, List.mem_append, List.nil_append] at this ⊢
            have hy : y ∈ e1.erase.fv → y ≠ x := fun hy e => n1 (e ▸ hy)
            tauto
          · have := ih2.ev A ρ d
            simp only [mk1, mk2, ACode.erase, Code.ev, A.law_B] at this ⊢
            rw [this, ev_set_notin A _ _ _ _ n1]
      · split
        · rename_i h2
          have n2 := (cachedIsFree_false w2).1 h2
          split
          · rename_i fs1 fs2 p q hB
            rw [hB] at ih1
            have wp : p.WF := ih1.wf.1.2.1
            have wq : q.WF := ih1.wf.2.1
            refine ⟨WF_mk2 (WF_mk2 (WF_mk1 wp) wq) w2, fun y => ?_, fun A ρ d => ?_⟩
            · have := ih1.fv y
              simp only [mk1, mk2, ACode.erase, Code.fv, List.mem_append, List.nil_append] at this ⊢
              have hy : y ∈ e2.erase.fv → y ≠ x := fun hy e => n2 (e ▸ hy)
              tauto
            · have := ih1.ev A ρ d
              simp only [mk1, mk2, ACode.erase, Code.ev, A.law_B, A.law_C'] at this ⊢
              rw [this, ev_set_notin A _ _ _ _ n2]
          · refine ⟨WF_mk2 (WF_mk1 ih1.wf) w2, fun y => ?_, fun A ρ d => ?_⟩
            · have := ih1.fv y
              simp only [mk1, mk2, ACode.erase, Code.fv, List.mem_append, List.nil_append] at this ⊢
              have hy : y ∈ e2.erase.fv → y ≠ x := fun hy e => n2 (e ▸ hy)
              tauto
            · have := ih1.ev A ρ d
              simp only [mk1, mk2, ACode.erase, Code.ev, A.law_C] at this ⊢
              rw [this, ev_set_notin A _ _ _ _ n2]
        · split
          · rename_i fs1 fs2 p q hB
            rw [hB] at ih1
            have wp : p.WF := ih1.wf.1.2.1
            have wq : q.WF := ih1.wf.2.1
            refine ⟨WF_mk2 (WF_mk2 (WF_mk1 wp) wq) ih2.wf, fun y => ?_, fun A ρ d => ?_⟩
            · have := ih1.fv y
              have := ih2.fv y
              simp only [mk1, mk2, ACode.erase, Code.fv, List.mem_append, List.nil_append] at *
              tauto
            · have h1 := ih1.ev A ρ d
              have h2 := ih2.ev A ρ d
              simp only [mk1, mk2, ACode.erase, Code.ev, A.law_B, A.law_S'] at h1 h2 ⊢
              rw [h1, h2]
          · refine ⟨WF_mk2 (WF_mk1 ih1.wf) ih2.wf, fun y => ?_, fun A ρ d => ?_⟩
            · have := ih1.fv y
              have := ih2.fv y
              simp only [mk1, mk2, ACode.erase, Code.fv, List.mem_append, List.nil_append] at *
              tauto
            · have h1 := ih1.ev A ρ d
              have h2 := ih2.ev A ρ d
              simp only [mk1, mk2, ACode.erase, Code.ev, A.law_S] at h1 h2 ⊢
              rw [h1, h2]

/-- `compile_rec` keeps the variables, the entries stay right, and the code has the value of the term. -/
theorem compileRec_ok (a : ATerm) (t : Term) (h : a.ok t) :
    (compileRec a).WF ∧ (∀ x, x ∈ (compileRec a).erase.fv ↔ isFree x t = true) ∧
      ∀ {D : Type} (A : Alg D) (ρ : Env D) (as : List D),
        Val A t ρ as (A.apps ((compileRec a).erase.ev A ρ) as) := by
  induction a generalizing t with
  | var x =>
    cases t with
    | var y =>
      have : x = y := h
      subst this
      exact ⟨trivial, fun z => by simp [compileRec, ACode.erase, Code.fv, isFree], fun A ρ as => rfl⟩
    | _ => exact h.elim
  | con c =>
    cases t with
    | con c' =>
      have : c = c' := h
      subst this
      exact ⟨trivial, fun z => by simp [compileRec, ACode.erase, Code.fv, isFree], fun A ρ as => rfl⟩
    | _ => exact h.elim
  | app fs a b iha ihb =>
    cases t with
    | app a' b' =>
      obtain ⟨wa, fa, va⟩ := iha a' h.1
      obtain ⟨wb, fb, vb⟩ := ihb b' h.2.1
      have hf : ∀ x, x ∈ (compileRec a).erase.fv ++ (compileRec b).erase.fv ↔ isFree x (.app a' b') = true := by
        intro x
        simp [isFree, fa x, fb x]
      refine ⟨⟨wa, wb, fun x => (h.2.2 x).trans (hf x).symm⟩, hf, fun A ρ as => ?_⟩
      exact ⟨_, vb A ρ [], va A ρ (_ :: as)⟩
    | _ => exact h.elim
  | lam fs x b ih =>
    cases t with
    | lam x' b' =>
      obtain ⟨rfl, hb, _⟩ := h
      obtain ⟨w, f, v⟩ := ih b' hb
      have ha := abstractRec_ok x (compileRec b) w
      refine ⟨ha.wf, fun y => ?_, fun A ρ as => ?_⟩
      · rw [compileRec, ha.fv y, f y]
        by_cases hy : y = x
        · simp [isFree, hy]
        · simp [isFree, hy]
      · cases as with
        | nil =>
          intro d
          show Val A b' (ρ.set x d) [] (A.app ((abstractRec x (compileRec b)).erase.ev A ρ) d)
          rw [ha.ev A ρ d]
          exact v A _ []
        | cons d as =>
          show Val A b' (ρ.set x d) as (A.apps (A.app ((abstractRec x (compileRec b)).erase.ev A ρ) d) as)
          rw [ha.ev A ρ d]
          exact v A _ as
    | _ => exact h.elim

theorem compileSmall_val (t : Term) (ρ : Env D) : Val A t ρ [] ((compileSmall t).ev A ρ) :=
  (compileRec_ok _ t (createFreeTbl_ok t).1).2.2 A ρ []

theorem compileSmall_fv (t : Term) (x : Name) : x ∈ (compileSmall t).fv ↔ isFree x t = true :=
  (compileRec_ok _ t (createFreeTbl_ok t).1).2.1 x

/-! ### Large terms -/

/-- `np` lists some of the names of `vs`, in the order of their first occurrence and without repetition. -/
def Needs : List Name → List Name → Prop
  | [], np => np = []
  | v :: vs, np => if np.head? = some v then v ∉ np.tail ∧ Needs vs np.tail else v ∉ np ∧ Needs vs np

/-- Apply a value to the values of the needed variables, outermost first. -/
def feed (ρ : Env D) (f : D) : List Name → D
  | [] => f
  | x :: np => A.app (feed ρ f np) (ρ x)

theorem feed_congr (ρ ρ' : Env D) (f : D) (np : List Name) (h : ∀ x ∈ np, ρ x = ρ' x) :
    feed A ρ f np = feed A ρ' f np := by
  induction np with
  | nil => rfl
  | cons x np ih =>
    simp only [feed]
    rw [h x List.mem_cons_self, ih (fun y hy => h y (List.mem_cons_of_mem _ hy))]

theorem head_cases {np : List Name} {v : Name} (h : np.head? = some v) : np = v :: np.tail := by
  cases np with
  | nil => simp at h
  | cons a l => simp at h; simp [h]

theorem feed_head (ρ : Env D) (f : D) {np : List Name} {v : Name} (h : np.head? = some v) :
    feed A ρ f np = A.app (feed A ρ f np.tail) (ρ v) := by
  cases np with
  | nil => simp at h
  | cons a l => simp at h; subst h; rfl

/-- What a director does to two functions. -/
def ccEv (ρ : Env D) (cc : Option Code) (f g : D) : D :=
  match cc with
  | none => A.app f g
  | some cc => A.app (A.app (cc.ev A ρ) f) g

theorem ccStep_S (ρ : Env D) (cc : Option Code) (f g x : D) :
    A.app (ccEv A ρ (some (ccStep .S .S' cc)) f g) x = ccEv A ρ cc (A.app f x) (A.app g x) := by
  cases cc with
  | none => simp [ccEv, ccStep, Code.ev, A.law_S]
  | some cc => simp [ccEv, ccStep, Code.ev, A.law_S']

theorem ccStep_C (ρ : Env D) (cc : Option Code) (f g x : D) :
    A.app (ccEv A ρ (some (ccStep .C .C' cc)) f g) x = ccEv A ρ cc (A.app f x) g := by
  cases cc with
  | none => simp [ccEv, ccStep, Code.ev, A.law_C]
  | some cc => simp [ccEv, ccStep, Code.ev, A.law_C']

theorem ccStep_B (ρ : Env D) (cc : Option Code) (f g x : D) :
    A.app (ccEv A ρ (some (ccStep .B .B' cc)) f g) x = ccEv A ρ cc f (A.app g x) := by
  cases cc with
  | none => simp [ccEv, ccStep, Code.ev, A.law_B]
  | some cc => simp [ccEv, ccStep, Code.ev, A.law_B']

theorem needs_nil (vs : List Name) : Needs vs [] := by
  induction vs with
  | nil => rfl
  | cons v vs ih => simp [Needs, ih]

theorem needs_sub {vs np : List Name} (h : Needs vs np) {x : Name} (hx : x ∈ np) : x ∈ vs := by
  induction vs generalizing np with
  | nil => simp [Needs] at h; subst h; cases hx
  | cons v vs ih =>
    unfold Needs at h
    split at h
    · rename_i hh
      rw [head_cases hh] at hx
      rcases List.mem_cons.1 hx with rfl | hx
      · exact List.mem_cons_self
      · exact List.mem_cons_of_mem _ (ih h.2 hx)
    · exact List.mem_cons_of_mem _ (ih h.2 hx)

/-- What merging two needed lists gives. -/
structure Merged (vs np1 np2 : List Name) (cc : Option Code) (r : Option Code × List Name) : Prop where
  needs : Needs vs r.2
  sub : ∀ x ∈ r.2, x ∈ np1 ∨ x ∈ np2
  closed : (∀ c, cc = some c → c.fv = []) → ∀ c, r.1 = some c → c.fv = []
  ev : ∀ {D : Type} (A : Alg D) (ρ : Env D) (f g : D),
    feed A ρ (ccEv A ρ r.1 f g) r.2 = ccEv A ρ cc (feed A ρ f np1) (feed A ρ g np2)

theorem ccStep_closed {p p' : Con} {cc : Option Code} (h : ∀ c, cc = some c → c.fv = []) :
    (ccStep p p' cc).fv = [] := by
  cases cc with
  | none => rfl
  | some c => simp [ccStep, Code.fv, h c rfl]

theorem merge_ok (vs np1 np2 : List Name) (cc : Option Code) (h1 : Needs vs np1) (h2 : Needs vs np2) :
    Merged vs np1 np2 cc (mergeNeeded vs np1 np2 cc) := by
  induction vs generalizing np1 np2 cc with
  | nil =>
    have e1 : np1 = [] := h1
    have e2 : np2 = [] := h2
    subst e1; subst e2
    exact ⟨rfl, fun x hx => (by cases hx), fun h c hc => h c hc, fun A ρ f g => rfl⟩
  | cons v vs ih =>
    unfold Needs at h1 h2
    unfold mergeNeeded
    split
    · rename_i e1
      rw [if_pos e1] at h1
      split
      · rename_i e2
        rw [if_pos e2] at h2
        have m := ih np1.tail np2.tail (some (ccStep .S .S' cc)) h1.2 h2.2
        refine ⟨?_, ?_, fun h c hc => m.closed (fun c' hc' => ?_) c hc, fun A ρ f g => ?_⟩
        · simp only [Needs, List.head?_cons, if_true, List.tail_cons]
          refine ⟨fun hv => ?_, m.needs⟩
          rcases m.sub v hv with h | h
          · exact h1.1 h
          · exact h2.1 h
        · intro x hx
          rcases List.mem_cons.1 hx with rfl | hx
          · exact Or.inl (by rw [head_cases e1]; exact List.mem_cons_self)
          · rcases m.sub x hx with h | h
            · exact Or.inl (List.mem_of_mem_tail h)
            · exact Or.inr (List.mem_of_mem_tail h)
        · cases hc'; exact ccStep_closed h
        · show A.app (feed A ρ _ _) (ρ v) = _
          rw [m.ev A ρ f g, ccStep_S]
          rw [feed_head A ρ f e1, feed_head A ρ g e2]
      · rename_i e2
        rw [if_neg e2] at h2
        have m := ih np1.tail np2 (some (ccStep .C .C' cc)) h1.2 h2.2
        refine ⟨?_, ?_, fun h c hc => m.closed (fun c' hc' => ?_) c hc, fun A ρ f g => ?_⟩
        · simp only [Needs, List.head?_cons, if_true, List.tail_cons]
          refine ⟨fun hv => ?_, m.needs⟩
          rcases m.sub v hv with h | h
          · exact h1.1 h
          · exact h2.1 h
        · intro x hx
          rcases List.mem_cons.1 hx with rfl | hx
          · exact Or.inl (by rw [head_cases e1]; exact List.mem_cons_self)
          · rcases m.sub x hx with h | h
            · exact Or.inl (List.mem_of_mem_tail h)
            · exact Or.inr h
        · cases hc'; exact ccStep_closed h
        · show A.app (feed A ρ _ _) (ρ v) = _
          rw [m.ev A ρ f g, ccStep_C]
          rw [feed_head A ρ f e1]
    · rename_i e1
      rw [if_neg e1] at h1
      split
      · rename_i e2
        rw [if_pos e2] at h2
        have m := ih np1 np2.tail (some (ccStep .B .B' cc)) h1.2 h2.2
        refine ⟨?_, ?_, fun h c hc => m.closed (fun c' hc' => ?_) c hc, fun A ρ f g => ?_⟩
        · simp only [Needs, List.head?_cons, if_true, List.tail_cons]
          refine ⟨fun hv => ?_, m.needs⟩
          rcases m.sub v hv with h | h
          · exact h1.1 h
          · exact h2.1 h
        · intro x hx
          rcases List.mem_cons.1 hx with rfl | hx
          · exact Or.inr (by rw [head_cases e2]; exact List.mem_cons_self)
          · rcases m.sub x hx with h | h
            · exact Or.inl h
            · exact Or.inr (List.mem_of_mem_tail h)
        · cases hc'; exact ccStep_closed h
        · show A.app (feed A ρ _ _) (ρ v) = _
          rw [m.ev A ρ f g, ccStep_B]
          rw [feed_head A ρ g e2]
      · rename_i e2
        rw [if_neg e2] at h2
        have m := ih np1 np2 cc h1.2 h2.2
        refine ⟨?_, m.sub, m.closed, m.ev⟩
        unfold Needs
        have hv : v ∉ (mergeNeeded vs np1 np2 cc).2 := fun hv => by
          rcases m.sub v hv with h | h
          · exact h1.1 h
          · exact h2.1 h
        rw [if_neg]
        · exact ⟨hv, m.needs⟩
        · intro hh
          exact hv (by rw [head_cases hh]; exact List.mem_cons_self)

theorem mergeUnneeded_eq (vs np : List Name) (cc : Option Code) :
    mergeUnneeded vs np cc = mergeNeeded vs [] np cc := by
  induction vs generalizing np cc with
  | nil => rfl
  | cons v vs ih =>
    unfold mergeUnneeded mergeNeeded
    simp only [List.head?_nil, reduceCtorEq, if_false]
    split
    · rw [ih]
    · rw [ih]

theorem joinCode_ev (ρ : Env D) (cc : Option Code) (r1 r2 : Code) :
    (joinCode cc r1 r2).ev A ρ = ccEv A ρ cc (r1.ev A ρ) (r2.ev A ρ) := by
  cases cc <;> rfl

theorem joinCode_fv {cc : Option Code} (h : ∀ c, cc = some c → c.fv = []) (r1 r2 : Code) (x : Name) :
    x ∈ (joinCode cc r1 r2).fv ↔ x ∈ r1.fv ∨ x ∈ r2.fv := by
  cases cc with
  | none => simp [joinCode, Code.fv]
  | some c => simp [joinCode, Code.fv, h c rfl]

/-- What `compile` gives for a term. -/
structure Big (t : Term) (vl : List Name) (r : Code × List Name) : Prop where
  needs : Needs vl r.2
  fv : ∀ x ∈ r.1.fv, x ∉ vl
  val : ∀ {D : Type} (A : Alg D) (ρ : Env D) (as : List D),
    Val A t ρ as (A.apps (feed A ρ (r.1.ev A ρ) r.2) as)

/-- A lambda has the values of its body. -/
theorem val_lam {x : Name} {b : Term} {ρ : Env D} {f : D} (as : List D)
    (h : ∀ d as, Val A b (ρ.set x d) as (A.apps (A.app f d) as)) : Val A (.lam x b) ρ as (A.apps f as) := by
  cases as with
  | nil => exact fun d => h d []
  | cons d as => exact h d as

/-- A lambda whose variable is not needed. -/
theorem big_unneeded {x : Name} {b : Term} {vl : List Name} {r : Code} {nd : List Name}
    (h : Big b (x :: vl) (r, nd)) (hx : nd.head? ≠ some x) :
    Big (.lam x b) vl (joinCode (mergeUnneeded vl nd none).1 (.con .K) r, (mergeUnneeded vl nd none).2) := by
  have hn := h.needs
  unfold Needs at hn
  rw [if_neg hx] at hn
  have m := merge_ok vl [] nd none (needs_nil vl) hn.2
  rw [mergeUnneeded_eq]
  have hcl := m.closed (by simp)
  refine ⟨m.needs, fun y hy => ?_, fun A ρ as => val_lam A as fun d as => ?_⟩
  · rw [joinCode_fv hcl] at hy
    rcases hy with hy | hy
    · simp [Code.fv] at hy
    · exact fun hv => h.fv y hy (List.mem_cons_of_mem _ hv)
  · rw [joinCode_ev, m.ev A ρ]
    simp only [feed, ccEv, Code.ev, A.law_K]
    have := h.val A (ρ.set x d) as
    have hr : x ∉ r.fv := fun hr => h.fv x hr List.mem_cons_self
    rw [ev_set_notin A r ρ x d hr] at this
    rw [feed_congr A (ρ.set x d) ρ] at this
    · exact this
    · intro y hy
      exact Env.set_other ρ d (fun e => hn.1 (e ▸ hy))

theorem compileBig_ok (t : Term) (vl : List Name) : Big t vl (compileBig t vl) := by
  induction t generalizing vl with
  | var x =>
    unfold compileBig
    split
    · rename_i h
      refine ⟨?_, fun y hy => by simp [Code.fv] at hy, fun A ρ as => ?_⟩
      · have hx : x ∈ vl := by simpa using h
        clear h
        show Needs vl [x]
        induction vl with
        | nil => cases hx
        | cons v vl ih =>
          unfold Needs
          by_cases e : x = v
          · subst e; simp [needs_nil]
          · rw [if_neg (by simpa using e)]
            refine ⟨by simpa using fun h => e h.symm, ih ?_⟩
            rcases List.mem_cons.1 hx with h | h
            · exact absurd h e
            · exact h
      · simp [Val, feed, Code.ev, A.law_I]
    · rename_i h
      refine ⟨needs_nil _, fun y hy => ?_, fun A ρ as => rfl⟩
      have : y = x := by simpa [Code.fv] using hy
      subst this
      simpa using h
  | con c => exact ⟨needs_nil _, fun y hy => by simp [compileBig, Code.fv] at hy, fun A ρ as => rfl⟩
  | app a b iha ihb =>
    have ha := iha vl
    have hb := ihb vl
    have m := merge_ok vl _ _ none ha.needs hb.needs
    have hcl := m.closed (by simp)
    unfold compileBig
    refine ⟨m.needs, fun y hy => ?_, fun A ρ as => ?_⟩
    · dsimp only at hy
      rw [joinCode_fv hcl] at hy
      rcases hy with hy | hy
      · exact ha.fv y hy
      · exact hb.fv y hy
    · dsimp only
      rw [joinCode_ev, m.ev A ρ]
      exact ⟨_, hb.val A ρ [], ha.val A ρ (_ :: as)⟩
  | lam x b ih =>
    have h := ih (x :: vl)
    unfold compileBig
    generalize compileBig b (x :: vl) = p at h
    obtain ⟨r, nd⟩ := p
    dsimp only
    cases nd with
    | nil => exact big_unneeded h (by simp)
    | cons y nd =>
      dsimp only
      split
      · rename_i e
        subst e
        have hn := h.needs
        simp only [Needs, List.head?_cons, if_true, List.tail_cons] at hn
        refine ⟨hn.2, fun z hz hv => h.fv z hz (List.mem_cons_of_mem _ hv),
          fun A ρ as => val_lam A as fun d as => ?_⟩
        have := h.val A (ρ.set y d) as
        have hr : y ∉ r.fv := fun hr => h.fv y hr List.mem_cons_self
        rw [ev_set_notin A r ρ y d hr] at this
        simp only [feed, Env.set_same] at this
        rw [feed_congr A (ρ.set y d) ρ] at this
        · exact this
        · intro z hz
          exact Env.set_other ρ d (fun e => hn.1 (e ▸ hz))
      · rename_i e
        exact big_unneeded h (by simpa using e)

theorem compileBig_val (t : Term) (ρ : Env D) : Val A t ρ [] ((compileBig t []).1.ev A ρ) := by
  have h := compileBig_ok t []
  have hv := h.val A ρ []
  have hn : (compileBig t []).2 = [] := h.needs
  rw [hn] at hv
  exact hv

end Voss.Fl
