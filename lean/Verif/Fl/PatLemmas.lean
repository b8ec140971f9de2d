import Verif.Fl.PatSpec
import Verif.Fl.OptLemmas
/-
Lemmas about the compilation of pattern matching.
-/
namespace Voss.Fl
open Voss.Bdd (decimal)
variable {D : Type} (A : Alg D)

theorem qName_inj {i j : Nat} (h : qName i = qName j) : i = j :=
  Voss.Bdd.decimal_inj (List.append_cancel_left h)

theorem argName_inj {i j : Nat} (h : argName i = argName j) : i = j :=
  Voss.Bdd.decimal_inj (List.append_cancel_left h)

theorem q_ne_dest (k : Nat) (c : Name) : qName k ≠ destName c := by
  intro h
  have h1 : '_' :: 'q' :: '_' :: decimal k = '_' :: '_' :: ("DeStRuCtOr".toList ++ c) := h
  injection h1 with _ h2
  injection h2 with h3
  exact absurd h3 (by decide)

theorem arg_ne_dest (k : Nat) (c : Name) : argName k ≠ destName c := by
  intro h
  have h1 : 'A' :: 'r' :: 'g' :: decimal k = '_' :: '_' :: ("DeStRuCtOr".toList ++ c) := h
  injection h1 with h2
  exact absurd h2 (by decide)

theorem arg_ne_q (k j : Nat) : argName k ≠ qName j := by
  intro h
  have h1 : 'A' :: 'r' :: 'g' :: decimal k = '_' :: 'q' :: '_' :: decimal j := h
  injection h1 with h2
  exact absurd h2 (by decide)

/-! ### Fresh names -/

theorem names_len (t : Term) : t.names.length ≤ t.size := by
  induction t with
  | var => simp [Term.names, Term.size]
  | con => simp [Term.names, Term.size]
  | app a b iha ihb => simp [Term.names, Term.size]; omega
  | lam x b ih => simp [Term.names, Term.size]; omega

theorem findNewF_free {k : Nat} {e : Term} {n : Nat} (h : isFree (qName (findNewF k e n)) e = true) :
    ∀ i, i ≤ k → isFree (qName (n + i)) e = true := by
  induction k generalizing n with
  | zero => intro i hi; cases Nat.le_zero.mp hi; exact h
  | succ k ih =>
    intro i hi
    rw [findNewF] at h
    split at h
    · rename_i h1
      cases i with
      | zero => exact h1
      | succ i =>
        have := ih h i (by omega)
        rwa [Nat.add_right_comm, Nat.add_assoc] at this
    · rename_i h1; exact (h1 h).elim

theorem findNew_fresh (e : Term) (n : Nat) : isFree (qName (findNew e n)) e = false := by
  cases h : isFree (qName (findNew e n)) e with
  | false => rfl
  | true =>
    exfalso
    have h1 := findNewF_free h
    have h2 : ((List.range (e.size + 1)).map fun i => qName (n + i)) ⊆ e.names := by
      intro x hx
      obtain ⟨i, hi, rfl⟩ := List.mem_map.mp hx
      exact free_names (h1 i (by have := List.mem_range.mp hi; omega))
    have h3 : ((List.range (e.size + 1)).map fun i => qName (n + i)).Nodup := by
      refine List.Pairwise.map _ ?_ (List.nodup_range)
      intro a b hab he
      exact hab (by have := qName_inj he; omega)
    have h4 := (h3.subperm h2).length_le
    have h5 := names_len e
    simp at h4
    omega

/-! ### Values -/

theorem apps_append (f : D) (as bs : List D) : A.apps f (as ++ bs) = A.apps (A.apps f as) bs := by
  induction as generalizing f with
  | nil => rfl
  | cons a as ih => exact ih _

theorem val_more (t : Term) (ρ : Env D) (bs as : List D) (v : D) (h : Val A t ρ bs v) :
    Val A t ρ (bs ++ as) (A.apps v as) := by
  induction t generalizing ρ bs as v with
  | var x =>
    show _ = _
    rw [apps_append]; rw [show v = _ from h]
  | con c =>
    show _ = _
    rw [apps_append]; rw [show v = _ from h]
  | app a b iha ihb =>
    obtain ⟨w, h1, h2⟩ := h
    exact ⟨w, h1, iha ρ (w :: bs) as v h2⟩
  | lam x b ih =>
    cases bs with
    | cons u bs => exact ih _ bs as v h
    | nil =>
      cases as with
      | nil => exact h
      | cons u as => exact ih _ [] as _ (h u)

theorem val_app {a b : Term} {ρ : Env D} {as : List D} {d : D} :
    Val A (.app a b) ρ as d ↔ ∃ v, Val A b ρ [] v ∧ Val A a ρ (v :: as) d := Iff.rfl

theorem val_prim1 {p : Con} {a : Term} {ρ : Env D} {d : D} :
    Val A (prim1 p a) ρ [] d ↔ ∃ v, Val A a ρ [] v ∧ d = A.app (A.con p) v := Iff.rfl

theorem val_prim2 {p : Con} {a b : Term} {ρ : Env D} {d : D} :
    Val A (prim2 p a b) ρ [] d ↔ ∃ w, Val A b ρ [] w ∧ ∃ v, Val A a ρ [] v ∧ d = A.app (A.app (A.con p) v) w :=
  Iff.rfl

variable {A}

/-- A conditional with a determined condition. -/
theorem val_condPF (dat : Data A) {c e : Term} {ρ : Env D} {as : List D} {r : D} {b : Bool}
    (hc : ∀ v, Val A c ρ [] v → v = A.bool b) (h : Val A (condPF c e) ρ as r) :
    if b then Val A e ρ as r else r = A.apps (A.con .pfail) as := by
  obtain ⟨x, hx, y, hy, z, hz, hr⟩ := h
  have hx' : x = A.con .pfail := hx
  have hr' : r = A.apps (A.app (A.app (A.app (A.con .cond) z) y) x) as := hr
  rw [hc z hz, dat.cond_bool] at hr'
  cases b
  · simpa [hx'] using hr'
  · simp only [if_true] at hr' ⊢
    rw [hr']
    exact val_more A e ρ [] as y hy

theorem sets_append (ρ : Env D) (s t : List (Name × D)) : ρ.sets (s ++ t) = (ρ.sets s).sets t := by
  induction s generalizing ρ with
  | nil => rfl
  | cons a s ih => exact ih _

theorem sets_notin (ρ : Env D) (s : List (Name × D)) (x : Name) (h : ∀ y ∈ s, y.1 ≠ x) : ρ.sets s x = ρ x := by
  induction s generalizing ρ with
  | nil => rfl
  | cons a s ih =>
    obtain ⟨y, d⟩ := a
    show (ρ.set y d).sets s x = _
    rw [ih _ (fun z hz => h z (by simp [hz])), Env.set_other]
    exact fun e => h (y, d) (by simp) e.symm

theorem sets_congr (ρ ρ' : Env D) (s : List (Name × D)) (x : Name) (h : ρ x = ρ' x) : ρ.sets s x = ρ'.sets s x := by
  induction s generalizing ρ ρ' with
  | nil => exact h
  | cons a s ih =>
    obtain ⟨y, d⟩ := a
    refine ih _ _ ?_
    simp only [Env.set]
    split
    · rfl
    · exact h

theorem match_dom {p : Pat} {d : D} {s : List (Name × D)} (h : Match A p d s) : ∀ y ∈ s, y.1 ∈ p.vars := by
  induction h with
  | var x d => simp [Pat.vars]
  | cons _ _ ih1 ih2 | tuple _ _ ih1 ih2 | capp _ _ ih1 ih2 =>
    intro y hy
    rcases List.mem_append.mp hy with hy | hy
    · exact List.mem_append_left _ (ih1 y hy)
    · exact List.mem_append_right _ (ih2 y hy)
  | _ => simp

/-! ### `trarg` -/

/-- No variable of the pattern has a name that the compiler makes up. -/
def Pat.clean (p : Pat) : Prop := ∀ x ∈ p.vars, ¬ Made x

/-- What the code for a pattern does. -/
structure Tr (p : Pat) (e t : Term) : Prop where
  yes : ∀ {D : Type} {A : Alg D} (_ : Data A) (ρ : Env D), (∀ c ∈ p.constrs, ρ (destName c) = A.con .I) →
    ∀ d as s r, Match A p d s → Val A t ρ (d :: as) r → Val A e (ρ.sets s) as r
  no : ∀ {D : Type} {A : Alg D} (_ : Data A) (ρ : Env D), (∀ c ∈ p.constrs, ρ (destName c) = A.con .I) →
    ∀ d as r, NoMatch A p d → Val A t ρ (d :: as) r → r = A.apps (A.con .pfail) as

theorem val_setq {e : Term} {ρ : Env D} {k : Nat} (hk : isFree (qName k) e = false) (d : D) {s : List (Name × D)}
    {as : List D} {r : D} (h : Val A e ((ρ.set (qName k) d).sets s) as r) : Val A e (ρ.sets s) as r := by
  refine (val_congr A e _ _ ?_ as r).mp h
  intro x hx
  refine sets_congr _ _ s x ?_
  rw [Env.set_other]
  rintro rfl
  rw [hk] at hx; cases hx

theorem val_q {ρ : Env D} {k : Nat} {d v : D} (h : Val A (.var (qName k)) (ρ.set (qName k) d) [] v) : v = d := by
  have : v = (ρ.set (qName k) d) (qName k) := h
  rwa [Env.set_same] at this

/-- The test of a leaf. -/
theorem leafTest_val (dat : Data A) {op c : Con} {e : Term} {k : Nat} {ρ : Env D} {d : D} {as : List D} {r : D} {b : Bool}
    (hk : isFree (qName k) e = false) (hop : A.app (A.app (A.con op) d) (A.con c) = A.bool b)
    (h : Val A (leafTest op c e k) ρ (d :: as) r) : if b then Val A e ρ as r else r = A.apps (A.con .pfail) as := by
  have h1 : Val A (condPF (prim2 op (.var (qName k)) (.con c)) e) (ρ.set (qName k) d) as r := h
  have h2 := val_condPF dat (b := b) (by
    rintro v ⟨w, hw, u, hu, rfl⟩
    have hw' : w = A.con c := hw
    show A.app (A.app (A.con op) u) w = _
    rw [val_q hu, hw', hop]) h1
  cases b
  · exact h2
  · exact val_setq (s := []) hk d h2

theorem tr_leaf {op c : Con} {e : Term} {k : Nat} {p : Pat} (hk : isFree (qName k) e = false)
    (hy : ∀ {D : Type} {A : Alg D} (_ : Data A) d s, Match A p d s →
      s = [] ∧ A.app (A.app (A.con op) d) (A.con c) = A.bool true)
    (hn : ∀ {D : Type} {A : Alg D} (_ : Data A) d, NoMatch A p d →
      A.app (A.app (A.con op) d) (A.con c) = A.bool false) : Tr p e (leafTest op c e k) where
  yes dat ρ _ d as s r hm h := by
    obtain ⟨rfl, h1⟩ := hy dat d s hm
    exact leafTest_val dat hk h1 h
  no dat ρ _ d as r hm h := leafTest_val dat hk (hn dat d hm) h

/-- A pattern with two parts: the value of `\q. (op q => fa (p1 q) | PFAIL)`. -/
theorem tr_pair {p a b : Pat} {op p1 p2 : Con} {e fa fb : Term} {k : Nat}
    (hk : isFree (qName k) e = false) (hc : a.clean)
    (hfb : Tr b e fb) (hfa : Tr a (.app fb (prim1 p2 (.var (qName k)))) fa)
    (hcon : ∀ c, c ∈ a.constrs ∨ c ∈ b.constrs → c ∈ p.constrs)
    (hop : ∀ {D : Type} {A : Alg D} (_ : Data A) u v, A.app (A.con op) (A.pair u v) = A.bool true)
    (hp1 : ∀ {D : Type} {A : Alg D} (_ : Data A) u v, A.app (A.con p1) (A.pair u v) = u)
    (hp2 : ∀ {D : Type} {A : Alg D} (_ : Data A) u v, A.app (A.con p2) (A.pair u v) = v)
    (hy : ∀ {D : Type} {A : Alg D} (d : D) s, Match A p d s → ∃ u v s1 s2, d = A.pair u v ∧ s = s1 ++ s2 ∧
      Match A a u s1 ∧ Match A b v s2)
    (hn : ∀ {D : Type} {A : Alg D} (_ : Data A) d, NoMatch A p d → A.app (A.con op) d = A.bool false ∨
      ∃ u v, d = A.pair u v ∧ (NoMatch A a u ∨ ∃ s, Match A a u s ∧ NoMatch A b v)) :
    Tr p e (.lam (qName k) (condPF (prim1 op (.var (qName k))) (.app fa (prim1 p1 (.var (qName k)))))) := by
  have hcase : ∀ {D : Type} {A : Alg D} (dat : Data A) (ρ : Env D) (d : D) (as : List D) (r : D) (t : Bool),
      A.app (A.con op) d = A.bool t →
      Val A (.lam (qName k) (condPF (prim1 op (.var (qName k))) (.app fa (prim1 p1 (.var (qName k)))))) ρ (d :: as) r →
      if t then Val A fa (ρ.set (qName k) d) (A.app (A.con p1) d :: as) r else r = A.apps (A.con .pfail) as := by
    intro D A dat ρ d as r t ht h
    have h1 : Val A (condPF (prim1 op (.var (qName k))) (.app fa (prim1 p1 (.var (qName k)))))
      (ρ.set (qName k) d) as r := h
    have h2 := val_condPF dat (b := t) (by
      rintro v ⟨w, hw, rfl⟩
      show A.app (A.con op) w = _
      rw [val_q hw, ht]) h1
    cases t
    · exact h2
    · obtain ⟨v, ⟨w, hw, hv⟩, h3⟩ := h2
      have hv' : v = A.app (A.con p1) w := hv
      rw [val_q hw] at hv'
      rw [hv'] at h3
      exact h3
  have hdest : ∀ {D : Type} {A : Alg D} (ρ : Env D) (d : D), (∀ c ∈ p.constrs, ρ (destName c) = A.con .I) →
      ∀ c ∈ p.constrs, (ρ.set (qName k) d) (destName c) = A.con .I := by
    intro D A ρ d h c hc
    rw [Env.set_other _ _ (fun he => q_ne_dest k c he.symm)]
    exact h c hc
  have hinner : ∀ {D : Type} {A : Alg D} (dat : Data A) (ρ : Env D), (∀ c ∈ p.constrs, ρ (destName c) = A.con .I) →
      ∀ (u v : D) (s1 : List (Name × D)) (as : List D) (r : D), Match A a u s1 →
      Val A fa (ρ.set (qName k) (A.pair u v)) (u :: as) r →
      Val A fb ((ρ.set (qName k) (A.pair u v)).sets s1) (v :: as) r ∧
      ∀ c ∈ b.constrs, ((ρ.set (qName k) (A.pair u v)).sets s1) (destName c) = A.con .I := by
    intro D A dat ρ hρ u v s1 as r hm h
    have hd := hdest ρ (A.pair u v) hρ
    have h1 := hfa.yes dat _ (fun c hc => hd c (hcon c (.inl hc))) u as s1 r hm h
    obtain ⟨w, ⟨x, hx, hw⟩, h2⟩ := h1
    have hq : ((ρ.set (qName k) (A.pair u v)).sets s1) (qName k) = A.pair u v := by
      rw [sets_notin, Env.set_same]
      intro y hy he
      exact hc y.1 (match_dom hm y hy) (.inl ⟨k, he⟩)
    have hx' : x = A.pair u v := by rw [← hq]; exact hx
    have hw' : w = A.app (A.con p2) x := hw
    rw [hx', hp2 dat] at hw'
    rw [hw'] at h2
    refine ⟨h2, ?_⟩
    intro c hcb
    rw [sets_notin]
    · exact hd c (hcon c (.inr hcb))
    · intro y hy he
      exact hc y.1 (match_dom hm y hy) (.inr (.inr ⟨c, he⟩))
  constructor
  · intro D A dat ρ hρ d as s r hm h
    obtain ⟨u, v, s1, s2, rfl, rfl, h1, h2⟩ := hy d s hm
    have h3 := hcase dat ρ _ as r true (hop dat u v) h
    simp only [if_true, hp1 dat] at h3
    obtain ⟨h4, h5⟩ := hinner dat ρ hρ u v s1 as r h1 h3
    have h6 := hfb.yes dat _ h5 v as s2 r h2 h4
    rw [← sets_append] at h6
    exact val_setq hk _ h6
  · intro D A dat ρ hρ d as r hm h
    rcases hn dat d hm with h1 | ⟨u, v, rfl, h1⟩
    · exact hcase dat ρ d as r false h1 h
    · have h3 := hcase dat ρ _ as r true (hop dat u v) h
      simp only [if_true, hp1 dat] at h3
      rcases h1 with h1 | ⟨s, h1, h2⟩
      · exact hfa.no dat _ (fun c hc => hdest ρ _ hρ c (hcon c (.inl hc))) u as r h1 h3
      · obtain ⟨h4, h5⟩ := hinner dat ρ hρ u v s as r h1 h3
        exact hfb.no dat _ h5 v as r h2 h4

/-- The destructor is the identity. -/
theorem tr_dest {p : Pat} {e b : Term} {x : Name} {c : Name} (hc : c ∈ p.constrs) (h : Tr p e (.lam x b)) :
    Tr p e (.app (.var (destName c)) (.lam x b)) := by
  have key : ∀ {D : Type} {A : Alg D} (ρ : Env D), ρ (destName c) = A.con .I → ∀ (d : D) as r,
      Val A (.app (.var (destName c)) (.lam x b)) ρ (d :: as) r → Val A (.lam x b) ρ (d :: as) r := by
    intro D A ρ hρ d as r hv
    obtain ⟨v, h1, h2⟩ := hv
    have h2' : r = A.apps (A.app (A.app (ρ (destName c)) v) d) as := h2
    rw [hρ, A.law_I] at h2'
    rw [h2']
    exact val_more A b _ [] as _ (h1 d)
  constructor
  · intro D A dat ρ hρ d as s r hm hv
    exact h.yes dat ρ hρ d as s r hm (key ρ (hρ c hc) d as r hv)
  · intro D A dat ρ hρ d as r hm hv
    exact h.no dat ρ hρ d as r hm (key ρ (hρ c hc) d as r hv)

theorem head_mem {p : Pat} : ∀ {q : Pat}, (Pat.capp p q).wf = true → p.head ∈ p.constrs := by
  induction p with
  | con0 c => intro q _; simp [Pat.head, Pat.constrs]
  | capp a b iha ihb =>
    intro q h
    simp only [Pat.wf, Bool.and_eq_true] at h
    exact List.mem_append_left _ (iha h.1)
  | _ => intro q h; simp [Pat.wf] at h

theorem wf_capp {p q : Pat} (h : (Pat.capp p q).wf = true) : p.wf = true ∧ q.wf = true := by
  cases p <;> simp [Pat.wf] at h ⊢ <;> exact h

theorem trarg_ok (p : Pat) (hw : p.wf = true) (hc : p.clean) (e : Term) (c : Bool) (n : Nat) :
    Tr p e (trarg p e c n).1 := by
  induction p generalizing e c n with
  | int i =>
    refine tr_leaf (findNew_fresh e n) ?_ ?_
    · intro D A dat d s h; cases h; exact ⟨rfl, by rw [dat.equal_int]; simp⟩
    · intro D A dat d h; cases h; rename_i m h; rw [dat.equal_int]; simp [h]
  | str i =>
    refine tr_leaf (findNew_fresh e n) ?_ ?_
    · intro D A dat d s h; cases h; exact ⟨rfl, by rw [dat.constrEq_str]; simp⟩
    · intro D A dat d h; cases h; rename_i m h; rw [dat.constrEq_str]; simp [h]
  | bool b =>
    refine tr_leaf (findNew_fresh e n) ?_ ?_
    · intro D A dat d s h; cases h; exact ⟨rfl, by have := dat.identical_bool b b; simpa [Alg.bool] using this⟩
    · intro D A dat d h; cases h; rename_i a h
      have h1 := dat.identical_bool a b
      rw [show A.bool b = A.con (if b then .tt else .ff) from rfl] at h1
      rw [h1, show (a == b) = false by simpa using h]
  | var x =>
    constructor
    · intro D A dat ρ _ d as s r hm h; cases hm; exact h
    · intro D A dat ρ _ d as r hm; cases hm
  | nil =>
    have key : ∀ {D : Type} {A : Alg D} (dat : Data A) (ρ : Env D) (d : D) (as : List D) (r : D) (t : Bool),
        A.app (A.con .empty) d = A.bool t → Val A (trarg .nil e c n).1 ρ (d :: as) r →
        if t then Val A e ρ as r else r = A.apps (A.con .pfail) as := by
      intro D A dat ρ d as r t ht h
      have h1 : Val A (condPF (prim1 .empty (.var (qName (findNew e n)))) e) (ρ.set (qName (findNew e n)) d) as r := h
      have h2 := val_condPF dat (b := t) (by
        rintro v ⟨w, hw, rfl⟩
        show A.app (A.con .empty) w = _
        rw [val_q hw, ht]) h1
      cases t
      · exact h2
      · exact val_setq (s := []) (findNew_fresh e n) d h2
    constructor
    · intro D A dat ρ _ d as s r hm h
      cases hm
      exact key dat ρ _ as r true dat.empty_nil h
    · intro D A dat ρ _ d as r hm h
      cases hm
      exact key dat ρ _ as r false (dat.empty_cons _ _) h
  | con0 s =>
    have h : Tr (.con0 s) e (leafTest .constrEq (.str (cname s)) e (findNew e n)) := by
      refine tr_leaf (findNew_fresh e n) ?_ ?_
      · intro D A dat d s h; cases h; exact ⟨rfl, by rw [dat.constrEq_str]; simp⟩
      · intro D A dat d h; cases h
        · rename_i m h; rw [dat.constrEq_str]; simp [h]
        · exact dat.constrEq_pair _ _ _
    cases c
    · exact tr_dest (by simp [Pat.constrs]) h
    · exact h
  | cons a b iha ihb =>
    simp only [Pat.wf, Bool.and_eq_true] at hw
    have hca : a.clean := fun x hx => hc x (List.mem_append_left _ hx)
    have hcb : b.clean := fun x hx => hc x (List.mem_append_right _ hx)
    refine tr_pair (findNew_fresh e n) hca (ihb hw.2 hcb e false _) (iha hw.1 hca _ false _) ?_ ?_ ?_ ?_ ?_ ?_
    · intro x hx; exact List.mem_append.mpr hx
    · intro D A dat u v; exact dat.isCons_cons u v
    · intro D A dat u v; exact dat.head_cons u v
    · intro D A dat u v; exact dat.tail_cons u v
    · intro D A d s h; cases h; rename_i u v s t h1 h2; exact ⟨u, v, s, t, rfl, rfl, h1, h2⟩
    · intro D A dat d h
      cases h
      · exact .inl dat.isCons_nil
      · exact .inr ⟨_, _, rfl, .inl (by assumption)⟩
      · exact .inr ⟨_, _, rfl, .inr ⟨_, by assumption, by assumption⟩⟩
  | tuple a b iha ihb =>
    simp only [Pat.wf, Bool.and_eq_true] at hw
    have hca : a.clean := fun x hx => hc x (List.mem_append_left _ hx)
    have hcb : b.clean := fun x hx => hc x (List.mem_append_right _ hx)
    refine tr_pair (findNew_fresh e n) hca (ihb hw.2 hcb e false _) (iha hw.1 hca _ false _) ?_ ?_ ?_ ?_ ?_ ?_
    · intro x hx; exact List.mem_append.mpr hx
    · intro D A dat u v; exact dat.isTuple_cons u v
    · intro D A dat u v; exact dat.fst_cons u v
    · intro D A dat u v; exact dat.snd_cons u v
    · intro D A d s h; cases h; rename_i u v s t h1 h2; exact ⟨u, v, s, t, rfl, rfl, h1, h2⟩
    · intro D A dat d h
      cases h
      · exact .inr ⟨_, _, rfl, .inl (by assumption)⟩
      · exact .inr ⟨_, _, rfl, .inr ⟨_, by assumption, by assumption⟩⟩
  | capp a b iha ihb =>
    have hw' := wf_capp hw
    have hca : a.clean := fun x hx => hc x (List.mem_append_left _ hx)
    have hcb : b.clean := fun x hx => hc x (List.mem_append_right _ hx)
    have h := tr_pair (p := .capp a b) (op := .isTuple) (p1 := .fst) (findNew_fresh e n) hca
      (ihb hw'.2 hcb e false (findNew e n + 1))
      (iha hw'.1 hca (.app (trarg b e false (findNew e n + 1)).1 (prim1 .snd (.var (qName (findNew e n))))) true
        (trarg b e false (findNew e n + 1)).2) ?_ ?_ ?_ ?_ ?_ ?_
    · cases c
      · exact tr_dest (List.mem_append_left _ (head_mem hw)) h
      · exact h
    · intro x hx; exact List.mem_append.mpr hx
    · intro D A dat u v; exact dat.isTuple_cons u v
    · intro D A dat u v; exact dat.fst_cons u v
    · intro D A dat u v; exact dat.snd_cons u v
    · intro D A d s h; cases h; rename_i u v s t h1 h2; exact ⟨u, v, s, t, rfl, rfl, h1, h2⟩
    · intro D A dat d h
      cases h
      · exact .inl (dat.isTuple_str _)
      · exact .inr ⟨_, _, rfl, .inl (by assumption)⟩
      · exact .inr ⟨_, _, rfl, .inr ⟨_, by assumption, by assumption⟩⟩

/-! ### Clauses -/

/-- The arguments are bound to their made-up names. -/
def ArgsAre (ρ : Env D) : List D → Prop
  | [] => True
  | d :: ds => ρ (argName (ds.length + 1)) = d ∧ ArgsAre ρ ds

theorem argsAre_congr {ρ ρ' : Env D} (ds : List D) (h : ∀ k, k ≤ ds.length → ρ (argName k) = ρ' (argName k)) :
    ArgsAre ρ ds → ArgsAre ρ' ds := by
  induction ds with
  | nil => exact id
  | cons d ds ih =>
    intro ⟨h1, h2⟩
    exact ⟨by rw [← h _ (by simp)]; exact h1, ih (fun k hk => h k (by simp; omega)) h2⟩

theorem matchAll_dom {ps : List Pat} {ds : List D} {s : List (Name × D)} (h : MatchAll A ps ds s) :
    ∀ y ∈ s, ∃ p ∈ ps, y.1 ∈ p.vars := by
  induction h with
  | nil => simp
  | cons h1 _ ih =>
    intro y hy
    rcases List.mem_append.mp hy with hy | hy
    · exact ⟨_, by simp, match_dom h1 y hy⟩
    · obtain ⟨p, hp, h2⟩ := ih y hy
      exact ⟨p, by simp [hp], h2⟩

/-- The hypotheses on the environment of the code for a clause. -/
structure EnvOK (A : Alg D) (ρ : Env D) (ps : List Pat) (ds : List D) : Prop where
  args : ArgsAre ρ ds
  dest : ∀ p ∈ ps, ∀ c ∈ p.constrs, ρ (destName c) = A.con .I

theorem EnvOK.step {ρ : Env D} {p : Pat} {ps : List Pat} {d : D} {ds : List D} (h : EnvOK A ρ (p :: ps) (d :: ds))
    (hc : p.clean) {s : List (Name × D)} (hm : Match A p d s) : EnvOK A (ρ.sets s) ps ds where
  args := argsAre_congr ds (fun k _ => (sets_notin ρ s _ fun y hy he =>
    hc y.1 (match_dom hm y hy) (.inr (.inl ⟨k, he⟩))).symm) h.args.2
  dest q hq c hcq := by
    rw [sets_notin]
    · exact h.dest q (by simp [hq]) c hcq
    · intro y hy he
      exact hc y.1 (match_dom hm y hy) (.inr (.inr ⟨c, he⟩))

theorem lhs_yes (dat : Data A) {ps : List Pat} (hw : ∀ p ∈ ps, p.wf = true ∧ p.clean) (e : Term) (n : Nat) {ρ : Env D}
    {ds : List D} (hρ : EnvOK A ρ ps ds) {s : List (Name × D)} (hm : MatchAll A ps ds s) {as : List D} {r : D}
    (h : Val A (lhs ps e n).1 ρ as r) : Val A e (ρ.sets s) as r := by
  induction hm generalizing ρ with
  | nil => exact h
  | @cons p ps d ds s t h1 h2 ih =>
    have hp := hw p (by simp)
    obtain ⟨v, hv, h3⟩ := h
    have hv' : v = ρ (argName (ps.length + 1)) := hv
    have hl : ps.length = ds.length := by
      clear * - h2
      induction h2 with
      | nil => rfl
      | cons _ _ ih => simp [ih]
    rw [hl, hρ.args.1] at hv'
    rw [hv'] at h3
    have h4 := (trarg_ok p hp.1 hp.2 (lhs ps e n).1 false (lhs ps e n).2).yes dat ρ (hρ.dest p (by simp)) d as s r h1 h3
    rw [sets_append]
    exact ih (fun q hq => hw q (by simp [hq])) (hρ.step hp.2 h1) h4

theorem noMatchAll_len {ps : List Pat} {ds : List D} (h : NoMatchAll A ps ds) : ps.length = ds.length := by
  induction h with
  | head _ h => simp [h]
  | tail _ _ ih => simp [ih]

theorem lhs_no (dat : Data A) {ps : List Pat} (hw : ∀ p ∈ ps, p.wf = true ∧ p.clean) (e : Term) (n : Nat) {ρ : Env D}
    {ds : List D} (hρ : EnvOK A ρ ps ds) (hm : NoMatchAll A ps ds) {as : List D} {r : D}
    (h : Val A (lhs ps e n).1 ρ as r) : r = A.apps (A.con .pfail) as := by
  induction hm generalizing ρ with
  | @head p ps d ds h1 hl =>
    have hp := hw p (by simp)
    obtain ⟨v, hv, h3⟩ := h
    have hv' : v = ρ (argName (ps.length + 1)) := hv
    rw [hl, hρ.args.1] at hv'
    rw [hv'] at h3
    exact (trarg_ok p hp.1 hp.2 (lhs ps e n).1 false (lhs ps e n).2).no dat ρ (hρ.dest p (by simp)) d as r h1 h3
  | @tail p ps d ds s h1 h2 ih =>
    have hp := hw p (by simp)
    obtain ⟨v, hv, h3⟩ := h
    have hv' : v = ρ (argName (ps.length + 1)) := hv
    rw [noMatchAll_len h2, hρ.args.1] at hv'
    rw [hv'] at h3
    have h4 := (trarg_ok p hp.1 hp.2 (lhs ps e n).1 false (lhs ps e n).2).yes dat ρ (hρ.dest p (by simp)) d as s r h1 h3
    exact ih (fun q hq => hw q (by simp [hq])) (hρ.step hp.2 h1) h4

/-! ### Can the match fail? -/

theorem canFail_condPF (c e : Term) : canFail (condPF c e) = true := by
  unfold condPF
  rw [canFail]
  · simp [canFail]
  · rintro _ ⟨⟩

theorem canFail_trarg (p : Pat) (e : Term) (c : Bool) (n : Nat) :
    (canFail (trarg p e c n).1 = true ∨ ∃ x, p = .var x ∧ (trarg p e c n).1 = .lam x e) ∧
    ∀ a, canFail (.app (trarg p e c n).1 a) = (canFail (trarg p e c n).1 || canFail a) := by
  have hl : ∀ x b a, canFail (.app (.lam x b) a) = (canFail (.lam x b) || canFail a) := by
    intro x b a
    rw [canFail]; rintro _ ⟨⟩
  have hv : ∀ x b a, canFail (.app (.app (.var x) b) a) = (canFail (.app (.var x) b) || canFail a) := by
    intro x b a
    rw [canFail]; rintro _ ⟨⟩
  have hd : ∀ x b, canFail (.app (.var x) b) = canFail b := by
    intro x b
    rw [canFail]
    · simp [canFail]
    · rintro _ ⟨⟩
  cases p <;> simp only [trarg, leafTest]
  case var x => exact ⟨.inr ⟨x, rfl, rfl⟩, hl _ _⟩
  case con0 s =>
    cases c
    · refine ⟨.inl ?_, hv _ _⟩
      simp only [Bool.false_eq_true, if_false]
      rw [hd, canFail, canFail_condPF]
    · refine ⟨.inl ?_, hl _ _⟩
      simp only [if_true]
      rw [canFail, canFail_condPF]
  case capp a b =>
    cases c
    · refine ⟨.inl ?_, hv _ _⟩
      simp only [Bool.false_eq_true, if_false]
      rw [hd, canFail, canFail_condPF]
    · refine ⟨.inl ?_, hl _ _⟩
      simp only [if_true]
      rw [canFail, canFail_condPF]
  all_goals exact ⟨.inl (by rw [canFail, canFail_condPF]), hl _ _⟩

theorem canFail_lhs {ps : List Pat} {e : Term} {n : Nat} (he : canFail e = true) : canFail (lhs ps e n).1 = true := by
  induction ps with
  | nil => exact he
  | cons p ps ih =>
    simp only [lhs]
    have h := canFail_trarg p (lhs ps e n).1 false (lhs ps e n).2
    rw [h.2]
    rcases h.1 with h1 | ⟨x, _, h1⟩
    · simp [h1]
    · rw [h1, show canFail (.lam x (lhs ps e n).1) = canFail (lhs ps e n).1 from rfl, ih]; rfl

theorem canFail_noMatch {ps : List Pat} {ds : List D} (hm : NoMatchAll A ps ds) (e : Term) (n : Nat) :
    canFail (lhs ps e n).1 = true := by
  induction hm with
  | @head p ps d ds h1 hl =>
    simp only [lhs]
    have h := canFail_trarg p (lhs ps e n).1 false (lhs ps e n).2
    rw [h.2]
    rcases h.1 with h2 | ⟨x, h2, _⟩
    · simp [h2]
    · subst h2; cases h1
  | @tail p ps d ds s h1 h2 ih =>
    simp only [lhs]
    have h := canFail_trarg p (lhs ps e n).1 false (lhs ps e n).2
    rw [h.2]
    rcases h.1 with h2 | ⟨x, _, h2⟩
    · simp [h2]
    · rw [h2, show canFail (.lam x (lhs ps e n).1) = canFail (lhs ps e n).1 from rfl, ih]; rfl

/-! ### Definitions -/

theorem rhs_yes (dat : Data A) {c : Clause} {ρ0 ρ : Env D} {ds : List D} {s : List (Name × D)} (ht : c.Takes A ρ0 ds s)
    (hg : ∀ g, c.guard = some g → ∀ v, Val A g (ρ.sets s) [] v → Val A g (ρ0.sets s) [] v) {as : List D} {r : D}
    (h : Val A c.rhs (ρ.sets s) as r) : Val A c.body (ρ.sets s) as r := by
  unfold Clause.rhs at h
  cases hgd : c.guard with
  | none => rw [hgd] at h; exact h
  | some g =>
    rw [hgd] at h
    exact val_condPF dat (b := true) (fun v hv => ht.2 g hgd v (hg g hgd v hv)) h

/-- The free variables of the clause have no names that the compiler makes up for arguments. -/
def Clause.NoArgs (c : Clause) : Prop :=
  (∀ x, isFree x c.body = true → ∀ k, x ≠ argName k) ∧
  ∀ g, c.guard = some g → ∀ x, isFree x g = true → ∀ k, x ≠ argName k

/-- `ρ` is `ρ0` except for the arguments. -/
def ArgExt (ρ0 ρ : Env D) : Prop := ∀ x, (∀ k, x ≠ argName k) → ρ x = ρ0 x

theorem argExt_val {ρ0 ρ : Env D} (h : ArgExt ρ0 ρ) {e : Term} (he : ∀ x, isFree x e = true → ∀ k, x ≠ argName k)
    {s : List (Name × D)} {as : List D} {r : D} (hv : Val A e (ρ.sets s) as r) : Val A e (ρ0.sets s) as r :=
  (val_congr A e _ _ (fun x hx => sets_congr _ _ s x (h x (he x hx))) as r).mp hv

/-- What is needed of the clauses: proper patterns and no made-up names. -/
structure Clause.OK (A : Alg D) (ρ0 : Env D) (c : Clause) : Prop where
  pats : ∀ p ∈ c.pats, p.wf = true ∧ p.clean
  noArgs : c.NoArgs
  dest : ∀ p ∈ c.pats, ∀ k ∈ p.constrs, ρ0 (destName k) = A.con .I

theorem Clause.OK.env {ρ0 ρ : Env D} {c : Clause} (h : c.OK A ρ0) (he : ArgExt ρ0 ρ) {ds : List D}
    (ha : ArgsAre ρ ds) : EnvOK A ρ c.pats ds where
  args := ha
  dest p hp k hk := by rw [he _ fun j hj => arg_ne_dest j k hj.symm]; exact h.dest p hp k hk

theorem clause_yes (dat : Data A) {ρ0 ρ : Env D} {c : Clause} (h : c.OK A ρ0) (he : ArgExt ρ0 ρ) {ds : List D}
    (ha : ArgsAre ρ ds) {s : List (Name × D)} (ht : c.Takes A ρ0 ds s) {n : Nat} {as : List D} {r : D}
    (hv : Val A (lhs c.pats c.rhs n).1 ρ as r) : Val A c.body (ρ0.sets s) as r := by
  have h1 := lhs_yes dat h.pats c.rhs n (h.env he ha) ht.1 hv
  have h2 := rhs_yes dat ht (fun g hg v hv => argExt_val he (h.noArgs.2 g hg) hv) h1
  exact argExt_val he h.noArgs.1 h2

theorem clause_no (dat : Data A) {ρ0 ρ : Env D} {c : Clause} (h : c.OK A ρ0) (he : ArgExt ρ0 ρ) {ds : List D}
    (ha : ArgsAre ρ ds) (ht : c.Skips A ρ0 ds) {n : Nat} {as : List D} {r : D}
    (hv : Val A (lhs c.pats c.rhs n).1 ρ as r) :
    r = A.apps (A.con .pfail) as ∧ canFail (lhs c.pats c.rhs n).1 = true := by
  rcases ht with ht | ⟨s, g, h1, h2, h3⟩
  · exact ⟨lhs_no dat h.pats c.rhs n (h.env he ha) ht hv, canFail_noMatch ht _ _⟩
  · have h4 := lhs_yes dat h.pats c.rhs n (h.env he ha) h1 hv
    have hr : c.rhs = condPF g c.body := by unfold Clause.rhs; rw [h2]
    rw [hr] at h4 ⊢
    exact ⟨val_condPF dat (b := false) (fun v hv => h3 v (argExt_val he (h.noArgs.2 g h2) hv)) h4,
      canFail_lhs (canFail_condPF _ _)⟩

theorem fnDefs_take (dat : Data A) {f : Name} {ρ0 ρ : Env D} {ds : List D} {cs : List Clause}
    (hc : ∀ c ∈ cs, c.OK A ρ0) (he : ArgExt ρ0 ρ) (ha : ArgsAre ρ ds) {o : Option (Clause × List (Name × D))}
    (hs : Selects A ρ0 ds cs o) (c : Clause) (s : List (Name × D)) (ho : o = some (c, s))
    (hp : ∀ v, Val A c.body (ρ0.sets s) [] v → dat.proper v) (n : Nat) (r : D)
    (h : Val A (fnDefs f cs n).1 ρ [] r) : Val A c.body (ρ0.sets s) [] r := by
  induction hs generalizing n r with
  | none => cases ho
  | @take c' cs s' ht =>
    cases ho
    cases cs with
    | nil =>
      simp only [fnDefs] at h
      split at h
      · obtain ⟨w, _, v, hv, rfl⟩ := h
        have h1 := clause_yes dat (hc c (by simp)) he ha ht hv
        show Val A c.body _ [] (A.app (A.app (A.con .pcatch) v) w)
        rw [dat.pcatch_proper _ _ (hp v h1)]; exact h1
      · exact clause_yes dat (hc c (by simp)) he ha ht h
    | cons c2 cs =>
      simp only [fnDefs] at h
      obtain ⟨w, _, v, hv, rfl⟩ := h
      have h1 := clause_yes dat (hc c (by simp)) he ha ht hv
      show Val A c.body _ [] (A.app (A.app (A.con .pcatch) v) w)
      rw [dat.pcatch_proper _ _ (hp v h1)]; exact h1
  | @skip c' cs o ht hs ih =>
    subst ho
    cases cs with
    | nil => cases hs
    | cons c2 cs =>
      simp only [fnDefs] at h
      obtain ⟨w, hw, v, hv, rfl⟩ := h
      have h1 := (clause_no dat (hc c' (by simp)) he ha ht hv).1
      show Val A c.body _ [] (A.app (A.app (A.con .pcatch) v) w)
      rw [h1, show A.apps (A.con .pfail) [] = A.con .pfail from rfl, dat.pcatch_pfail]
      exact ih (fun x hx => hc x (by simp [hx])) rfl _ _ hw

theorem fnDefs_none (dat : Data A) {f : Name} {ρ0 ρ : Env D} {ds : List D} {cs : List Clause}
    (hc : ∀ c ∈ cs, c.OK A ρ0) (he : ArgExt ρ0 ρ) (ha : ArgsAre ρ ds) {o : Option (Clause × List (Name × D))}
    (hs : Selects A ρ0 ds cs o) (ho : o = none) (hne : cs ≠ []) (n : Nat) (r : D)
    (h : Val A (fnDefs f cs n).1 ρ [] r) :
    r = A.app (A.con .error) (A.con (.str ("No pattern matched for ".toList ++ f ++ ['\n']))) := by
  induction hs generalizing n r with
  | none => exact (hne rfl).elim
  | take => cases ho
  | @skip c' cs o ht hs ih =>
    subst ho
    cases cs with
    | nil =>
      simp only [fnDefs] at h
      split at h
      · obtain ⟨w, hw, v, hv, rfl⟩ := h
        have h1 := (clause_no dat (hc c' (by simp)) he ha ht hv).1
        show A.app (A.app (A.con .pcatch) v) w = _
        rw [h1, show A.apps (A.con .pfail) [] = A.con .pfail from rfl, dat.pcatch_pfail]
        obtain ⟨x, hx, rfl⟩ := hw
        rw [show x = _ from hx]; rfl
      · rename_i hcf
        exact (hcf (clause_no dat (hc c' (by simp)) he ha ht h).2).elim
    | cons c2 cs =>
      simp only [fnDefs] at h
      obtain ⟨w, hw, v, hv, rfl⟩ := h
      have h1 := (clause_no dat (hc c' (by simp)) he ha ht hv).1
      show A.app (A.app (A.con .pcatch) v) w = _
      rw [h1, show A.apps (A.con .pfail) [] = A.con .pfail from rfl, dat.pcatch_pfail]
      exact ih (fun x hx => hc x (by simp [hx])) rfl (by simp) _ _ hw

theorem argExt_refl (ρ : Env D) : ArgExt ρ ρ := fun _ _ => rfl

theorem addArgs_val (e : Term) (ds : List D) (ρ : Env D) (r : D) (h : Val A (addArgs ds.length e) ρ ds r) :
    ∃ ρ', ArgExt ρ ρ' ∧ ArgsAre ρ' ds ∧ (∀ k, ds.length < k → ρ' (argName k) = ρ (argName k)) ∧ Val A e ρ' [] r := by
  induction ds generalizing ρ with
  | nil => exact ⟨ρ, argExt_refl ρ, trivial, fun _ _ => rfl, h⟩
  | cons d ds ih =>
    obtain ⟨ρ', h1, h2, h3, h4⟩ := ih (ρ.set (argName (ds.length + 1)) d) h
    refine ⟨ρ', ?_, ⟨?_, h2⟩, ?_, h4⟩
    · intro x hx
      rw [h1 x hx, Env.set_other]
      exact hx _
    · rw [h3 _ (by omega), Env.set_same]
    · intro k hk
      simp only [List.length_cons] at hk
      rw [h3 k (by omega), Env.set_other]
      intro he
      have := argName_inj he
      omega

theorem rec_val {f : Name} {t : Term} {ρ : Env D} {r : D} (h : Val A (prim1 .Y (.lam f t)) ρ [] r) :
    Val A t (ρ.set f r) [] r := by
  obtain ⟨v, hv, hr⟩ := h
  have hr' : r = A.app (A.con .Y) v := hr
  have h1 := hv r
  rwa [show A.app v r = r by rw [hr', ← A.law_Y]] at h1

/-! ### Constructors -/

theorem argsAre_get {ρ : Env D} {pre post : List D} {d : D} (h : ArgsAre ρ (pre ++ d :: post)) :
    ρ (argName (post.length + 1)) = d := by
  induction pre with
  | nil => exact h.1
  | cons a pre ih => exact ih h.2

theorem constrRec_val (dat : Data A) (c : Name) (ρ : Env D) (pre post : List D) (h : ArgsAre ρ (pre ++ post)) (r : D)
    (hv : Val A (constrRec c (post.length + 1) pre.length) ρ [] r) :
    r = pre.foldl A.pair (A.con (.str (cname c))) := by
  generalize hn : pre.length = n at hv
  induction n generalizing pre post r with
  | zero =>
    cases pre with
    | nil => exact hv
    | cons => cases hn
  | succ n ih =>
    rcases List.eq_nil_or_concat pre with rfl | ⟨pre', d, rfl⟩
    · cases hn
    · obtain ⟨w, hw, v, hv', rfl⟩ := hv
      have hw' : w = ρ (argName (post.length + 1)) := hw
      simp only [List.concat_eq_append, List.append_assoc, List.singleton_append] at h
      rw [argsAre_get h] at hw'
      have h2 := ih pre' (d :: post) h v (by simpa using hn) hv'
      rw [List.concat_eq_append, List.foldl_append, ← h2, hw']
      exact dat.tuple_cons v d

end Voss.Fl
