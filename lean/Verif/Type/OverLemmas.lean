import Verif.Type.OverSpec
import Verif.Type.Mono
import Mathlib.Tactic.ByContra
/-
Helper lemmas: resolution of overloaded names.
-/
namespace Voss.TC

variable {ar : String → Nat} {G : Nat → Prop} {s : St} {θ : Nat → Ty} {alts : Nat → List Ty}

/-! ### Comparison -/

theorem typeEq_ev (I : Inv ar G s θ) : ∀ (k : Nat),
    (∀ t1 t2 : Ty, (t1.sub θ).size ≤ k → Ev (fun n => typeEq s.bind n t1 t2) (some (decide (t1.sub θ = t2.sub θ))))
    ∧ ∀ ts1 ts2 : Tys, (ts1.sub θ).size ≤ k → Ev (fun n => typeEqAll s.bind n ts1 ts2) (some (decide (ts1.sub θ = ts2.sub θ))) := by
  intro k
  induction k with
  | zero =>
    constructor
    · intro t _ h; have := (t.sub θ).size_pos; omega
    · intro t _ h; cases t <;> simp [Tys.sub, Tys.size] at h
  | succ k ih =>
    constructor
    · intro t1 t2 h
      obtain ⟨t1', e1, e2, e3, _⟩ := resolve_ev I t1
      obtain ⟨t2', f1, f2, f3, _⟩ := resolve_ev I t2
      rw [← e2] at h ⊢
      rw [← f2]
      cases t1' with
      | var v =>
        have hv : Ty.sub θ (.var v) = .var v := I.unb v (e3 v rfl)
        cases t2' with
        | var w =>
          have hw : Ty.sub θ (.var w) = .var w := I.unb w (f3 w rfl)
          refine Ev.of_succ (e1.map2 f1 fun n e f => ?_)
          simp only [typeEq, e, f, hv, hw]
          show some (v == w) = _
          simp only [Ty.var.injEq]
          rfl
        | con o ts =>
          refine Ev.of_succ (e1.map2 f1 fun n e f => ?_)
          simp only [typeEq, e, f]
          show some false = _
          rw [hv]
          simp [Ty.sub]
      | con o ts => cases t2' with
        | var w =>
          have hw : Ty.sub θ (.var w) = .var w := I.unb w (f3 w rfl)
          refine Ev.of_succ (e1.map2 f1 fun n e f => ?_)
          simp only [typeEq, e, f]
          show some false = _
          rw [hw]
          simp [Ty.sub]
        | con o' ts' =>
          have h' : (ts.sub θ).size ≤ k := by simp only [Ty.sub, Ty.size] at h; omega
          obtain ⟨N, hN⟩ := (e1.map2 f1 (k := fun n => (resolve s.bind n t1, resolve s.bind n t2)) fun n e f => by rw [e, f]).and (ih.2 ts ts' h')
          refine Ev.of_succ ⟨N, fun n hn => ?_⟩
          obtain ⟨h1, h2⟩ := hN n hn
          have e := congrArg Prod.fst h1
          have f := congrArg Prod.snd h1
          simp only at e f
          simp only [typeEq, e, f]
          show (if o ≠ o' then some false else typeEqAll s.bind n ts ts') = _
          simp only [Ty.sub]
          by_cases ho : o = o'
          · subst ho
            simp only [ne_eq, not_true, if_false, Ty.con.injEq, true_and]
            exact h2
          · simp [ho]
    · intro ts1 ts2 h
      cases ts1 with
      | nil => cases ts2 with
        | nil => exact Ev.of_succ (Ev.const _)
        | cons t ts => exact Ev.of_succ (Ev.const _)
      | cons t ts => cases ts2 with
        | nil => exact Ev.of_succ (Ev.const _)
        | cons t' ts' =>
          simp only [Tys.sub, Tys.size] at h
          refine Ev.of_succ ((ih.1 t t' (by omega)).map2 (ih.2 ts ts' (by omega)) fun n e e' => ?_)
          simp only [typeEqAll, e, e', Tys.sub]
          by_cases hq : t.sub θ = t'.sub θ
          · simp [hq]
          · simp [hq]

/-! ### Stores -/

theorem Reach.withTrail (R : Reach ar G s) (tr : List Nat) : Reach ar G { s with trail := tr } := by
  obtain ⟨⟨θ, I⟩, hU⟩ := R
  exact ⟨⟨θ, I.sol, I.unb, I.mg, I.bound, I.good, I.vars, I.gen, I.time⟩, hU⟩

theorem Reach.noUnres (R : Reach ar G s) : Reach ar G { s with unres := [] } := by
  obtain ⟨⟨θ, I⟩, hU⟩ := R
  exact ⟨⟨θ, I.sol, I.unb, I.mg, I.bound, I.good, I.vars, I.gen, I.time⟩, fun p hp => by simp at hp⟩

theorem inst_ok (R : Reach ar G s) {t : Ty} (hwf : t.WF ar) (hall : t.All G) :
    ∃ t' m, Ev (fun n => inst n s t) (.ok (t', { s with next := m })) ∧ s.next ≤ m ∧ Good ar G m t' ∧ (∀ ρ, Instance t (t'.sub ρ))
      ∧ ∀ τ (ρ : Nat → Ty), Instance t τ → ∃ ρ' : Nat → Ty, (∀ v, v < s.next → ρ' v = ρ v) ∧ t'.sub ρ' = τ := by
  rcases inst_const R hwf hall with ⟨⟨t', s'⟩, e, m, l, h, g, a⟩ | ⟨_, hno⟩
  · simp only at h g a
    subst h
    exact ⟨t', m, e, l, g, a⟩
  · exact hno.elim

/-- `unify`, with its two answers. -/
theorem unifyB_ok (R : Reach ar G s) {t1 t2 : Ty} (g1 : Good ar G s.next t1) (g2 : Good ar G s.next t2) :
    ∃ b s', Ev (fun n => unify n s t1 t2) (.ok (b, s')) ∧ Ext s s' ∧
      match b with
      | true => Reach ar G s' ∧ s'.next = s.next ∧ ∀ ρ, Sol s'.bind ρ ↔ Sol s.bind ρ ∧ t1.sub ρ = t2.sub ρ
      | false => ∀ ρ, Sol s.bind ρ → t1.sub ρ ≠ t2.sub ρ := by
  obtain ⟨⟨θ, I⟩, hU⟩ := R
  obtain ⟨b, s', e, hx, hm⟩ := unify_ok I g1 g2
  refine ⟨b, s', e, hx.1, ?_⟩
  cases b with
  | true => exact ⟨⟨hm.1, by rw [hx.2, hm.2.1]; exact hU⟩, hm.2⟩
  | false => exact hm

/-- The test of an alternative. -/
theorem test_ok (R : Reach ar G s) {t1 t2 : Ty} (g1 : Good ar G s.next t1) (g2 : Good ar G s.next t2) :
    ∃ b s', Ev (fun n => test n s t1 t2) (.ok (b, s')) ∧ Ext s s' ∧
      match b with
      | true => Reach ar G s' ∧ s'.next = s.next ∧ ∀ ρ, Sol s'.bind ρ ↔ Sol s.bind ρ ∧ t1.sub ρ = t2.sub ρ
      | false => ∀ ρ, Sol s.bind ρ → t1.sub ρ ≠ t2.sub ρ := by
  obtain ⟨θ, I⟩ := R.1
  have he := (typeEq_ev I _).1 t1 t2 (Nat.le_refl _)
  by_cases hq : t1.sub θ = t2.sub θ
  · refine ⟨true, s, he.map fun n e => ?_, Ext.refl s, R, rfl, fun ρ => ⟨fun h => ⟨h, ?_⟩, fun h => h.1⟩⟩
    · simp only [test, e]; simp [hq, Res.ofOption]; rfl
    · rw [← I.mgt h, hq, I.mgt h]
  · obtain ⟨b, s', e, h⟩ := unifyB_ok R g1 g2
    refine ⟨b, s', he.map2 e fun n e e' => ?_, h⟩
    simp only [test, e]
    simp only [Res.ofOption, hq, decide_false]
    exact e'

/-! ### Choices -/

/-- The alternatives with the numbers `is` fit the types of the names. -/
def Fit (alts : Nat → List Ty) (ρ : Nat → Ty) : List (Nat × Ty) → List Nat → Prop
  | [], [] => True
  | (v, t) :: us, i :: is => (∃ a, (alts v)[i]? = some a ∧ Instance a (t.sub ρ)) ∧ Fit alts ρ us is
  | _, _ => False

def Poss (alts : Nat → List Ty) (bind : Nat → Option Ty) (us : List (Nat × Ty)) (is : List Nat) : Prop :=
  ∃ ρ, Sol bind ρ ∧ Fit alts ρ us is

theorem Fit.congr {ρ ρ' : Nat → Ty} {n : Nat} (h : ∀ v, v < n → ρ' v = ρ v) : ∀ {us : List (Nat × Ty)} {is : List Nat},
    (∀ p ∈ us, Good ar G n p.2) → Fit alts ρ us is → Fit alts ρ' us is
  | [], [], _, _ => trivial
  | (v, t) :: us, i :: is, hg, hf => by
    refine ⟨?_, Fit.congr h (fun p hp => hg p (by simp [hp])) hf.2⟩
    rw [good_congr h (hg (v, t) (by simp))]
    exact hf.1
  | [], _ :: _, _, h => h.elim
  | _ :: _, [], _, h => h.elim

/-- `k` says how many choices satisfy `S`: none, one (described by `r`), or more. -/
def Cnt (vs : List Nat) (S : List Nat → Prop) (k : Nat) (r : List (Nat × Nat)) : Prop :=
  match k with
  | 0 => ∀ x, ¬ S x
  | 1 => ∃ x, S x ∧ r = vs.zip x ∧ ∀ y, S y → y = x
  | _ => ∃ x y, S x ∧ S y ∧ x ≠ y

theorem Cnt.congr {vs : List Nat} {S T : List Nat → Prop} {k : Nat} {r : List (Nat × Nat)} (h : ∀ x, S x ↔ T x) (hc : Cnt vs S k r) : Cnt vs T k r := by
  have : S = T := funext fun x => propext (h x)
  rw [← this]; exact hc

/-- The choices whose first alternative is below `i`. -/
def Upto (S : List Nat → Prop) (i : Nat) (x : List Nat) : Prop := ∃ j y, x = j :: y ∧ j < i ∧ S x

theorem search_step {v i cnt k : Nat} {vs : List Nat} {S : List Nat → Prop} {repl r : List (Nat × Nat)} (hc : cnt ≤ 1)
    (h1 : Cnt (v :: vs) (Upto S i) cnt repl) (h2 : Cnt vs (fun y => S (i :: y)) k r) :
    if cnt + k > 1 then ∃ x y, S x ∧ S y ∧ x ≠ y
    else cnt + k ≤ 1 ∧ Cnt (v :: vs) (Upto S (i + 1)) (cnt + k) (if k = 1 then (v, i) :: r else repl) := by
  have up : ∀ x, Upto S (i + 1) x ↔ Upto S i x ∨ ∃ y, x = i :: y ∧ S (i :: y) := by
    intro x
    constructor
    · rintro ⟨j, y, rfl, hj, hS⟩
      by_cases e : j = i
      · subst e; exact .inr ⟨y, rfl, hS⟩
      · exact .inl ⟨j, y, rfl, by omega, hS⟩
    · rintro (⟨j, y, rfl, hj, hS⟩ | ⟨y, rfl, hS⟩)
      · exact ⟨j, y, rfl, by omega, hS⟩
      · exact ⟨i, y, rfl, by omega, hS⟩
  have sub : ∀ x, Upto S i x → S x := fun x ⟨_, _, _, _, h⟩ => h
  match k, h2 with
  | 0, h2 =>
    rw [if_neg (by omega)]
    refine ⟨hc, ?_⟩
    simp only [Nat.add_zero]
    refine Cnt.congr (fun x => ?_) h1
    rw [up]
    constructor
    · exact .inl
    · rintro (h | ⟨y, rfl, h⟩)
      · exact h
      · exact absurd h (h2 y)
  | 1, ⟨x, hx, hr, hu⟩ =>
    match cnt, h1 with
    | 0, h1 =>
      rw [if_neg (by omega)]
      refine ⟨by omega, i :: x, ?_, ?_, ?_⟩
      · rw [up]; exact .inr ⟨x, rfl, hx⟩
      · simp [hr]
      · intro y hy
        rcases (up y).1 hy with h | ⟨z, rfl, h⟩
        · exact absurd h (h1 y)
        · rw [hu z h]
    | 1, ⟨z, hz, _, _⟩ =>
      rw [if_pos (by omega)]
      refine ⟨z, i :: x, sub z hz, hx, ?_⟩
      rintro rfl
      obtain ⟨j, y, e, hj, _⟩ := hz
      cases e; omega
  | k + 2, ⟨x, y, hx, hy, hne⟩ =>
    rw [if_pos (by omega)]
    exact ⟨i :: x, i :: y, hx, hy, fun e => hne (by injection e)⟩

/-- The search for the names `us` works in every store. -/
def SearchOK (ar : String → Nat) (G : Nat → Prop) (alts : Nat → List Ty) (us : List (Nat × Ty)) (f : Nat → St → Res Found) : Prop :=
  ∀ s, Reach ar G s → (∀ p ∈ us, Good ar G s.next p.2) → ∃ k r m, Ev (fun n => f n s) (.ok (k, r, { s with next := m })) ∧ s.next ≤ m
    ∧ Cnt (us.map (·.1)) (Poss alts s.bind us) k r

/-- One alternative. -/
theorem alt_iff (R : Reach ar G s) {v i : Nat} {t cur a alt : Ty} {us : List (Nat × Ty)} {s1 : St} (hi : (alts v)[i]? = some a)
    (hcur : ∀ ρ, Sol s.bind ρ → cur.sub ρ = t.sub ρ) (gcur : Good ar G s.next cur)
    (hus : ∀ p ∈ us, Good ar G s.next p.2) (a1 : ∀ ρ, Instance a (Ty.sub ρ alt))
    (a2 : ∀ τ (ρ : Nat → Ty), Instance a τ → ∃ ρ' : Nat → Ty, (∀ v, v < s.next → ρ' v = ρ v) ∧ alt.sub ρ' = τ)
    (hs : ∀ ρ, Sol s1.bind ρ ↔ Sol s.bind ρ ∧ alt.sub ρ = cur.sub ρ) (y : List Nat) :
    Poss alts s1.bind us y ↔ Poss alts s.bind ((v, t) :: us) (i :: y) := by
  constructor
  · rintro ⟨ρ, h1, h2⟩
    obtain ⟨h3, h4⟩ := (hs ρ).1 h1
    refine ⟨ρ, h3, ⟨a, hi, ?_⟩, h2⟩
    rw [← hcur ρ h3, ← h4]
    exact a1 ρ
  · rintro ⟨ρ, h1, ⟨a', h3, h4⟩, h2⟩
    rw [hi] at h3
    cases h3
    obtain ⟨ρ', b1, b2⟩ := a2 _ ρ h4
    refine ⟨ρ', (hs ρ').2 ⟨sol_congr R b1 h1, ?_⟩, h2.congr b1 hus⟩
    rw [b2, good_congr b1 gcur, hcur ρ h1]

theorem restore_ext {s s' : St} (h : Ext { s with trail := [] } s') : restore s'.bind s'.trail = s.bind := by
  obtain ⟨l, h1, h2⟩ := h.trail
  simp only [List.append_nil] at h1
  rw [h1]; exact h2

theorem tryAlts_ok {v : Nat} {t cur : Ty} {us : List (Nat × Ty)} {f : Nat → St → Res Found} (hf : SearchOK ar G alts us f) :
    ∀ (as : List Ty) (i cnt : Nat) (repl : List (Nat × Nat)) (s : St), Reach ar G s → as = (alts v).drop i →
    (∀ a ∈ as, a.WF ar ∧ a.All G) → (∀ ρ, Sol s.bind ρ → cur.sub ρ = t.sub ρ) → Good ar G s.next cur →
    (∀ p ∈ us, Good ar G s.next p.2) → cnt ≤ 1 → Cnt (v :: us.map (·.1)) (Upto (Poss alts s.bind ((v, t) :: us)) i) cnt repl →
    ∃ k r m, Ev (fun n => tryAlts n v cur (f n) as i cnt repl s) (.ok (k, r, { s with next := m })) ∧ s.next ≤ m
      ∧ Cnt (v :: us.map (·.1)) (Poss alts s.bind ((v, t) :: us)) k r := by
  intro as
  induction as with
  | nil =>
    intro i cnt repl s R hd _ _ _ _ hc h
    refine ⟨cnt, repl, s.next, Ev.const _, Nat.le_refl _, h.congr fun x => ⟨fun ⟨_, _, _, _, h⟩ => h, fun hx => ?_⟩⟩
    match x, hx with
    | [], ⟨ρ, _, hx⟩ => exact hx.elim
    | j :: y, ⟨ρ, h1, ⟨a, h2, h3⟩, h4⟩ =>
      refine ⟨j, y, rfl, ?_, ρ, h1, ⟨a, h2, h3⟩, h4⟩
      by_contra hle
      have hj := (List.getElem?_eq_some_iff.1 h2).1
      have := congrArg List.length hd
      simp only [List.length_nil, List.length_drop] at this
      omega
  | cons a as ih =>
    intro i cnt repl s R hd ha hcur gcur hus hc h
    have hi : (alts v)[i]? = some a := by
      have := congrArg (·[0]?) hd
      simp only [List.getElem?_drop, List.getElem?_cons_zero, Nat.add_zero] at this
      exact this.symm
    have hd' : as = (alts v).drop (i + 1) := by
      have := congrArg List.tail hd
      simpa using this
    obtain ⟨hwf, hall⟩ := ha a (by simp)
    have ha' : ∀ b ∈ as, b.WF ar ∧ b.All G := fun b hb => ha b (by simp [hb])
    -- the instance of the alternative
    obtain ⟨alt, m1, e1, l1, g1, a1, a2⟩ := inst_ok R hwf hall
    have R1 := (R.more l1).withTrail []
    obtain ⟨b, s1, e2, x1, hb⟩ := test_ok R1 g1 (gcur.mono l1)
    -- the rest of the loop
    have next : ∀ (m' cnt' : Nat) (repl' : List (Nat × Nat)), m1 ≤ m' → cnt' ≤ 1 →
        Cnt (v :: us.map (·.1)) (Upto (Poss alts s.bind ((v, t) :: us)) (i + 1)) cnt' repl' →
        ∃ k r m, Ev (fun n => tryAlts n v cur (f n) as (i + 1) cnt' repl' { s with next := m' }) (.ok (k, r, { s with next := m })) ∧ s.next ≤ m
          ∧ Cnt (v :: us.map (·.1)) (Poss alts s.bind ((v, t) :: us)) k r := by
      intro m' cnt' repl' hm hc' h'
      have hle : s.next ≤ m' := Nat.le_trans l1 hm
      obtain ⟨k, r, m, e, l, c⟩ := ih (i + 1) cnt' repl' { s with next := m' } (R.more hle) hd' ha' hcur (gcur.mono hle) (fun p hp => (hus p hp).mono hle) hc' h'
      exact ⟨k, r, m, e, Nat.le_trans hle l, c⟩
    cases b with
    | false =>
      -- it does not fit
      obtain ⟨k, r, m, e, l, c⟩ := next s1.next cnt repl x1.next hc (h.congr fun x => by
        constructor
        · rintro ⟨j, y, rfl, hj, hS⟩; exact ⟨j, y, rfl, by omega, hS⟩
        · rintro ⟨j, y, rfl, hj, hS⟩
          refine ⟨j, y, rfl, ?_, hS⟩
          by_contra hn
          obtain rfl : j = i := by omega
          obtain ⟨ρ, h1, ⟨a', h3, h4⟩, h2⟩ := hS
          rw [hi] at h3
          cases h3
          obtain ⟨ρ', b1, b2⟩ := a2 _ ρ h4
          exact hb ρ' (sol_congr R b1 h1) (by rw [b2, good_congr b1 gcur, hcur ρ h1]))
      refine ⟨k, r, m, ?_, l, c⟩
      simp only [tryAlts]
      refine Ev.bind e1 ?_
      simp only
      obtain ⟨N, hN⟩ := e2.and e
      refine ⟨N, fun n hn => ?_⟩
      obtain ⟨h1, h2⟩ := hN n hn
      show (test n { s with next := m1, trail := [] } alt cur >>= _) = _
      rw [h1]
      show tryAlts n v cur (f n) as (i + 1) cnt repl { s with bind := restore s1.bind s1.trail, next := s1.next } = _
      rw [restore_ext x1]
      exact h2
    | true =>
      obtain ⟨R2, n2, hs2⟩ := hb
      -- the second instance
      obtain ⟨new, m2, e3, l2, g2, c1, c2⟩ := inst_ok R2 hwf hall
      simp only at n2
      have hle2 : s.next ≤ m2 := Nat.le_trans l1 (by rw [← n2]; exact l2)
      obtain ⟨b, s2, e4, x2, hb⟩ := unifyB_ok (R2.more l2) g2 (gcur.mono hle2)
      cases b with
      | false =>
        exfalso
        obtain ⟨θ2, I2⟩ := R2.1
        obtain ⟨h1, h2⟩ := (hs2 θ2).1 I2.sol
        obtain ⟨ρ', b1, b2⟩ := c2 (cur.sub θ2) θ2 (by rw [← h2]; exact a1 θ2)
        refine hb ρ' (sol_congr R2 b1 I2.sol) ?_
        rw [b2]
        exact (good_congr (n := s1.next) b1 (gcur.mono (by rw [n2]; exact l1))).symm
      | true =>
        obtain ⟨R3, n3, hs3⟩ := hb
        simp only at n3 hs3
        have hus3 : ∀ p ∈ us, Good ar G s2.next p.2 := fun p hp => (hus p hp).mono (by rw [n3]; exact hle2)
        obtain ⟨k, r, m, e5, l5, c5⟩ := hf s2 R3 hus3
        have x3 : Ext { s with trail := [] } { s2 with next := m } := by
          have y1 : Ext { s with trail := [] } { s with next := m1, trail := [] } := ⟨l1, [], rfl, rfl⟩
          exact ((y1.trans x1).trans ((Ext.more s1 l2).trans x2)).trans (Ext.more s2 l5)
        have hiff : ∀ y, Poss alts s2.bind us y ↔ Poss alts s.bind ((v, t) :: us) (i :: y) := by
          intro y
          rw [← alt_iff (s1 := s1) R hi hcur gcur hus a1 a2 (fun ρ => hs2 ρ) y]
          constructor
          · rintro ⟨ρ, h1, h2⟩
            exact ⟨ρ, ((hs3 ρ).1 h1).1, h2⟩
          · rintro ⟨ρ, h1, h2⟩
            obtain ⟨h3, h4⟩ := (hs2 ρ).1 h1
            obtain ⟨ρ', b1, b2⟩ := c2 (cur.sub ρ) ρ (by rw [← h4]; exact a1 ρ)
            have hus2 : ∀ p ∈ us, Good ar G s1.next p.2 := fun p hp => (hus p hp).mono (by rw [n2]; exact l1)
            refine ⟨ρ', (hs3 ρ').2 ⟨sol_congr R2 b1 h1, ?_⟩, h2.congr b1 hus2⟩
            rw [b2]
            exact (good_congr (n := s1.next) b1 (gcur.mono (by rw [n2]; exact l1))).symm
        have hst := search_step hc h (c5.congr hiff)
        have hm1 : m1 ≤ m := by rw [n3] at l5; rw [n2] at l2; exact Nat.le_trans l2 l5
        -- the run up to here
        have run : ∀ (K : Nat → Nat → List (Nat × Nat) → St → Res Found) (res : Res Found),
            Ev (fun n => K n k r { s with next := m }) res →
            Ev (fun n => inst n s a >>= fun x => test n { x.2 with trail := [] } x.1 cur >>= fun y =>
                if y.1 then inst n y.2 a >>= fun z => unify n z.2 z.1 cur >>= fun w =>
                  if w.1 then f n w.2 >>= fun q => K n q.1 q.2.1 { x.2 with bind := restore q.2.2.bind q.2.2.trail, next := q.2.2.next } else .ub
                else tryAlts n v cur (f n) as (i + 1) cnt repl { x.2 with bind := restore y.2.bind y.2.trail, next := y.2.next }) res := by
          intro K res hK
          refine Ev.bind e1 ?_
          simp only
          obtain ⟨N1, hN1⟩ := e2.and hK
          obtain ⟨N2, hN2⟩ := e3.and (e4.map2 e5 (k := fun n => (unify n { s1 with next := m2 } new cur, f n s2)) fun n h1 h2 => by rw [h1, h2])
          refine ⟨max N1 N2, fun n hn => ?_⟩
          obtain ⟨h1, h2⟩ := hN1 n (by omega)
          obtain ⟨h3, h45⟩ := hN2 n (by omega)
          have h4 := congrArg Prod.fst h45
          have h5 := congrArg Prod.snd h45
          simp only at h4 h5
          show (test n { s with next := m1, trail := [] } alt cur >>= _) = _
          rw [h1]
          show (inst n s1 a >>= _) = res
          rw [h3]
          show (unify n { s1 with next := m2 } new cur >>= _) = res
          rw [h4]
          show (f n s2 >>= _) = res
          rw [h5]
          show K n k r { s with bind := restore s2.bind s2.trail, next := m } = res
          have := restore_ext x3
          simp only at this
          rw [this]
          exact h2
        by_cases hk : cnt + k > 1
        · rw [if_pos hk] at hst
          refine ⟨cnt + k, [], m, ?_, Nat.le_trans l1 hm1, ?_⟩
          · refine (run (fun n k r s => if cnt + k > 1 then .ok (cnt + k, [], s)
                else if k = 1 then tryAlts n v cur (f n) as (i + 1) (cnt + k) ((v, i) :: r) s
                else tryAlts n v cur (f n) as (i + 1) (cnt + k) repl s) _ ?_)
            simp only [if_pos hk]
            exact Ev.const _
          · obtain ⟨j, hj⟩ : ∃ j, cnt + k = j + 2 := ⟨cnt + k - 2, by omega⟩
            rw [hj]
            exact hst
        · rw [if_neg hk] at hst
          obtain ⟨k', r', m', e, l, c⟩ := next m (cnt + k) _ hm1 hst.1 hst.2
          refine ⟨k', r', m', ?_, l, c⟩
          refine (run (fun n k r s => if cnt + k > 1 then .ok (cnt + k, [], s)
                else if k = 1 then tryAlts n v cur (f n) as (i + 1) (cnt + k) ((v, i) :: r) s
                else tryAlts n v cur (f n) as (i + 1) (cnt + k) repl s) _ ?_)
          simp only [if_neg hk]
          by_cases h1 : k = 1
          · simp only [if_pos h1] at e ⊢; exact e
          · simp only [if_neg h1] at e ⊢; exact e

theorem search_ok : ∀ (us : List (Nat × Ty)), (∀ p ∈ us, ∀ a ∈ alts p.1, a.WF ar ∧ a.All G) → SearchOK ar G alts us fun n => search n alts us
  | [], _ => by
    intro s R _
    refine ⟨1, [], s.next, Ev.const _, Nat.le_refl _, [], ?_, rfl, ?_⟩
    · obtain ⟨θ, I⟩ := R.1
      exact ⟨θ, I.sol, trivial⟩
    · rintro y ⟨ρ, _, h⟩
      match y, h with
      | [], _ => rfl
      | _ :: _, h => exact h.elim
  | (v, t) :: us, ha => by
    intro s R hg
    obtain ⟨θ, I⟩ := R.1
    obtain ⟨cur, e, _, _, h2, h3, _⟩ := resolve_ev I t
    obtain ⟨k, r, m, e', l, c⟩ := tryAlts_ok (v := v) (search_ok us fun p hp => ha p (by simp [hp])) (alts v) 0 0 [] s R rfl (ha (v, t) (by simp)) h3
      (h2 (hg (v, t) (by simp))) (fun p hp => hg p (by simp [hp])) (by omega) (by rintro x ⟨j, _, _, hj, _⟩; omega)
    refine ⟨k, r, m, ?_, l, c⟩
    simp only [search]
    exact Ev.bind e.ofOption e'

/-! ### Replacing the names -/

theorem hasType_occs {H : Nat → Prop} {ρ ρ' : Nat → Ty} (h : ∀ v, H v → ρ' v = ρ v) {e : Tm} : ∀ {xs Γ τ}, e.OK ar G H xs →
    (∀ v ∈ e.occs, ρ' v = ρ v) → HasType ρ Γ e τ → HasType ρ' Γ e τ := by
  intro xs Γ τ hok ho ht
  induction ht generalizing xs with
  | var hx => exact .var hx
  | lit => exact .lit
  | const hi => exact .const hi
  | @ov _ v _ hi =>
    rw [← ho v (by simp [Tm.occs])] at hi ⊢
    exact .ov hi
  | app _ _ ih1 ih2 =>
    simp only [Tm.occs, List.mem_append] at ho
    exact .app (ih1 hok.1 fun v hv => ho v (.inr hv)) (ih2 hok.2 fun v hv => ho v (.inl hv))
  | nil => exact .nil
  | cons _ _ ih1 ih2 =>
    simp only [Tm.occs, List.mem_append] at ho
    exact .cons (ih1 hok.1 fun v hv => ho v (.inr hv)) (ih2 hok.2 fun v hv => ho v (.inl hv))
  | lam _ ih => exact .lam (ih hok ho)
  | @hint _ _ t _ ih =>
    have e : t.sub ρ = t.sub ρ' := (Ty.sub_congr (fun v hv => h v hv) t hok.2.2).symm
    have := ih hok.1 ho
    rw [e] at this ⊢
    exact .hint this

theorem occs_G {H : Nat → Prop} {e : Tm} : ∀ {xs}, e.OK ar G H xs → ∀ v ∈ e.occs, G v := by
  induction e with
  | ov v t => intro xs h w hw; simp only [Tm.occs, List.mem_singleton] at hw; subst hw; exact h.2.2
  | app f a ih1 ih2 =>
    intro xs h w hw
    rcases List.mem_append.1 hw with hw | hw
    · exact ih2 h.2 w hw
    · exact ih1 h.1 w hw
  | cons f a ih1 ih2 =>
    intro xs h w hw
    rcases List.mem_append.1 hw with hw | hw
    · exact ih2 h.2 w hw
    · exact ih1 h.1 w hw
  | lam x b ih => intro xs h w hw; exact ih h w hw
  | hint e t ih => intro xs h w hw; exact ih h.1 w hw
  | _ => intro xs h w hw; simp [Tm.occs] at hw

theorem pick_ok {H : Nat → Prop} {c : Nat → Nat} {e : Tm} : ∀ {xs}, e.OK ar G H xs → e.Alts ar G alts → (e.pick alts c).OK ar G H xs := by
  induction e with
  | ov v t =>
    intro xs h ha
    simp only [Tm.pick]
    split
    · next a hi => exact ⟨(ha a (List.mem_of_getElem? hi)).1, (ha a (List.mem_of_getElem? hi)).2.1⟩
    · exact h
  | app f a ih1 ih2 => intro xs h ha; exact ⟨ih1 h.1 ha.1, ih2 h.2 ha.2⟩
  | cons f a ih1 ih2 => intro xs h ha; exact ⟨ih1 h.1 ha.1, ih2 h.2 ha.2⟩
  | lam x b ih => intro xs h ha; exact ih (xs := x :: xs) h ha
  | hint e t ih => intro xs h ha; exact ⟨ih h.1 ha, h.2⟩
  | _ => intro xs h ha; exact h

theorem pick_of {c : Nat → Nat} {e : Tm} {η : Nat → Ty} : ∀ {Γ τ}, HasType η Γ e τ →
    (∀ v ∈ e.occs, ∃ a, (alts v)[c v]? = some a ∧ Instance a (η v)) → HasType η Γ (e.pick alts c) τ := by
  intro Γ τ ht ho
  induction ht with
  | var hx => exact .var hx
  | lit => exact .lit
  | const hi => exact .const hi
  | @ov _ v _ hi =>
    obtain ⟨a, h1, h2⟩ := ho v (by simp [Tm.occs])
    simp only [Tm.pick, h1]
    exact .const h2
  | app _ _ ih1 ih2 =>
    simp only [Tm.occs, List.mem_append] at ho
    exact .app (ih1 fun v hv => ho v (.inr hv)) (ih2 fun v hv => ho v (.inl hv))
  | nil => exact .nil
  | cons _ _ ih1 ih2 =>
    simp only [Tm.occs, List.mem_append] at ho
    exact .cons (ih1 fun v hv => ho v (.inr hv)) (ih2 fun v hv => ho v (.inl hv))
  | lam _ ih => exact .lam (ih ho)
  | hint _ ih => exact .hint (ih ho)

/-- Two assignments, for the names of two parts. -/
theorem merge {f a : Tm} {H : Nat → Prop} {η η1 η2 : Nat → Ty} {xs : List String} (hf : f.OK ar G H xs) (ha : a.OK ar G H xs) (hH : ∀ v, H v → ¬ G v)
    (hd : (a.occs ++ f.occs).Nodup) (h1 : ∀ v, v ∉ f.occs → η1 v = η v) (h2 : ∀ v, v ∉ a.occs → η2 v = η v) :
    ∃ η' : Nat → Ty, (∀ v, v ∉ a.occs ++ f.occs → η' v = η v) ∧ (∀ v ∈ f.occs, η' v = η1 v) ∧ (∀ v ∈ a.occs, η' v = η2 v)
      ∧ (∀ v, H v → η' v = η1 v) ∧ ∀ v, H v → η' v = η2 v := by
  classical
  refine ⟨fun v => if v ∈ f.occs then η1 v else η2 v, ?_, ?_, ?_, ?_, ?_⟩
  · intro v hv
    simp only [List.mem_append, not_or] at hv
    simp only [if_neg hv.2]
    exact h2 v hv.1
  · intro v hv; simp only [if_pos hv]
  · intro v hv
    have : v ∉ f.occs := fun h => (List.nodup_append.1 hd).2.2 v hv v h rfl
    simp only [if_neg this]
  · intro v hv
    have : v ∉ f.occs := fun h => hH v hv (occs_G hf v h)
    have h' : v ∉ a.occs := fun h => hH v hv (occs_G ha v h)
    simp only [if_neg this]
    rw [h1 v this, h2 v h']
  · intro v hv
    have : v ∉ f.occs := fun h => hH v hv (occs_G hf v h)
    simp only [if_neg this]

theorem of_pick {H : Nat → Prop} {c : Nat → Nat} {η : Nat → Ty} (hH : ∀ v, H v → ¬ G v) {e : Tm} : ∀ {xs Γ τ}, e.OK ar G H xs → e.Alts ar G alts →
    e.occs.Nodup → (∀ v ∈ e.occs, c v < (alts v).length) → HasType η Γ (e.pick alts c) τ →
    ∃ η', (∀ v, v ∉ e.occs → η' v = η v) ∧ HasType η' Γ e τ ∧ ∀ v ∈ e.occs, ∃ a, (alts v)[c v]? = some a ∧ Instance a (η' v) := by
  induction e with
  | ov v t =>
    intro xs Γ τ hok ha _ hc ht
    have hl := hc v (by simp [Tm.occs])
    have hi := List.getElem?_eq_getElem hl
    simp only [Tm.pick, hi] at ht
    cases ht with
    | const h =>
      obtain ⟨_, _, σ, hσ⟩ := ha _ (List.mem_of_getElem? hi)
      refine ⟨upd η v τ, fun w hw => ?_, ?_, ?_⟩
      · simp only [Tm.occs, List.mem_singleton] at hw
        simp [upd, hw]
      · have : HasType (upd η v τ) Γ (.ov v t) (upd η v τ v) := .ov (by
          rw [upd_self]
          obtain ⟨ρ, rfl⟩ := h
          rw [hσ, Ty.sub_sub]
          exact ⟨_, rfl⟩)
        rwa [upd_self] at this
      · intro w hw
        simp only [Tm.occs, List.mem_singleton] at hw
        subst hw
        exact ⟨_, hi, by rw [upd_self]; exact h⟩
  | app f a ih1 ih2 =>
    intro xs Γ τ hok ha hd hc ht
    simp only [Tm.occs] at hd hc
    obtain ⟨d1, d2, _⟩ := List.nodup_append.1 hd
    simp only [Tm.pick] at ht
    cases ht with
    | app q1 q2 =>
      obtain ⟨η1, a1, a2, a3⟩ := ih1 hok.1 ha.1 d2 (fun v hv => hc v (by simp [hv])) q1
      obtain ⟨η2, b1, b2, b3⟩ := ih2 hok.2 ha.2 d1 (fun v hv => hc v (by simp [hv])) q2
      obtain ⟨η', c1, c2, c3, c4, c5⟩ := merge hok.1 hok.2 hH hd a1 b1
      refine ⟨η', c1, .app (hasType_occs c4 hok.1 c2 a2) (hasType_occs c5 hok.2 c3 b2), fun v hv => ?_⟩
      rcases List.mem_append.1 hv with hv | hv
      · rw [c3 v hv]; exact b3 v hv
      · rw [c2 v hv]; exact a3 v hv
  | cons f a ih1 ih2 =>
    intro xs Γ τ hok ha hd hc ht
    simp only [Tm.occs] at hd hc
    obtain ⟨d1, d2, _⟩ := List.nodup_append.1 hd
    simp only [Tm.pick] at ht
    cases ht with
    | cons q1 q2 =>
      obtain ⟨η1, a1, a2, a3⟩ := ih1 hok.1 ha.1 d2 (fun v hv => hc v (by simp [hv])) q1
      obtain ⟨η2, b1, b2, b3⟩ := ih2 hok.2 ha.2 d1 (fun v hv => hc v (by simp [hv])) q2
      obtain ⟨η', c1, c2, c3, c4, c5⟩ := merge hok.1 hok.2 hH hd a1 b1
      refine ⟨η', c1, .cons (hasType_occs c4 hok.1 c2 a2) (hasType_occs c5 hok.2 c3 b2), fun v hv => ?_⟩
      rcases List.mem_append.1 hv with hv | hv
      · rw [c3 v hv]; exact b3 v hv
      · rw [c2 v hv]; exact a3 v hv
  | lam x b ih =>
    intro xs Γ τ hok ha hd hc ht
    simp only [Tm.pick] at ht
    cases ht with
    | lam q =>
      obtain ⟨η', a1, a2, a3⟩ := ih (xs := x :: xs) hok ha hd hc q
      exact ⟨η', a1, .lam a2, a3⟩
  | hint e t ih =>
    intro xs Γ τ hok ha hd hc ht
    simp only [Tm.pick] at ht
    cases ht with
    | hint q =>
      obtain ⟨η', a1, a2, a3⟩ := ih hok.1 ha hd hc q
      have e : t.sub η = t.sub η' := (Ty.sub_congr (fun v hv => a1 v fun h => hH v hv (occs_G hok.1 v h)) t hok.2.2).symm
      rw [e] at a2 ⊢
      exact ⟨η', a1, .hint a2, a3⟩
  | var x => intro xs Γ τ hok ha hd hc ht; exact ⟨η, fun _ _ => rfl, ht, fun v hv => by simp [Tm.occs] at hv⟩
  | lit o => intro xs Γ τ hok ha hd hc ht; exact ⟨η, fun _ _ => rfl, ht, fun v hv => by simp [Tm.occs] at hv⟩
  | const t => intro xs Γ τ hok ha hd hc ht; exact ⟨η, fun _ _ => rfl, ht, fun v hv => by simp [Tm.occs] at hv⟩
  | nil => intro xs Γ τ hok ha hd hc ht; exact ⟨η, fun _ _ => rfl, ht, fun v hv => by simp [Tm.occs] at hv⟩

theorem pick_occs {c : Nat → Nat} {e : Tm} : (∀ v ∈ e.occs, c v < (alts v).length) → (e.pick alts c).occs = [] := by
  induction e with
  | ov v t =>
    intro h
    simp only [Tm.pick, List.getElem?_eq_getElem (h v (by simp [Tm.occs]))]
    rfl
  | app f a ih1 ih2 =>
    intro h
    simp only [Tm.pick, Tm.occs, List.mem_append] at h ⊢
    rw [ih1 fun v hv => h v (.inr hv), ih2 fun v hv => h v (.inl hv)]
    rfl
  | cons f a ih1 ih2 =>
    intro h
    simp only [Tm.pick, Tm.occs, List.mem_append] at h ⊢
    rw [ih1 fun v hv => h v (.inr hv), ih2 fun v hv => h v (.inl hv)]
    rfl
  | lam x b ih => exact ih
  | hint e t ih => exact ih
  | _ => intro _; rfl

theorem alts_occs {e : Tm} : e.Alts ar G alts → ∀ v ∈ e.occs, ∀ a ∈ alts v, a.WF ar ∧ a.All G := by
  induction e with
  | ov v t => intro h w hw; simp only [Tm.occs, List.mem_singleton] at hw; subst hw; exact fun a ha => ⟨(h a ha).1, (h a ha).2.1⟩
  | app f a ih1 ih2 =>
    intro h w hw
    rcases List.mem_append.1 hw with hw | hw
    · exact ih2 h.2 w hw
    · exact ih1 h.1 w hw
  | cons f a ih1 ih2 =>
    intro h w hw
    rcases List.mem_append.1 hw with hw | hw
    · exact ih2 h.2 w hw
    · exact ih1 h.1 w hw
  | lam x b ih => intro h w hw; exact ih h w hw
  | hint e t ih => intro h w hw; exact ih h w hw
  | _ => intro h w hw; simp [Tm.occs] at hw

/-! ### Lists of numbers and functions -/

theorem fit_map {ρ : Nat → Ty} {c : Nat → Nat} : ∀ {us : List (Nat × Ty)}, Fit alts ρ us (us.map fun p => c p.1)
    ↔ ∀ p ∈ us, ∃ a, (alts p.1)[c p.1]? = some a ∧ Instance a (p.2.sub ρ)
  | [] => by simp [Fit]
  | (v, t) :: us => by
    simp only [List.map_cons, Fit, List.mem_cons, forall_eq_or_imp]
    rw [fit_map (us := us)]

theorem chosen_zip : ∀ {vs is : List Nat}, vs.Nodup → vs.length = is.length → vs.map (chosen (vs.zip is)) = is
  | [], [], _, _ => rfl
  | [], _ :: _, _, h => by simp at h
  | _ :: _, [], _, h => by simp at h
  | v :: vs, i :: is, hd, h => by
    simp only [List.nodup_cons] at hd
    have ih := chosen_zip hd.2 (Nat.succ.inj h)
    simp only [List.map_cons, List.zip_cons_cons]
    have h1 : chosen ((v, i) :: vs.zip is) v = i := by simp [chosen]
    rw [h1]
    congr 1
    refine Eq.trans (List.map_congr_left (g := chosen (vs.zip is)) fun w hw => ?_) ih
    have : (w == v) = false := beq_false_of_ne fun e => hd.1 (e ▸ hw)
    simp only [chosen, List.lookup_cons, this]

theorem Fit.length {ρ : Nat → Ty} : ∀ {us : List (Nat × Ty)} {is : List Nat}, Fit alts ρ us is → us.length = is.length
  | [], [], _ => rfl
  | _ :: _, _ :: _, h => by simp [Fit.length h.2]
  | [], _ :: _, h => h.elim
  | _ :: _, [], h => h.elim

/-- After the first pass: the possible choices are those that work. -/
theorem poss_iff {H : Nat → Prop} {e : Tm} {s0 s1 : St} {t : Ty} (R0 : Reach ar G s0) (hsol : ∀ ρ, SolU s0 ρ)
    (hg : Got ar G s0 (fun ρ τ => HasType ρ [] e τ) (fun ρ τ => HasType ρ [] e τ) (t, s1)) (hoc : s1.unres.map (·.1) = e.occs)
    (hok : e.OK ar G H []) (hH : ∀ v, H v → ¬ G v) (ha : e.Alts ar G alts) (hd : e.occs.Nodup) (c : Nat → Nat) :
    (Poss alts s1.bind s1.unres (e.occs.map c) ↔ Works alts e c) ∧
    ∀ τ, (∀ v ∈ e.occs, c v < (alts v).length) → Types (e.pick alts c) τ →
      ∃ ρ, SolU s1 ρ ∧ t.sub ρ = τ ∧ HasType ρ [] (e.pick alts c) τ := by
  have hmap : e.occs.map c = s1.unres.map fun p => c p.1 := by rw [← hoc, List.map_map]; rfl
  have hmem : ∀ v ∈ e.occs, ∃ p ∈ s1.unres, p.1 = v := by
    intro v hv
    rw [← hoc] at hv
    obtain ⟨p, h1, h2⟩ := List.mem_map.1 hv
    exact ⟨p, h1, h2⟩
  have hmem' : ∀ p ∈ s1.unres, p.1 ∈ e.occs := fun p hp => by rw [← hoc]; exact List.mem_map_of_mem hp
  have back : ∀ τ, (∀ v ∈ e.occs, c v < (alts v).length) → Types (e.pick alts c) τ →
      ∃ ρ, SolU s1 ρ ∧ t.sub ρ = τ ∧ HasType ρ [] (e.pick alts c) τ ∧ ∀ v ∈ e.occs, ∃ a, (alts v)[c v]? = some a ∧ Instance a (ρ v) := by
    rintro τ hc ⟨η, hq⟩
    obtain ⟨η', _, b2, b3⟩ := of_pick hH hok ha hd hc hq
    obtain ⟨ρ, c1, c2, c3⟩ := hg.complete η' τ (hsol η') b2
    have c4 := (hg.sound ρ c2).2
    simp only at c3 c4
    rw [c3] at c4
    have hi : ∀ v ∈ e.occs, ∃ a, (alts v)[c v]? = some a ∧ Instance a (ρ v) := by
      intro v hv
      obtain ⟨⟨θ, I⟩, _⟩ := R0
      rw [c1 v (I.gen v (occs_G hok v hv))]
      exact b3 v hv
    exact ⟨ρ, c2, c3, pick_of c4 hi, hi⟩
  refine ⟨?_, fun τ h1 h2 => by obtain ⟨ρ, h3, h4, h5, _⟩ := back τ h1 h2; exact ⟨ρ, h3, h4, h5⟩⟩
  rw [hmap]
  constructor
  · rintro ⟨ρ, h1, h2⟩
    rw [fit_map] at h2
    refine ⟨fun v hv => ?_, ?_⟩
    · obtain ⟨p, hp, rfl⟩ := hmem v hv
      obtain ⟨a, h3, _⟩ := h2 p hp
      exact (List.getElem?_eq_some_iff.1 h3).1
    · obtain ⟨ρ', b1, b2⟩ := solU_of_sol hg.reach (by rw [hoc]; exact hd) h1
      refine ⟨t.sub ρ', ρ', pick_of (hg.sound ρ' b1).2 fun v hv => ?_⟩
      obtain ⟨p, hp, rfl⟩ := hmem v hv
      obtain ⟨a, h3, h4⟩ := h2 p hp
      refine ⟨a, h3, ?_⟩
      rw [b1.2 p hp, Ty.sub_congr (fun w hw => b2 w hw.2) p.2 (hg.reach.2 p hp).2.all]
      exact h4
  · rintro ⟨hc, τ, ht⟩
    obtain ⟨ρ, h1, _, _, h2⟩ := back τ hc ht
    refine ⟨ρ, h1.1, fit_map.2 fun p hp => ?_⟩
    obtain ⟨a, h3, h4⟩ := h2 p.1 (hmem' p hp)
    exact ⟨a, h3, by rw [← h1.2 p hp]; exact h4⟩

/-- The implicit arguments. -/
theorem implicit_ok (R : Reach ar G s) : ∀ (us : List (Nat × Ty)) (t : Ty), (∀ p ∈ us, Good ar G s.next p.2) → Good ar G s.next t →
    ∃ t', Ev (fun n => implicitArgs n s us t) (.ok t') ∧ Good ar G s.next t' ∧ ∀ ρ, Sol s.bind ρ → t'.sub ρ = arrows (us.map fun p => p.2.sub ρ) (t.sub ρ)
  | [], t, _, g => ⟨t, Ev.const _, g, fun _ _ => rfl⟩
  | (v, u) :: us, t, hg, g => by
    rcases resolve_out R t with ⟨b, e1, _, h1, h2⟩ | ⟨_, h⟩
    · rcases resolve_out R u with ⟨a, e2, _, h3, h4⟩ | ⟨_, h⟩
      · obtain ⟨t', e3, h5, h6⟩ := implicit_ok R us (.arrow a b) (fun p hp => hg p (by simp [hp])) (Good.arrow.2 ⟨h3 (hg (v, u) (by simp)), h1 g⟩)
        refine ⟨t', ?_, h5, fun ρ hρ => ?_⟩
        · simp only [implicitArgs]
          refine Ev.bind (a := .arrow a b) ?_ e3
          simp only [mkArrow]
          exact Ev.bind e1 (Ev.bind e2 (Ev.const _))
        · rw [h6 ρ hρ, sub_arrow, h2 ρ hρ, h4 ρ hρ]
          rfl
      · exact h.elim
    · exact h.elim

/-- What `TypeCheck` answers. -/
def OverSpec (ar : String → Nat) (alts : Nat → List Ty) (e : Tm) (n0 : Nat) (tr : List Nat) (r : Over × St) : Prop :=
  n0 ≤ r.2.next ∧ r.2 = ⟨fun _ => none, r.2.next, tr, []⟩ ∧
  match r.1 with
  | .one repl t => Works alts e (chosen repl) ∧ (∀ τ, Types (e.pick alts (chosen repl)) τ ↔ Instance t τ)
      ∧ (∀ c, Works alts e c → ∀ v ∈ e.occs, c v = chosen repl v) ∧ t.WF ar ∧ t.All (fun v => n0 ≤ v ∧ v < r.2.next)
  | .many args t => (∃ c c', Works alts e c ∧ Works alts e c' ∧ ∃ v ∈ e.occs, c v ≠ c' v) ∧ args = e.occs
      ∧ (∀ τ, Instance t τ ↔ ∃ η τ', HasType η [] e τ' ∧ τ = arrows (args.map η) τ') ∧ t.WF ar ∧ t.All (fun v => n0 ≤ v ∧ v < r.2.next)

theorem typeCheckO_out {H : Nat → Prop} {e : Tm} {n0 : Nat} {tr : List Nat} (hok : e.OK ar G H []) (hH : ∀ v, H v → v < n0 ∧ ¬ G v) (hG : ∀ v, G v → v < n0)
    (hd : e.occs.Nodup) (ha : e.Alts ar G alts) : Outcome (fun n => typeCheckO n alts ⟨fun _ => none, n0, tr, []⟩ e)
      (OverSpec ar alts e n0 tr) (∀ c, ¬ Works alts e c) := by
  have hsol : ∀ ρ, SolU ⟨fun _ => none, n0, [], []⟩ ρ := fun ρ => ⟨fun v t h => by simp at h, fun p hp => by simp at hp⟩
  have R0 : Reach ar G ⟨fun _ => none, n0, [], []⟩ := ⟨⟨_, inv_empty hG⟩, fun p hp => by simp at hp⟩
  have hin := (infer_out (env := []) (s := ⟨fun _ => none, n0, [], []⟩) R0 hok hH (by simp)).and fun n r h => infer_occs h
  have hH' : ∀ v, H v → ¬ G v := fun v hv => (hH v hv).2
  simp only [typeCheckO]
  refine Outcome.bind hin (fun r hr => ?_) (fun h c hw => ?_)
  rotate_left
  · obtain ⟨hc, τ, η, hq⟩ := hw
    obtain ⟨η', _, b2, _⟩ := of_pick hH' hok ha hd hc hq
    exact h η' τ (hsol η') b2
  obtain ⟨t, s1⟩ := r
  obtain ⟨hr, hoc⟩ := hr
  simp only [List.map_nil, List.append_nil] at hoc
  have hposs := fun c => poss_iff R0 hsol hr hoc hok hH' ha hd c
  have hn : n0 ≤ s1.next := hr.ext.next
  obtain ⟨k, repl, m, e2, l2, hcnt⟩ := search_ok (alts := alts) s1.unres (fun p hp => alts_occs ha p.1 (by rw [← hoc]; exact List.mem_map_of_mem hp)) s1 hr.reach (fun p hp => (hr.reach.2 p hp).2)
  rw [hoc] at hcnt
  -- a possible list is a choice that works
  have works : ∀ x, Poss alts s1.bind s1.unres x → Works alts e (chosen (e.occs.zip x)) ∧ x = e.occs.map (chosen (e.occs.zip x)) := by
    intro x hx
    obtain ⟨ρ, h1, h2⟩ := hx
    have hlen := h2.length
    have hx' : e.occs.map (chosen (e.occs.zip x)) = x := chosen_zip hd (by rw [← hoc, List.length_map]; exact hlen)
    refine ⟨(hposs _).1.1 ?_, hx'.symm⟩
    rw [hx']
    exact ⟨ρ, h1, h2⟩
  refine Outcome.bind (P := fun r => r = (k, repl, { s1 with next := m })) (N := False) (.inl ⟨_, e2, rfl⟩) (fun r hr' => ?_) False.elim
  subst hr'
  simp only
  have Rm : Reach ar G { s1 with next := m } := hr.reach.more l2
  have xm : Ext ⟨fun _ => none, n0, [], []⟩ { s1 with next := m } := hr.ext.trans (Ext.more s1 l2)
  match k, hcnt with
  | 0, hcnt =>
    refine Outcome.fail fun c hw => ?_
    exact hcnt _ ((hposs c).1.2 hw)
  | 1, ⟨x, hx, hrepl, hu⟩ =>
    simp only [Nat.one_ne_zero, if_false, if_true]
    obtain ⟨hw, hx2⟩ := works x hx
    rw [← hrepl] at hw hx2
    have hocc2 : ∀ c, Works alts e c → ∀ v ∈ e.occs, c v = chosen repl v := by
      intro c hc v hv
      have := hu _ ((hposs c).1.2 hc)
      rw [hx2] at this
      exact List.map_inj_left.1 this v hv
    have Rm0 : Reach ar G { s1 with next := m, unres := [] } := Rm.noUnres
    have hin2 := (infer_out (env := []) Rm0 (pick_ok (c := chosen repl) hok ha) (fun v hv => ⟨Nat.lt_of_lt_of_le (hH v hv).1 (Nat.le_trans hn l2), (hH v hv).2⟩)
      (by simp)).and fun n r h => infer_occs h
    refine Outcome.bind hin2 (fun r h2 => ?_) (fun h => ?_)
    · obtain ⟨t2, s2⟩ := r
      obtain ⟨h2, hun⟩ := h2
      simp only [pick_occs hw.1, List.map_nil, List.append_nil, List.map_eq_nil_iff] at hun
      obtain ⟨θ, I⟩ := h2.reach.1
      refine Outcome.bind (inst_out I (I.goodSub h2.good).wf) (fun r h => ?_) False.elim
      obtain ⟨t', s3⟩ := r
      obtain ⟨m3, l3, h3, h4, h5, h6, h7⟩ := h
      simp only at h3 h4 h5 h6 h7
      subst h3
      have xs : Ext ⟨fun _ => none, n0, [], []⟩ { s2 with next := m3 } :=
        (xm.trans ⟨h2.ext.next, h2.ext.trail⟩).trans (Ext.more s2 l3)
      obtain ⟨l, q1, q2⟩ := xs.trail
      simp only [List.append_nil] at q1 q2
      have hn2 : n0 ≤ s2.next := Nat.le_trans (Nat.le_trans hn l2) h2.ext.next
      refine Outcome.pure ⟨Nat.le_trans hn2 l3, ?_, hw, ?_, hocc2, h4, h5.mono fun v hv => ⟨Nat.le_trans hn2 hv.1, hv.2⟩⟩
      · simp only [q1, q2]
      · intro τ
        constructor
        · intro hq
          obtain ⟨ρ, a1, _, a3⟩ := (hposs _).2 τ hw.1 hq
          obtain ⟨ρ', _, b2, b3⟩ := h2.complete ρ τ ⟨a1.1, fun p hp => by simp at hp⟩ a3
          obtain ⟨ρ'', _, c2⟩ := h7 ρ' ρ'
          exact ⟨ρ'', by rw [c2, I.mgt b2.1]; exact b3.symm⟩
        · rintro ⟨ρ, rfl⟩
          obtain ⟨κ, hκ⟩ := h6 ρ
          have := (h2.sound _ ⟨I.sol.comp κ, fun p hp => by rw [hun] at hp; simp at hp⟩).2
          refine ⟨fun v => (θ v).sub κ, ?_⟩
          rw [hκ, Ty.sub_sub]
          exact this
    · obtain ⟨τ, hq⟩ := hw.2
      obtain ⟨ρ, a1, _, a3⟩ := (hposs _).2 τ hw.1 hq
      exact absurd a3 (h ρ τ ⟨a1.1, fun p hp => by simp at hp⟩)
  | k + 2, ⟨x, y, hx, hy, hne⟩ =>
    simp only [show ¬ (k + 2 = 0) by omega, show ¬ (k + 2 = 1) by omega, if_false]
    obtain ⟨hwx, hx2⟩ := works x hx
    obtain ⟨hwy, hy2⟩ := works y hy
    obtain ⟨t1, e3, g3, h3⟩ := implicit_ok Rm s1.unres t (fun p hp => (Rm.2 p hp).2) (hr.good.mono l2)
    refine Outcome.bind (P := fun r => r = t1) (N := False) (.inl ⟨_, e3, rfl⟩) (fun r hr' => ?_) False.elim
    subst hr'
    obtain ⟨θ, I⟩ := Rm.1
    refine Outcome.bind (inst_out I (I.goodSub g3).wf) (fun r h => ?_) False.elim
    obtain ⟨t', s3⟩ := r
    obtain ⟨m3, l3, hs3, h4, h5, h6, h7⟩ := h
    simp only at hs3 h4 h5 h6 h7 l3
    subst hs3
    have xs : Ext ⟨fun _ => none, n0, [], []⟩ { s1 with next := m3 } := hr.ext.trans (Ext.more s1 (Nat.le_trans l2 l3))
    obtain ⟨l, q1, q2⟩ := xs.trail
    simp only [List.append_nil] at q1 q2
    refine Outcome.pure ⟨Nat.le_trans hn (Nat.le_trans l2 l3), ?_, ⟨_, _, hwx, hwy, ?_⟩, hoc, ?_, h4, h5.mono fun v hv => ⟨Nat.le_trans (Nat.le_trans hn l2) hv.1, hv.2⟩⟩
    · simp only [q1, q2]
    · by_contra hall
      refine hne ?_
      rw [hx2, hy2]
      refine List.map_congr_left fun v hv => ?_
      by_contra hv'
      exact hall ⟨v, hv, hv'⟩
    · have hlab : ∀ ρ, SolU s1 ρ → s1.unres.map (fun p => p.2.sub ρ) = (s1.unres.map (·.1)).map ρ := by
        intro ρ hρ
        rw [List.map_map]
        exact List.map_congr_left fun p hp => (hρ.2 p hp).symm
      intro τ
      constructor
      · rintro ⟨ρ, rfl⟩
        obtain ⟨κ, hκ⟩ := h6 ρ
        obtain ⟨ρ', b1, b2⟩ := solU_of_sol hr.reach (by rw [hoc]; exact hd) (I.sol.comp κ)
        refine ⟨ρ', t.sub ρ', (hr.sound _ b1).2, ?_⟩
        rw [hκ, Ty.sub_sub, ← Ty.sub_congr (fun w hw => b2 w hw.2) _ g3.all, h3 ρ' b1.1, hlab ρ' b1]
      · rintro ⟨η, τ', hq, rfl⟩
        obtain ⟨ρ, a1, a2, a3⟩ := hr.complete η τ' (hsol η) hq
        obtain ⟨ρ', _, c2⟩ := h7 ρ ρ
        refine ⟨ρ', ?_⟩
        rw [c2, I.mgt a2.1, h3 ρ a2.1, hlab ρ a2]
        simp only at a3
        rw [a3]
        congr 1
        refine List.map_congr_left fun v hv => ?_
        exact (a1 v (hG v (occs_G hok v (by rw [← hoc]; exact hv)))).symm

/-! ### More fuel -/

theorem typeEq_mono (b : Nat → Option Ty) (n : Nat) : ∀ {m : Nat}, n ≤ m →
    (∀ t1 t2, OLe (typeEq b n t1 t2) (typeEq b m t1 t2)) ∧ ∀ ts1 ts2, OLe (typeEqAll b n ts1 ts2) (typeEqAll b m ts1 ts2) := by
  induction n with
  | zero => intro m _; exact ⟨fun _ _ => .inl rfl, fun _ _ => .inl rfl⟩
  | succ n ih =>
    intro m h
    obtain ⟨m, rfl⟩ : ∃ k, m = k + 1 := ⟨m - 1, by omega⟩
    have hm : n ≤ m := by omega
    obtain ⟨i1, i2⟩ := ih hm
    constructor
    · intro t1 t2
      simp only [typeEq]
      refine OLe.bind (resolve_mono b t1 hm) fun x => OLe.bind (resolve_mono b t2 hm) fun y => ?_
      cases x with
      | var v => cases y <;> exact .inr rfl
      | con o ts => cases y with
        | var w => exact .inr rfl
        | con o' ts' =>
          simp only
          split
          · exact .inr rfl
          · exact i2 ts ts'
    · intro ts1 ts2
      cases ts1 with
      | nil => cases ts2 <;> exact .inr rfl
      | cons t ts => cases ts2 with
        | nil => exact .inr rfl
        | cons t' ts' =>
          simp only [typeEqAll]
          refine OLe.bind (i1 t t') fun x => ?_
          split
          · exact i2 ts ts'
          · exact .inr rfl

theorem test_mono {n m : Nat} (h : n ≤ m) (s : St) (t1 t2 : Ty) : RLe (test n s t1 t2) (test m s t1 t2) := by
  simp only [test]
  refine RLe.bind ((typeEq_mono _ n h).1 t1 t2).ofOption fun x => ?_
  split
  · exact .inr rfl
  · exact (unify_mono n h).1 s t1 t2

theorem tryAlts_mono {n m : Nat} (h : n ≤ m) {v : Nat} {cur : Ty} {f g : St → Res Found} (hf : ∀ s, RLe (f s) (g s)) :
    ∀ as i cnt repl s, RLe (tryAlts n v cur f as i cnt repl s) (tryAlts m v cur g as i cnt repl s) := by
  intro as
  induction as with
  | nil => intro i cnt repl s; exact .inr rfl
  | cons a as ih =>
    intro i cnt repl s
    simp only [tryAlts]
    refine RLe.bind (inst_mono h s a) fun x => RLe.bind (test_mono h _ _ _) fun y => ?_
    split
    · refine RLe.bind (inst_mono h _ a) fun z => RLe.bind ((unify_mono n h).1 _ _ _) fun w => ?_
      split
      · refine RLe.bind (hf _) fun q => ?_
        split
        · exact .inr rfl
        · split
          · exact ih _ _ _ _
          · exact ih _ _ _ _
      · exact .inr rfl
    · exact ih _ _ _ _

theorem search_mono {n m : Nat} (h : n ≤ m) : ∀ (us : List (Nat × Ty)) s, RLe (search n alts us s) (search m alts us s)
  | [], _ => .inr rfl
  | (v, t) :: us, s => by
    simp only [search]
    exact RLe.bind (resolve_mono _ t h).ofOption fun x => tryAlts_mono h (search_mono h us) _ _ _ _ _

theorem implicitArgs_mono {n m : Nat} (h : n ≤ m) (s : St) : ∀ (us : List (Nat × Ty)) t, RLe (implicitArgs n s us t) (implicitArgs m s us t)
  | [], _ => .inr rfl
  | (v, u) :: us, t => by
    simp only [implicitArgs]
    exact RLe.bind (mkArrow_mono h _ _ _) fun x => implicitArgs_mono h s us x

theorem typeCheckO_mono {n m : Nat} (h : n ≤ m) (s : St) (e : Tm) : RLe (typeCheckO n alts s e) (typeCheckO m alts s e) := by
  simp only [typeCheckO]
  refine RLe.bind (infer_mono h e _ _) fun x => RLe.bind (search_mono h _ _) fun y => ?_
  split
  · exact .inr rfl
  · split
    · exact RLe.bind (infer_mono h _ _ _) fun z => RLe.bind (inst_mono h _ _) fun w => .inr rfl
    · exact RLe.bind (implicitArgs_mono h _ _ _) fun z => RLe.bind (inst_mono h _ _) fun w => .inr rfl

/-! ### The common type -/

mutual
theorem Ty.vars_congr {ρ σ : Nat → Ty} : ∀ {t : Ty}, (∀ v ∈ t.vars, ρ v = σ v) → t.sub ρ = t.sub σ
  | .var v, h => h v (by simp [Ty.vars])
  | .con o ts, h => by
    simp only [Ty.sub]
    rw [Tys.vars_congr (t := ts) h]
theorem Tys.vars_congr {ρ σ : Nat → Ty} : ∀ {t : Tys}, (∀ v ∈ t.vars, ρ v = σ v) → t.sub ρ = t.sub σ
  | .nil, _ => rfl
  | .cons t ts, h => by
    simp only [Tys.sub]
    rw [Ty.vars_congr (t := t) fun v hv => h v (by simp [Tys.vars, hv]), Tys.vars_congr (t := ts) fun v hv => h v (by simp [Tys.vars, hv])]
end

/-- What `common` returns for a type whose variables are all different: it generalises both. -/
structure Gen (next : Nat) (vs : List Nat) (next' : Nat) (us : List Nat) : Prop where
  le : next ≤ next'
  nodup : us.Nodup
  mem : ∀ v ∈ us, v ∈ vs ∨ next ≤ v ∧ v < next'

theorem Tys.both {t : Ty} {ts : Tys} {a : Ty} {as : Tys} (hd : (t.vars ++ ts.vars).Nodup) (h1 : ∃ ρ, t.sub ρ = a) (h2 : ∃ ρ, ts.sub ρ = as) :
    ∃ ρ, (Tys.cons t ts).sub ρ = .cons a as := by
  classical
  obtain ⟨ρ1, e1⟩ := h1
  obtain ⟨ρ2, e2⟩ := h2
  refine ⟨fun v => if v ∈ t.vars then ρ1 v else ρ2 v, ?_⟩
  simp only [Tys.sub]
  rw [Ty.vars_congr (t := t) (σ := ρ1) fun v hv => by simp [hv], Tys.vars_congr (t := ts) (σ := ρ2) fun v hv => by
    have : v ∉ t.vars := fun h => (List.nodup_append.1 hd).2.2 v h v hv rfl
    simp [this], e1, e2]

mutual
theorem common_gen : ∀ (t1 t2 : Ty) (next : Nat), t1.WF ar → t2.WF ar → t1.vars.Nodup → (∀ v ∈ t1.vars, v < next) → t2.vars = [] →
    Gen next t1.vars (common next t1 t2).2 (common next t1 t2).1.vars ∧ (∃ ρ, (common next t1 t2).1.sub ρ = t1) ∧ ∃ ρ, (common next t1 t2).1.sub ρ = t2
  | .var v, t2, next, _, _, hd, hlt, hg => by
    have : common next (.var v) t2 = (.var v, next) := by
      rw [common]
      split <;> rfl
    rw [this]
    refine ⟨⟨Nat.le_refl _, hd, fun w hw => .inl hw⟩, ⟨.var, rfl⟩, ⟨fun _ => t2, rfl⟩⟩
  | .con o ts, .var w, next, _, _, hd, hlt, hg => by simp [Ty.vars] at hg
  | .con o ts, .con o' ts', next, w1, w2, hd, hlt, hg => by
    have refl : ∀ t : Ty, ∃ ρ, t.sub ρ = t := fun t => ⟨.var, t.sub_var⟩
    by_cases heq : Ty.con o ts = .con o' ts'
    · have : common next (.con o ts) (.con o' ts') = (.con o ts, next) := by
        rw [heq]
        cases o' <;> simp [common]
      rw [this]
      exact ⟨⟨Nat.le_refl _, hd, fun w hw => .inl hw⟩, refl _, by rw [← heq]; exact refl _⟩
    · by_cases ho : o = .arrow ∧ o' = .arrow
      · obtain ⟨rfl, rfl⟩ := ho
        have : common next (.con .arrow ts) (.con .arrow ts') = (.con .arrow (commonAll next ts ts').1, (commonAll next ts ts').2) := by
          simp only [common, if_neg heq]
        rw [this]
        obtain ⟨g, ⟨ρ1, h1⟩, ⟨ρ2, h2⟩⟩ := commonAll_gen ts ts' next w1.2 w2.2 hd hlt hg (w1.1.trans w2.1.symm)
        exact ⟨g, ⟨ρ1, by simp only [Ty.sub, h1]⟩, ⟨ρ2, by simp only [Ty.sub, h2]⟩⟩
      · have : common next (.con o ts) (.con o' ts') = (.var next, next + 1) := by
          rw [common.eq_def]
          split
          · next h h' => cases h; cases h'; exact absurd ⟨rfl, rfl⟩ ho
          · rw [if_neg heq]
        rw [this]
        refine ⟨⟨by omega, by simp [Ty.vars], fun v hv => ?_⟩, ⟨fun _ => _, rfl⟩, ⟨fun _ => _, rfl⟩⟩
        simp only [Ty.vars, List.mem_singleton] at hv
        subst hv
        exact .inr ⟨Nat.le_refl _, by simp⟩
theorem commonAll_gen : ∀ (ts1 ts2 : Tys) (next : Nat), ts1.WF ar → ts2.WF ar → ts1.vars.Nodup → (∀ v ∈ ts1.vars, v < next) → ts2.vars = [] → ts1.length = ts2.length →
    Gen next ts1.vars (commonAll next ts1 ts2).2 (commonAll next ts1 ts2).1.vars ∧ (∃ ρ, (commonAll next ts1 ts2).1.sub ρ = ts1) ∧ ∃ ρ, (commonAll next ts1 ts2).1.sub ρ = ts2
  | .nil, .nil, next, _, _, _, _, _, _ => ⟨⟨Nat.le_refl _, by simp [commonAll, Tys.vars], fun v hv => .inl hv⟩, ⟨.var, rfl⟩, ⟨.var, rfl⟩⟩
  | .nil, .cons _ _, _, _, _, _, _, _, h => by simp [Tys.length] at h
  | .cons _ _, .nil, _, _, _, _, _, _, h => by simp [Tys.length] at h
  | .cons t ts, .cons t' ts', next, w1, w2, hd, hlt, hg, hl => by
    simp only [Tys.vars, List.append_eq_nil_iff] at hd hg
    simp only [Tys.vars, List.mem_append] at hlt
    obtain ⟨d1, d2, d3⟩ := List.nodup_append.1 hd
    obtain ⟨g1, p1, q1⟩ := commonAll_gen ts ts' next w1.2 w2.2 d2 (fun v hv => hlt v (.inr hv)) hg.2 (Nat.succ.inj hl)
    obtain ⟨g2, p2, q2⟩ := common_gen t t' (commonAll next ts ts').2 w1.1 w2.1 d1 (fun v hv => Nat.lt_of_lt_of_le (hlt v (.inl hv)) g1.le) hg.1
    simp only [commonAll]
    have hnd : ((common (commonAll next ts ts').2 t t').1.vars ++ (commonAll next ts ts').1.vars).Nodup := by
      refine List.nodup_append.2 ⟨g2.nodup, g1.nodup, fun v hv w hw e => ?_⟩
      subst e
      rcases g2.mem v hv with h | h
      · rcases g1.mem v hw with h' | h'
        · exact d3 v h v h' rfl
        · have := hlt v (.inl h); omega
      · rcases g1.mem v hw with h' | h'
        · have := hlt v (.inr h'); have := g1.le; omega
        · omega
    refine ⟨⟨Nat.le_trans g1.le g2.le, hnd, fun v hv => ?_⟩, Tys.both hnd p2 p1, Tys.both hnd q2 q1⟩
    simp only [Tys.vars, List.mem_append] at hv ⊢
    have l1 := g1.le
    have l2 := g2.le
    rcases hv with hv | hv
    · rcases g2.mem v hv with h | h
      · exact .inl (.inl h)
      · exact .inr ⟨by omega, h.2⟩
    · rcases g1.mem v hv with h | h
      · exact .inl (.inr h)
      · exact .inr ⟨h.1, by omega⟩
end

mutual
theorem Ty.wf_of_sub {ρ : Nat → Ty} : ∀ {t : Ty}, (t.sub ρ).WF ar → t.WF ar
  | .var _, _ => trivial
  | .con o ts, h => ⟨by rw [← Tys.length_sub (ρ := ρ)]; exact h.1, Tys.wf_of_sub h.2⟩
theorem Tys.wf_of_sub {ρ : Nat → Ty} : ∀ {t : Tys}, (t.sub ρ).WF ar → t.WF ar
  | .nil, _ => trivial
  | .cons t ts, h => ⟨Ty.wf_of_sub h.1, Tys.wf_of_sub h.2⟩
end

theorem Instance.trans {a b c : Ty} (h1 : Instance a b) (h2 : Instance b c) : Instance a c := by
  obtain ⟨ρ, rfl⟩ := h1
  obtain ⟨σ, rfl⟩ := h2
  exact ⟨_, Ty.sub_sub ρ σ a⟩

theorem foldl_gen : ∀ (as : List Ty) (t : Ty) (next : Nat), t.WF ar → (∀ a ∈ as, a.WF ar ∧ a.vars = []) → t.vars.Nodup → (∀ v ∈ t.vars, v < next) →
    let r := as.foldl (fun p b => common p.2 p.1 b) (t, next)
    Instance r.1 t ∧ (∀ a ∈ as, Instance r.1 a) ∧ r.1.WF ar
  | [], t, next, hw, _, _, _ => ⟨⟨.var, t.sub_var.symm⟩, by simp, hw⟩
  | a :: as, t, next, hw, ha, hd, hlt => by
    obtain ⟨h1, h2⟩ := ha a (by simp)
    obtain ⟨g, ⟨ρ1, e1⟩, ⟨ρ2, e2⟩⟩ := common_gen t a next hw h1 hd hlt h2
    have hw' : (common next t a).1.WF ar := Ty.wf_of_sub (ρ := ρ1) (by rw [e1]; exact hw)
    have hlt' : ∀ v ∈ (common next t a).1.vars, v < (common next t a).2 := by
      intro v hv
      rcases g.mem v hv with h | h
      · exact Nat.lt_of_lt_of_le (hlt v h) g.le
      · exact h.2
    obtain ⟨i1, i2, i3⟩ := foldl_gen as _ _ hw' (fun b hb => ha b (by simp [hb])) g.nodup hlt'
    simp only [List.foldl_cons]
    refine ⟨i1.trans ⟨ρ1, e1.symm⟩, fun b hb => ?_, i3⟩
    · rcases List.mem_cons.1 hb with rfl | hb
      · exact i1.trans ⟨ρ2, e2.symm⟩
      · exact i2 b hb

end Voss.TC
