import Verif.Slist.Spec
import Verif.Pre.PowLemmas
/- Lemmas for C99. -/
namespace Voss.Slist
open Voss.Pre

variable {o : Order} {V W A B : Type}

/-! ### Evaluations that give a value with a property, or fail when something is not the case -/

/-- The evaluation gives a value with property `P`; it fails only if `T` does not hold. -/
def Yields {α : Type} (T : Prop) (x : Out α) (P : α → Prop) : Prop :=
  match x with
  | .ok a => P a
  | .fail => ¬ T
  | .more => False

theorem Yields.iff {α : Type} {T : Prop} {x : Out α} {P : α → Prop} : Yields T x P ↔ Computes x T P := by
  cases x <;> simp [Yields, Computes]

theorem Yields.bind {α β : Type} {T : Prop} {x : Out α} {P : α → Prop} {f : α → Out β} {Q : β → Prop}
    (h : Yields T x P) (hf : ∀ a, P a → Yields T (f a) Q) : Yields T (x.bind f) Q := by
  cases x with
  | ok a => exact hf a h
  | fail => exact h
  | more => exact h

theorem Yields.mono {α : Type} {T : Prop} {x : Out α} {P Q : α → Prop} (h : Yields T x P)
    (hq : ∀ a, P a → Q a) : Yields T x Q := by
  cases x with
  | ok a => exact hq a h
  | fail => exact h
  | more => exact h

theorem Yields.weak {α : Type} {T T' : Prop} {x : Out α} {P : α → Prop} (h : Yields T x P)
    (ht : T' → T) : Yields T' x P := by
  cases x with
  | ok a => exact h
  | fail => exact fun t => h (ht t)
  | more => exact h

theorem Yields.ok {α : Type} {T : Prop} {x : Out α} {P : α → Prop} {a : α} (h : Yields T x P) (hx : x = .ok a) :
    P a := by
  subst hx
  exact h

theorem Yields.exists {α : Type} {T : Prop} {x : Out α} {P : α → Prop} (h : Yields T x P) (ht : T) :
    ∃ a, x = .ok a ∧ P a := by
  cases x with
  | ok a => exact ⟨a, rfl, h⟩
  | fail => exact absurd ht h
  | more => exact absurd h id

/-- A conditional. -/
theorem branch_yields {α : Type} {T : Prop} {p c : Fn o} {t e : Fn o → Out α} {merge : Fn o → α → α → Out α}
    {R : α → Prop} {Q : Env → α → Prop} (hp : ∃ η, p.ev η = true)
    (ht : ∀ p', (∃ η, p'.ev η = true) → (∀ η, p'.ev η = true ↔ p.ev η = true ∧ c.ev η = true) →
      Yields T (t p') fun x => R x ∧ ∀ η, p'.ev η = true → Q η x)
    (he : ∀ p', (∃ η, p'.ev η = true) → (∀ η, p'.ev η = true ↔ p.ev η = true ∧ c.ev η = false) →
      Yields T (e p') fun x => R x ∧ ∀ η, p'.ev η = true → Q η x)
    (hm : ∀ x y, R x → R y → Yields T (merge c x y) fun z => R z ∧
      ∀ η, (c.ev η = true → Q η x → Q η z) ∧ (c.ev η = false → Q η y → Q η z)) :
    Yields T (branch p c t e merge) fun z => R z ∧ ∀ η, p.ev η = true → Q η z := by
  unfold branch
  by_cases c1 : c = Fn.tt o
  · rw [if_pos c1]
    exact ht p hp fun η => by simp [c1]
  rw [if_neg c1]
  by_cases c2 : c = Fn.ff o
  · rw [if_pos c2]
    exact he p hp fun η => by simp [c2]
  rw [if_neg c2]
  by_cases c3 : p.and c = Fn.ff o
  · rw [if_pos c3]
    have h : ∀ η, p.ev η = true → c.ev η = false := fun η hη => by
      have := Fn.ff_iff.1 c3 η
      simpa [hη] using this
    have hiff : ∀ η, (p.and c.not).ev η = true ↔ p.ev η = true ∧ c.ev η = false := fun η => by simp
    obtain ⟨η, hη⟩ := hp
    refine (he _ ⟨η, (hiff η).2 ⟨hη, h η hη⟩⟩ hiff).mono fun x hx => ⟨hx.1, fun η hη => ?_⟩
    exact hx.2 η ((hiff η).2 ⟨hη, h η hη⟩)
  rw [if_neg c3]
  by_cases c4 : p.and c.not = Fn.ff o
  · rw [if_pos c4]
    have h : ∀ η, p.ev η = true → c.ev η = true := fun η hη => by
      have := Fn.ff_iff.1 c4 η
      simpa [hη] using this
    have hiff : ∀ η, (p.and c).ev η = true ↔ p.ev η = true ∧ c.ev η = true := fun η => by simp
    obtain ⟨η, hη⟩ := hp
    refine (ht _ ⟨η, (hiff η).2 ⟨hη, h η hη⟩⟩ hiff).mono fun x hx => ⟨hx.1, fun η hη => ?_⟩
    exact hx.2 η ((hiff η).2 ⟨hη, h η hη⟩)
  rw [if_neg c4]
  have i1 : ∀ η, (p.and c).ev η = true ↔ p.ev η = true ∧ c.ev η = true := fun η => by simp
  have i2 : ∀ η, (p.and c.not).ev η = true ↔ p.ev η = true ∧ c.ev η = false := fun η => by simp
  refine (ht _ (Fn.ne_ff.1 c3) i1).bind fun x hx => ?_
  refine (he _ (Fn.ne_ff.1 c4) i2).bind fun y hy => ?_
  refine (hm x y hx.1 hy.1).mono fun z hz => ⟨hz.1, fun η hη => ?_⟩
  cases hc : c.ev η
  · exact (hz.2 η).2 hc (hy.2 η ((i2 η).2 ⟨hη, hc⟩))
  · exact (hz.2 η).1 hc (hx.2 η ((i1 η).2 ⟨hη, hc⟩))

/-! ### Merging -/

theorem Means.yields {m : Fn o → V → V → Out V} {G : V → Prop} {d : V → Env → A} (hm : Means m G d) (c : Fn o)
    {x y : V} (hx : G x) (hy : G y) :
    Yields (Total m G) (m c x y) fun z => G z ∧ ∀ η, d z η = if c.ev η then d x η else d y η := by
  cases h : m c x y with
  | ok z => exact hm.right c x y z hx hy h
  | fail =>
    intro ht
    obtain ⟨z, hz⟩ := ht c x y hx hy
    rw [h] at hz
    cases hz
  | more => exact absurd h (hm.stops c x y)

theorem mergeOpt_yields {m : Fn o → V → V → Out V} {G : V → Prop} {d : V → Env → A} (hm : Means m G d) (c : Fn o)
    (x y : Option V) (hx : ∀ h, x = some h → G h) (hy : ∀ h, y = some h → G h) :
    Yields (Total m G) (mergeOpt m c x y) fun z => (∀ h, z = some h → G h) ∧ (x ≠ none ∨ y ≠ none → z ≠ none) ∧
      ∀ η, (∀ h, x = some h → c.ev η = true → ∃ h', z = some h' ∧ d h' η = d h η) ∧
        (∀ h, y = some h → c.ev η = false → ∃ h', z = some h' ∧ d h' η = d h η) := by
  cases x with
  | none =>
    cases y with
    | none => exact ⟨by simp, by simp, by simp⟩
    | some y =>
      refine (hm.yields c (hy y rfl) (hy y rfl)).bind fun z hz => ⟨?_, by simp, fun η => ⟨by simp, ?_⟩⟩
      · rintro h ⟨⟩; exact hz.1
      · rintro h ⟨⟩ hc
        exact ⟨z, rfl, by rw [hz.2]; simp⟩
  | some x =>
    cases y with
    | none =>
      refine (hm.yields c (hx x rfl) (hx x rfl)).bind fun z hz => ⟨?_, by simp, fun η => ⟨?_, by simp⟩⟩
      · rintro h ⟨⟩; exact hz.1
      · rintro h ⟨⟩ hc
        exact ⟨z, rfl, by rw [hz.2]; simp⟩
    | some y =>
      refine (hm.yields c (hx x rfl) (hy y rfl)).bind fun z hz => ⟨?_, by simp, fun η => ⟨?_, ?_⟩⟩
      · rintro h ⟨⟩; exact hz.1
      · rintro h ⟨⟩ hc
        exact ⟨z, rfl, by rw [hz.2, if_pos hc]⟩
      · rintro h ⟨⟩ hc
        exact ⟨z, rfl, by rw [hz.2, hc]; simp⟩

theorem ite_self (c l : Fn o) : (c.and l).or (c.not.and l) = l := Fn.ext fun η => by
  simp only [Fn.or_ev, Fn.and_ev, Fn.not_ev]
  cases c.ev η <;> simp

theorem mergeSelf_yields {m : Fn o → V → V → Out V} {G : V → Prop} {d : V → Env → A} (hm : Means m G d) (c : Fn o)
    (x : SList o V) (hx : Sound G x) :
    Yields (Total m G) (mergeSelf m c x) fun z => Sound G z ∧ (x ≠ .none → z ≠ .none) ∧
      ∀ η, den d z η = den d x η := by
  induction x with
  | none => exact ⟨trivial, fun h => h, fun η => rfl⟩
  | node l h t ih =>
    obtain ⟨h1, h2, h3⟩ := hx
    unfold mergeSelf
    simp only [mergeBool, Out.bind, ite_self]
    refine (mergeOpt_yields hm c h h h2 h2).bind fun h' hh => (ih h3).bind fun t' ht => ⟨?_, by simp, fun η => ?_⟩
    · refine ⟨fun hl => ⟨hh.2.1 (Or.inl (h1 hl).1), ht.2.1 (h1 hl).2⟩, hh.1, ht.1⟩
    · simp only [den]
      split
      · rfl
      · cases h with
        | none =>
          rename_i hl
          have : l ≠ Fn.tt o := by
            rintro rfl
            simp at hl
          exact absurd rfl (h1 this).1
        | some h =>
          have : ∃ a, h' = some a ∧ d a η = d h η := by
            cases hc : c.ev η
            · exact (hh.2.2 η).2 h rfl hc
            · exact (hh.2.2 η).1 h rfl hc
          obtain ⟨a, rfl, ha⟩ := this
          simp only [ha, ht.2.2]

theorem merge_yields' {m : Fn o → V → V → Out V} {G : V → Prop} {d : V → Env → A} (hm : Means m G d) (c : Fn o)
    (x y : SList o V) (hx : Sound G x) (hy : Sound G y) :
    Yields (Total m G) (merge m c x y) fun z => Sound G z ∧ (x ≠ .none ∨ y ≠ .none → z ≠ .none) ∧
      ∀ η, (c.ev η = true → x ≠ .none → den d z η = den d x η) ∧
        (c.ev η = false → y ≠ .none → den d z η = den d y η) := by
  induction x generalizing y with
  | none =>
    unfold merge
    refine (mergeSelf_yields hm c y hy).mono fun z hz => ⟨hz.1, fun h => hz.2.1 (by simpa using h), fun η => ?_⟩
    exact ⟨fun _ h => absurd rfl h, fun _ _ => hz.2.2 η⟩
  | node l1 h1 t1 ih =>
    cases y with
    | none =>
      unfold merge
      refine (mergeSelf_yields hm c _ hx).mono fun z hz => ⟨hz.1, fun h => hz.2.1 (by simp), fun η => ?_⟩
      exact ⟨fun _ _ => hz.2.2 η, fun _ h => absurd rfl h⟩
    | node l2 h2 t2 =>
      obtain ⟨x1, x2, x3⟩ := hx
      obtain ⟨y1, y2, y3⟩ := hy
      unfold merge
      simp only [mergeBool, Out.bind]
      refine (mergeOpt_yields hm c h1 h2 x2 y2).bind fun h' hh => (ih t2 x3 y3).bind fun t' ht => ?_
      refine ⟨⟨fun hl => ?_, hh.1, ht.1⟩, by simp, fun η => ⟨fun hc _ => ?_, fun hc _ => ?_⟩⟩
      · have : l1 ≠ Fn.tt o ∨ l2 ≠ Fn.tt o := by
          by_cases e1 : l1 = Fn.tt o
          · right
            rintro rfl
            subst e1
            exact hl (ite_self c _)
          · exact Or.inl e1
        rcases this with e | e
        · exact ⟨hh.2.1 (Or.inl (x1 e).1), ht.2.1 (Or.inl (x1 e).2)⟩
        · exact ⟨hh.2.1 (Or.inr (y1 e).1), ht.2.1 (Or.inr (y1 e).2)⟩
      · have hl : ((c.and l1).or (c.not.and l2)).ev η = l1.ev η := by simp [hc]
        simp only [den, hl]
        split
        · rfl
        · rename_i hf
          have hne : l1 ≠ Fn.tt o := by
            rintro rfl
            simp at hf
          obtain ⟨e1, e2⟩ := x1 hne
          cases h1 with
          | none => exact absurd rfl e1
          | some h =>
            obtain ⟨a, rfl, ha⟩ := (hh.2.2 η).1 h rfl hc
            simp only [ha, (ht.2.2 η).1 hc e2]
      · have hl : ((c.and l1).or (c.not.and l2)).ev η = l2.ev η := by simp [hc]
        simp only [den, hl]
        split
        · rfl
        · rename_i hf
          have hne : l2 ≠ Fn.tt o := by
            rintro rfl
            simp at hf
          obtain ⟨e1, e2⟩ := y1 hne
          cases h2 with
          | none => exact absurd rfl e1
          | some h =>
            obtain ⟨a, rfl, ha⟩ := (hh.2.2 η).2 h rfl hc
            simp only [ha, (ht.2.2 η).2 hc e2]

theorem mergeOpt_stops {m : Fn o → V → V → Out V} (hm : ∀ c x y, m c x y ≠ .more) (c : Fn o) (x y : Option V) :
    mergeOpt m c x y ≠ .more := by
  have key : ∀ x y, ((m c x y).bind fun z => Out.ok (some z)) ≠ .more := fun x y => by
    have := hm c x y
    cases h : m c x y with
    | ok z => simp [Out.bind]
    | fail => simp [Out.bind]
    | more => exact absurd h this
  cases x <;> cases y
  · simp [mergeOpt]
  · exact key _ _
  · exact key _ _
  · exact key _ _

theorem node_stops {c l1 l2 : Fn o} {h : Out (Option V)} {t : Out (SList o V)} (hh : h ≠ .more) (ht : t ≠ .more) :
    ((mergeBool c l1 l2).bind fun l => h.bind fun h => t.bind fun t => Out.ok (SList.node l h t)) ≠ .more := by
  cases h <;> cases t <;> simp_all [mergeBool, Out.bind]

theorem mergeSelf_stops {m : Fn o → V → V → Out V} (hm : ∀ c x y, m c x y ≠ .more) (c : Fn o) (x : SList o V) :
    mergeSelf m c x ≠ .more := by
  induction x with
  | none => simp [mergeSelf]
  | node l h t ih => exact node_stops (mergeOpt_stops hm c h h) ih

theorem merge_stops {m : Fn o → V → V → Out V} (hm : ∀ c x y, m c x y ≠ .more) (c : Fn o) (x y : SList o V) :
    merge m c x y ≠ .more := by
  induction x generalizing y with
  | none => unfold merge; exact mergeSelf_stops hm c y
  | node l h t ih =>
    cases y with
    | none => unfold merge; exact mergeSelf_stops hm c _
    | node l2 h2 t2 => unfold merge; exact node_stops (mergeOpt_stops hm c h h2) (ih t2)

/-- Symbolic lists can be the elements of symbolic lists. -/
theorem merge_yields {m : Fn o → V → V → Out V} {G : V → Prop} {d : V → Env → A} (hm : Means m G d) (c : Fn o)
    {x y : SList o V} (hx : IsList G x) (hy : IsList G y) :
    Yields (Total m G) (merge m c x y) fun z => IsList G z ∧
      ∀ η, den d z η = if c.ev η then den d x η else den d y η := by
  refine (merge_yields' hm c x y hx.2 hy.2).mono fun z hz => ⟨⟨hz.2.1 (Or.inl hx.1), hz.1⟩, fun η => ?_⟩
  cases hc : c.ev η
  · simpa using (hz.2.2 η).2 hc hy.1
  · simpa using (hz.2.2 η).1 hc hx.1

/-- In the form that conditionals ask for. -/
theorem merge_branch {m : Fn o → V → V → Out V} {G : V → Prop} {d : V → Env → A} (hm : Means m G d) {c : Fn o}
    {P : Env → List A → Prop} (x y : SList o V) (hx : IsList G x) (hy : IsList G y) :
    Yields (Total m G) (merge m c x y) fun z => IsList G z ∧ ∀ η, (c.ev η = true → P η (den d x η) → P η (den d z η)) ∧
      (c.ev η = false → P η (den d y η) → P η (den d z η)) := by
  refine (merge_yields hm c hx hy).mono fun z hz => ⟨hz.1, fun η => ⟨fun hc h => ?_, fun hc h => ?_⟩⟩
  · rw [hz.2, if_pos hc]; exact h
  · rw [hz.2, hc]; exact h

theorem value_branch {m : Fn o → V → V → Out V} {G : V → Prop} {d : V → Env → A} (hm : Means m G d) {c : Fn o}
    {P : Env → A → Prop} (x y : V) (hx : G x) (hy : G y) :
    Yields (Total m G) (m c x y) fun z => G z ∧ ∀ η, (c.ev η = true → P η (d x η) → P η (d z η)) ∧
      (c.ev η = false → P η (d y η) → P η (d z η)) := by
  refine (hm.yields c hx hy).mono fun z hz => ⟨hz.1, fun η => ⟨fun hc h => ?_, fun hc h => ?_⟩⟩
  · rw [hz.2, if_pos hc]; exact h
  · rw [hz.2, hc]; exact h

theorem bool_means : Means (mergeBool (o := o)) (fun _ => True) Fn.ev where
  right c x y z _ _ h := by
    simp only [mergeBool, Out.ok.injEq] at h
    subst h
    refine ⟨trivial, fun η => ?_⟩
    simp only [Fn.or_ev, Fn.and_ev, Fn.not_ev]
    cases c.ev η <;> simp
  stops c x y := by simp [mergeBool]

theorem bv_means : Means (mergeBv (o := o)) (· ≠ []) Bv.sv where
  right c x y z hx hy h := by
    simp only [mergeBv, Out.ok.injEq] at h
    subst h
    exact ⟨Bv.iteList_ne_nil _ _ _ hx hy, fun η => Bv.sv_iteList c x y hx hy η⟩
  stops c x y := by simp [mergeBv]

theorem bv_total : Total (mergeBv (o := o)) (· ≠ []) := fun _ _ _ _ _ => ⟨_, rfl⟩

theorem bool_total : Total (mergeBool (o := o)) (fun _ => True) := fun _ _ _ _ _ => ⟨_, rfl⟩

/-! ### Lists -/

theorem nil_isList {G : V → Prop} : IsList G (sNil o V) :=
  ⟨by simp [sNil], fun h => absurd rfl h, by simp, trivial⟩

theorem cons_isList {G : V → Prop} {e : V} {l : SList o V} (he : G e) (hl : IsList G l) : IsList G (sCons e l) := by
  refine ⟨by simp [sCons], fun _ => ⟨by simp, hl.1⟩, ?_, hl.2⟩
  rintro h ⟨⟩
  exact he

theorem den_nil {d : V → Env → A} (η : Env) : den d (sNil o V) η = [] := by simp [den, sNil]

theorem den_cons {d : V → Env → A} (e : V) (l : SList o V) (η : Env) :
    den d (sCons e l) η = d e η :: den d l η := by simp [den, sCons]

/-- What there is where a list goes on. -/
theorem goes_on {G : V → Prop} {leaf : Fn o} {hd : Option V} {tl : SList o V} (h : IsList G (.node leaf hd tl))
    {p' p : Fn o} (hp : ∃ η, p'.ev η = true) (hiff : ∀ η, p'.ev η = true ↔ p.ev η = true ∧ leaf.ev η = false) :
    ∃ e, hd = some e ∧ G e ∧ IsList G tl := by
  have hne : leaf ≠ Fn.tt o := by
    obtain ⟨η, hη⟩ := hp
    have := ((hiff η).1 hη).2
    rintro rfl
    simp at this
  obtain ⟨h1, h2⟩ := h.2.1 hne
  cases hd with
  | none => exact absurd rfl h1
  | some e => exact ⟨e, rfl, h.2.2.1 e rfl, h2, h.2.2.2⟩

theorem den_on {d : V → Env → A} {leaf : Fn o} {e : V} {tl : SList o V} {η : Env} (h : leaf.ev η = false) :
    den d (.node leaf (some e) tl) η = d e η :: den d tl η := by simp [den, h]

theorem den_end {d : V → Env → A} {leaf : Fn o} {hd : Option V} {tl : SList o V} {η : Env} (h : leaf.ev η = true) :
    den d (.node leaf hd tl) η = [] := by simp [den, h]

/-! ### The functions -/

section
variable {m : Fn o → V → V → Out V} {G : V → Prop} {d : V → Env → A} (hm : Means m G d)
include hm

theorem append_yields (y : SList o V) (hy : IsList G y) (x : SList o V) (p : Fn o) (hx : IsList G x)
    (hp : ∃ η, p.ev η = true) :
    Yields (Total m G) (append m p x y) fun z => IsList G z ∧
      ∀ η, p.ev η = true → den d z η = den d x η ++ den d y η := by
  induction x generalizing p with
  | none => exact absurd rfl hx.1
  | node leaf hd tl ih =>
    unfold append
    refine branch_yields (Q := fun η z => den d z η = den d (.node leaf hd tl) η ++ den d y η) hp
      (fun p' hp' hi => ⟨hy, fun η hη => ?_⟩) (fun p' hp' hi => ?_)
      (fun a b ha hb => merge_branch hm (P := fun η l => l = den d (.node leaf hd tl) η ++ den d y η) a b ha hb)
    · rw [den_end ((hi η).1 hη).2]; rfl
    · obtain ⟨e, rfl, he, htl⟩ := goes_on hx hp' hi
      refine (ih p' htl hp').bind fun r hr => ⟨cons_isList he hr.1, fun η hη => ?_⟩
      rw [den_cons, hr.2 η hη, den_on ((hi η).1 hη).2]
      rfl

theorem rev_yields (x : SList o V) (p : Fn o) (hx : IsList G x) (hp : ∃ η, p.ev η = true) :
    Yields (Total m G) (rev m p x) fun z => IsList G z ∧
      ∀ η, p.ev η = true → den d z η = (den d x η).reverse := by
  induction x generalizing p with
  | none => exact absurd rfl hx.1
  | node leaf hd tl ih =>
    unfold rev
    refine branch_yields (Q := fun η z => den d z η = (den d (.node leaf hd tl) η).reverse) hp
      (fun p' hp' hi => ⟨hx, fun η hη => ?_⟩) (fun p' hp' hi => ?_)
      (fun a b ha hb => merge_branch hm (P := fun η l => l = (den d (.node leaf hd tl) η).reverse) a b ha hb)
    · rw [den_end ((hi η).1 hη).2]; rfl
    · obtain ⟨e, rfl, he, htl⟩ := goes_on hx hp' hi
      refine (ih p' htl hp').bind fun r hr => ?_
      refine (append_yields hm _ (cons_isList he nil_isList) r p' hr.1 hp').mono fun z hz => ⟨hz.1, fun η hη => ?_⟩
      rw [hz.2 η hη, hr.2 η hη, den_on ((hi η).1 hη).2, den_cons, den_nil, List.reverse_cons]

theorem filter_yields {pred : Fn o → V → Out (Fn o)} {f : A → Bool} {T : Prop}
    (hpred : ∀ p v, (∃ η, p.ev η = true) → G v → Yields T (pred p v) fun k => ∀ η, p.ev η = true → k.ev η = f (d v η))
    (x : SList o V) (p : Fn o) (hx : IsList G x) (hp : ∃ η, p.ev η = true) :
    Yields (Total m G ∧ T) (filter m pred p x) fun z => IsList G z ∧
      ∀ η, p.ev η = true → den d z η = (den d x η).filter f := by
  induction x generalizing p with
  | none => exact absurd rfl hx.1
  | node leaf hd tl ih =>
    unfold filter
    refine branch_yields (Q := fun η z => den d z η = (den d (.node leaf hd tl) η).filter f) hp
      (fun p' hp' hi => ⟨nil_isList, fun η hη => ?_⟩) (fun p' hp' hi => ?_)
      (fun a b ha hb => (merge_branch hm (P := fun η l => l = (den d (.node leaf hd tl) η).filter f) a b ha hb).weak
        And.left)
    · rw [den_end ((hi η).1 hη).2, den_nil]; rfl
    · obtain ⟨e, rfl, he, htl⟩ := goes_on hx hp' hi
      refine ((hpred p' e hp' he).weak And.right).bind fun k hk => ?_
      refine branch_yields (Q := fun η z => den d z η = (den d (.node leaf (some e) tl) η).filter f) hp'
        (fun p'' hp'' hi' => ?_) (fun p'' hp'' hi' => ?_)
        (fun a b ha hb => (merge_branch hm (P := fun η l => l = (den d (.node leaf (some e) tl) η).filter f)
          a b ha hb).weak And.left)
      · refine (ih p'' htl hp'').bind fun r hr => ⟨cons_isList he hr.1, fun η hη => ?_⟩
        obtain ⟨h1, h2⟩ := (hi' η).1 hη
        have hf : f (d e η) = true := by rw [← hk η h1]; exact h2
        rw [den_cons, hr.2 η hη, den_on ((hi η).1 h1).2, List.filter_cons, if_pos hf]
      · refine (ih p'' htl hp'').mono fun r hr => ⟨hr.1, fun η hη => ?_⟩
        obtain ⟨h1, h2⟩ := (hi' η).1 hη
        have hf : ¬ f (d e η) = true := by rw [← hk η h1, h2]; simp
        rw [hr.2 η hη, den_on ((hi η).1 h1).2, List.filter_cons, if_neg hf]

theorem getLast_yields (x : SList o V) (p : Fn o) (hx : IsList G x) (hp : ∃ η, p.ev η = true)
    (hn : ∀ η, p.ev η = true → den d x η ≠ []) :
    Yields (Total m G) (getLast m p x) fun z => G z ∧
      ∀ η, p.ev η = true → (den d x η).getLast? = some (d z η) := by
  induction x generalizing p with
  | none => exact absurd rfl hx.1
  | node leaf hd tl ih =>
    have hleaf : ∀ η, p.ev η = true → leaf.ev η = false := fun η hη => by
      cases hl : leaf.ev η
      · rfl
      · exact absurd (den_end hl) (hn η hη)
    obtain ⟨e, rfl, he, htl⟩ := goes_on hx hp (fun η => ⟨fun h => ⟨h, hleaf η h⟩, And.left⟩)
    cases tl with
    | none => exact absurd rfl htl.1
    | node l' h' t' =>
      unfold getLast
      refine branch_yields
        (Q := fun η z => (den d (.node leaf (some e) (.node l' h' t')) η).getLast? = some (d z η)) hp
        (fun p' hp' hi => ⟨he, fun η hη => ?_⟩) (fun p' hp' hi => ?_)
        (fun a b ha hb => value_branch hm
          (P := fun η v => (den d (.node leaf (some e) (.node l' h' t')) η).getLast? = some v) a b ha hb)
      · obtain ⟨h1, h2⟩ := (hi η).1 hη
        rw [den_on (hleaf η h1), den_end h2]
        rfl
      · have hn' : ∀ η, p'.ev η = true → den d (.node l' h' t') η ≠ [] := by
          intro η hη
          obtain ⟨e', rfl, _, _⟩ := goes_on htl hp' hi
          rw [den_on ((hi η).1 hη).2]
          simp
        refine (ih p' htl hp' hn').mono fun z hz => ⟨hz.1, fun η hη => ?_⟩
        rw [den_on (hleaf η ((hi η).1 hη).1), ← hz.2 η hη]
        cases hl : den d (.node l' h' t') η with
        | nil => exact absurd hl (hn' η hη)
        | cons a l => simp

theorem last_yields (x : SList o V) (p : Fn o) (hx : IsList G x) (hp : ∃ η, p.ev η = true) :
    Yields (Total m G ∧ ∀ η, p.ev η = true → den d x η ≠ []) (last m p x) fun z => G z ∧
      ∀ η, p.ev η = true → (den d x η).getLast? = some (d z η) := by
  cases x with
  | none => exact absurd rfl hx.1
  | node leaf hd tl =>
    unfold last isNil
    simp only [Out.bind]
    refine branch_yields (Q := fun η z => (den d (.node leaf hd tl) η).getLast? = some (d z η)) hp
      (fun p' hp' hi => ?_) (fun p' hp' hi => ?_)
      (fun a b ha hb => (value_branch hm
          (P := fun η v => (den d (.node leaf hd tl) η).getLast? = some v) a b ha hb).weak And.left)
    · intro h
      obtain ⟨η, hη⟩ := hp'
      obtain ⟨h1, h2⟩ := (hi η).1 hη
      exact h.2 η h1 (den_end h2)
    · refine (getLast_yields hm _ p' hx hp' fun η hη => ?_).weak And.left
      obtain ⟨e, rfl, _, _⟩ := goes_on hx hp' hi
      rw [den_on ((hi η).1 hη).2]
      simp

theorem getButlast_yields (x : SList o V) (p : Fn o) (hx : IsList G x) (hp : ∃ η, p.ev η = true)
    (hn : ∀ η, p.ev η = true → den d x η ≠ []) :
    Yields (Total m G) (getButlast m p x) fun z => IsList G z ∧
      ∀ η, p.ev η = true → den d x η ≠ [] ∧ den d z η = (den d x η).dropLast := by
  induction x generalizing p with
  | none => exact absurd rfl hx.1
  | node leaf hd tl ih =>
    have hleaf : ∀ η, p.ev η = true → leaf.ev η = false := fun η hη => by
      cases hl : leaf.ev η
      · rfl
      · exact absurd (den_end hl) (hn η hη)
    obtain ⟨e, rfl, he, htl⟩ := goes_on hx hp (fun η => ⟨fun h => ⟨h, hleaf η h⟩, And.left⟩)
    cases tl with
    | none => exact absurd rfl htl.1
    | node l' h' t' =>
      unfold getButlast
      refine Yields.mono (branch_yields
        (Q := fun η z => den d z η = (den d (.node leaf (some e) (.node l' h' t')) η).dropLast) hp
        (fun p' hp' hi => ⟨nil_isList, fun η hη => ?_⟩) (fun p' hp' hi => ?_)
        (fun a b ha hb => merge_branch hm
          (P := fun η l => l = (den d (.node leaf (some e) (.node l' h' t')) η).dropLast) a b ha hb))
        (fun z hz => ⟨hz.1, fun η hη => ⟨hn η hη, hz.2 η hη⟩⟩)
      · obtain ⟨h1, h2⟩ := (hi η).1 hη
        rw [den_on (hleaf η h1), den_end h2, den_nil]
        rfl
      · have hn' : ∀ η, p'.ev η = true → den d (.node l' h' t') η ≠ [] := by
          intro η hη
          obtain ⟨e', rfl, _, _⟩ := goes_on htl hp' hi
          rw [den_on ((hi η).1 hη).2]
          simp
        refine (ih p' htl hp' hn').bind fun z hz => ⟨cons_isList he hz.1, fun η hη => ?_⟩
        rw [den_on (hleaf η ((hi η).1 hη).1), den_cons, (hz.2 η hη).2]
        cases hl : den d (.node l' h' t') η with
        | nil => exact absurd hl (hn' η hη)
        | cons a l => simp

theorem butlast_yields (x : SList o V) (p : Fn o) (hx : IsList G x) (hp : ∃ η, p.ev η = true) :
    Yields (Total m G ∧ ∀ η, p.ev η = true → den d x η ≠ []) (butlast m p x) fun z => IsList G z ∧
      ∀ η, p.ev η = true → den d x η ≠ [] ∧ den d z η = (den d x η).dropLast := by
  cases x with
  | none => exact absurd rfl hx.1
  | node leaf hd tl =>
    unfold butlast isNil
    simp only [Out.bind]
    refine branch_yields
      (Q := fun η z => den d (.node leaf hd tl) η ≠ [] ∧ den d z η = (den d (.node leaf hd tl) η).dropLast) hp
      (fun p' hp' hi => ?_) (fun p' hp' hi => ?_)
      (fun a b ha hb => (merge_branch hm (P := fun η l => den d (.node leaf hd tl) η ≠ [] ∧
          l = (den d (.node leaf hd tl) η).dropLast) a b ha hb).weak And.left)
    · intro h
      obtain ⟨η, hη⟩ := hp'
      obtain ⟨h1, h2⟩ := (hi η).1 hη
      exact h.2 η h1 (den_end h2)
    · refine (getButlast_yields hm _ p' hx hp' fun η hη => ?_).weak And.left
      obtain ⟨e, rfl, _, _⟩ := goes_on hx hp' hi
      rw [den_on ((hi η).1 hη).2]
      simp

end

theorem ofOption_yields {α : Type} {T : Prop} {x : Option α} {a : α} {P : α → Prop} (h : x = some a) (hp : P a) :
    Yields T (Out.ofOption x) P := by
  subst h
  exact hp

section
variable {m : Fn o → V → V → Out V} {G : V → Prop} {d : V → Env → A} (hm : Means m G d)
include hm

/-- The element with a number, counted from 1. -/
theorem el_yields (x : SList o V) (p : Fn o) (idx : List (Fn o)) (hidx : idx ≠ []) (hx : IsList G x)
    (hp : ∃ η, p.ev η = true) :
    Yields (Total m G ∧ ∀ η, p.ev η = true → 1 ≤ Bv.sv idx η ∧ Bv.sv idx η ≤ (den d x η).length) (el m p idx x)
      fun z => G z ∧ ∀ η, p.ev η = true → 1 ≤ Bv.sv idx η ∧
        (den d x η)[(Bv.sv idx η - 1).toNat]? = some (d z η) := by
  induction x generalizing p idx with
  | none => exact absurd rfl hx.1
  | node leaf hd tl ih =>
    unfold el
    refine branch_yields (Q := fun η z => 1 ≤ Bv.sv idx η ∧
        (den d (.node leaf hd tl) η)[(Bv.sv idx η - 1).toNat]? = some (d z η)) hp
      (fun p' hp' hi => ?_) (fun p' hp' hi => ?_)
      (fun a b ha hb => (value_branch hm (P := fun η v => 1 ≤ Bv.sv idx η ∧
        (den d (.node leaf hd tl) η)[(Bv.sv idx η - 1).toNat]? = some v) a b ha hb).weak And.left)
    · intro h
      obtain ⟨η, hη⟩ := hp'
      obtain ⟨h1, h2⟩ := (hi η).1 hη
      have := h.2 η h1
      rw [den_end h2] at this
      simp at this
      omega
    · obtain ⟨e, rfl, he, htl⟩ := goes_on hx hp' hi
      obtain ⟨-, -, -, -, ⟨c, c1, c2⟩, -⟩ := Bv.c11_compare (Env := Env) idx [Fn.ff o, Fn.tt o] hidx (by simp)
      obtain ⟨i, i1, i2, i3⟩ := bvSub_spec idx [Fn.ff o, Fn.tt o] hidx (by simp)
      refine (ofOption_yields (P := fun c' => c' = c) c1 rfl).bind fun c' hc' => ?_
      subst hc'
      have c2 : ∀ η, c'.ev η = decide (Bv.sv idx η = 1) := fun η => by
        have h := c2 η
        rw [sv_one] at h
        exact h
      refine branch_yields (Q := fun η z => 1 ≤ Bv.sv idx η ∧
          (den d (.node leaf (some e) tl) η)[(Bv.sv idx η - 1).toNat]? = some (d z η)) hp'
        (fun p'' hp'' hi' => ⟨he, fun η hη => ?_⟩) (fun p'' hp'' hi' => ?_)
        (fun a b ha hb => (value_branch hm (P := fun η v => 1 ≤ Bv.sv idx η ∧
          (den d (.node leaf (some e) tl) η)[(Bv.sv idx η - 1).toNat]? = some v) a b ha hb).weak And.left)
      · obtain ⟨h1, h2⟩ := (hi' η).1 hη
        rw [c2] at h2
        rw [of_decide_eq_true h2, den_on ((hi η).1 h1).2]
        exact ⟨by omega, rfl⟩
      · refine (ofOption_yields (P := fun i' => i' = i) i1 rfl).bind fun i' hi'' => ?_
        subst hi''
        refine Yields.mono ((ih p'' i' i2 htl hp'').weak fun h => ⟨h.1, fun η hη => ?_⟩)
          (fun z hz => ⟨hz.1, fun η hη => ?_⟩)
        · obtain ⟨h1, h2⟩ := (hi' η).1 hη
          obtain ⟨h3, h4⟩ := (hi η).1 h1
          obtain ⟨h5, h6⟩ := h.2 η h3
          rw [c2] at h2
          have h2 := of_decide_eq_false h2
          have := i3 η
          rw [sv_one] at this
          rw [den_on h4, List.length_cons] at h6
          constructor <;> omega
        · obtain ⟨h1, h2⟩ := (hi' η).1 hη
          obtain ⟨h5, h6⟩ := hz.2 η hη
          have := i3 η
          rw [sv_one] at this
          refine ⟨by omega, ?_⟩
          have e1 : (Bv.sv idx η - 1).toNat = (Bv.sv i' η - 1).toNat + 1 := by omega
          rw [e1, den_on ((hi η).1 h1).2, List.getElem?_cons_succ, h6]

end

theorem bvAdd_ne_nil {a b r : List (Fn o)} (ha : a ≠ []) (hb : b ≠ []) (h : Bv.bvAdd a b = some r) : r ≠ [] := by
  rw [Bv.bvAdd, Bv.guard2_ne _ _ ha hb] at h
  simp only [Option.some.injEq] at h
  rw [← h]
  exact Bv.trim_ne_nil _ (Bv.genAdd_ne_nil _ _ _)

theorem length_yields {G : V → Prop} {d : V → Env → A} (x : SList o V) (p : Fn o) (hx : IsList G x)
    (hp : ∃ η, p.ev η = true) :
    Yields True (length p x) fun z => z ≠ [] ∧ ∀ η, p.ev η = true → Bv.sv z η = (den d x η).length := by
  induction x generalizing p with
  | none => exact absurd rfl hx.1
  | node leaf hd tl ih =>
    unfold length
    refine branch_yields (Q := fun η z => Bv.sv z η = (den d (.node leaf hd tl) η).length) hp
      (fun p' hp' hi => ⟨by simp, fun η hη => ?_⟩) (fun p' hp' hi => ?_)
      (fun a b ha hb => (value_branch bv_means (P := fun η v => v = (den d (.node leaf hd tl) η).length)
        a b ha hb).weak fun _ => bv_total)
    · rw [den_end ((hi η).1 hη).2]
      rfl
    · obtain ⟨e, rfl, he, htl⟩ := goes_on hx hp' hi
      refine (ih p' htl hp').bind fun r hr => ?_
      obtain ⟨⟨s, s1, s2, s3⟩, -⟩ := Bv.c08_add_sub (Env := Env) r [Fn.ff o, Fn.tt o] hr.1 (by simp)
      refine ofOption_yields s1 ⟨bvAdd_ne_nil hr.1 (by simp) s1, fun η hη => ?_⟩
      · rw [s3 η, hr.2 η hη, den_on ((hi η).1 hη).2, sv_one]
        simp

theorem map_yields {m : Fn o → W → W → Out W} {G : V → Prop} {d : V → Env → A} {G' : W → Prop} {d' : W → Env → B}
    (hm : Means m G' d') {fn : Fn o → V → Out W} {f : A → B} {T : Prop}
    (hfn : ∀ p v, (∃ η, p.ev η = true) → G v → Yields T (fn p v) fun w => G' w ∧
      ∀ η, p.ev η = true → d' w η = f (d v η))
    (x : SList o V) (p : Fn o) (hx : IsList G x) (hp : ∃ η, p.ev η = true) :
    Yields (Total m G' ∧ T) (map m fn p x) fun z => IsList G' z ∧
      ∀ η, p.ev η = true → den d' z η = (den d x η).map f := by
  induction x generalizing p with
  | none => exact absurd rfl hx.1
  | node leaf hd tl ih =>
    unfold map
    refine branch_yields (Q := fun η z => den d' z η = (den d (.node leaf hd tl) η).map f) hp
      (fun p' hp' hi => ⟨nil_isList, fun η hη => ?_⟩) (fun p' hp' hi => ?_)
      (fun a b ha hb => (merge_branch hm (P := fun η l => l = (den d (.node leaf hd tl) η).map f) a b ha hb).weak
        And.left)
    · rw [den_end ((hi η).1 hη).2, den_nil]; rfl
    · obtain ⟨e, rfl, he, htl⟩ := goes_on hx hp' hi
      refine ((hfn p' e hp' he).weak And.right).bind fun w hw => ?_
      refine (ih p' htl hp').bind fun r hr => ⟨cons_isList hw.1 hr.1, fun η hη => ?_⟩
      rw [den_cons, hr.2 η hη, hw.2 η hη, den_on ((hi η).1 hη).2]
      rfl

theorem itlist_yields {m : Fn o → W → W → Out W} {G : V → Prop} {d : V → Env → A} {G' : W → Prop} {d' : W → Env → B}
    (hm : Means m G' d') {fn : Fn o → V → W → Out W} {f : A → B → B} {T : Prop}
    (hfn : ∀ p v w, (∃ η, p.ev η = true) → G v → G' w → Yields T (fn p v w) fun z => G' z ∧
      ∀ η, p.ev η = true → d' z η = f (d v η) (d' w η))
    (base : W) (hb : G' base) (x : SList o V) (p : Fn o) (hx : IsList G x) (hp : ∃ η, p.ev η = true) :
    Yields (Total m G' ∧ T) (itlist m fn p x base) fun z => G' z ∧
      ∀ η, p.ev η = true → d' z η = (den d x η).foldr f (d' base η) := by
  induction x generalizing p with
  | none => exact absurd rfl hx.1
  | node leaf hd tl ih =>
    unfold itlist
    refine branch_yields (Q := fun η z => d' z η = (den d (.node leaf hd tl) η).foldr f (d' base η)) hp
      (fun p' hp' hi => ⟨hb, fun η hη => ?_⟩) (fun p' hp' hi => ?_)
      (fun a b ha hb => (value_branch hm (P := fun η l => l = (den d (.node leaf hd tl) η).foldr f (d' base η))
        a b ha hb).weak And.left)
    · rw [den_end ((hi η).1 hη).2]; rfl
    · obtain ⟨e, rfl, he, htl⟩ := goes_on hx hp' hi
      refine (ih p' htl hp').bind fun r hr => ?_
      refine ((hfn p' e r hp' he hr.1).weak And.right).mono fun z hz => ⟨hz.1, fun η hη => ?_⟩
      rw [hz.2 η hη, hr.2 η hη, den_on ((hi η).1 hη).2]
      rfl

/-! ### Arguments that are evaluated -/

theorem branchArg_value {α : Type} {p c : Fn o} {t e : Fn o → Arg o W → Out (α × Arg o W)}
    {t' e' : Fn o → Out α} {mg : Fn o → α → α → Out α} {w : W}
    (ht : ∀ p, t p (.value w) = (t' p).bind fun x => .ok (x, .value w))
    (he : ∀ p, e p (.value w) = (e' p).bind fun x => .ok (x, .value w)) :
    branchArg p c t e mg (.value w) = (branch p c t' e' mg).bind fun x => .ok (x, .value w) := by
  unfold branchArg branch
  split
  · exact ht p
  split
  · exact he p
  split
  · exact he _
  split
  · exact ht _
  rw [ht]
  cases t' (p.and c) with
  | ok x =>
    simp only [Out.bind]
    rw [he]
    cases e' (p.and c.not) with
    | ok y => rfl
    | fail => rfl
    | more => rfl
  | fail => rfl
  | more => rfl

theorem appendArg_value (m : Fn o → V → V → Out V) (y : SList o V) (x : SList o V) (p : Fn o) :
    appendArg m p x (.value y) = (append m p x y).bind fun z => .ok (z, .value y) := by
  induction x generalizing p with
  | none => rfl
  | node leaf hd tl ih =>
    unfold appendArg append
    refine branchArg_value (fun p => rfl) (fun p => ?_)
    cases hd with
    | none => rfl
    | some h =>
      simp only
      rw [ih]
      cases append m p tl y <;> rfl

theorem itlistArg_value (m : Fn o → W → W → Out W) (fn : Fn o → V → W → Out W) (base : W) (x : SList o V) (p : Fn o) :
    itlistArg m fn p x (.value base) = (itlist m fn p x base).bind fun z => .ok (z, .value base) := by
  induction x generalizing p with
  | none => rfl
  | node leaf hd tl ih =>
    unfold itlistArg itlist
    refine branchArg_value (fun p => rfl) (fun p => ?_)
    cases hd with
    | none => rfl
    | some h =>
      simp only
      rw [ih]
      cases itlist m fn p tl base with
      | ok r =>
        simp only [Out.bind]
      | fail => rfl
      | more => rfl

theorem itlistArg_scalar (m : Fn o → W → W → Out W) (fn : Fn o → V → W → Out W) (f : Fn o → Out W)
    (x : SList o V) (p : Fn o) (hs : Scalar x) {z : W × Arg o W} (hz : itlistArg m fn p x (.expr f) = .ok z) :
    ∃ b, f p = .ok b ∧ itlist m fn p x b = .ok z.1 := by
  induction x generalizing z with
  | none => cases hz
  | node leaf hd tl ih =>
    unfold itlistArg branchArg at hz
    unfold itlist branch
    obtain ⟨h1, h2⟩ := hs
    rcases h1 with h1 | h1
    · rw [if_pos h1] at hz
      simp only [Arg.eval] at hz
      cases hf : f p with
      | fail => rw [hf] at hz; cases hz
      | more => rw [hf] at hz; cases hz
      | ok b =>
        rw [hf] at hz
        simp only [Out.bind, Out.ok.injEq] at hz
        subst hz
        refine ⟨b, rfl, ?_⟩
        rw [if_pos h1]
    · have hne : leaf ≠ Fn.tt o := by
        rw [h1]
        intro h
        have := congrArg (fun g => g.ev (fun _ => true)) h
        simp at this
      rw [if_neg hne, if_pos h1] at hz
      cases hd with
      | none => cases hz
      | some h =>
        dsimp only at hz
        cases hr : itlistArg m fn p tl (.expr f) with
        | fail => rw [hr] at hz; cases hz
        | more => rw [hr] at hz; cases hz
        | ok r =>
          obtain ⟨b, b1, b2⟩ := ih h2 hr
          refine ⟨b, b1, ?_⟩
          rw [if_neg hne, if_pos h1]
          dsimp only
          rw [b2]
          rw [hr] at hz
          simp only [Out.bind] at hz ⊢
          cases hw : fn p h r.1 with
          | fail => rw [hw] at hz; cases hz
          | more => rw [hw] at hz; cases hz
          | ok w =>
            rw [hw] at hz
            simp only [Out.ok.injEq] at hz
            subst hz
            rfl

theorem getButlast_scalar (m : Fn o → V → V → Out V) (x : SList o V) (p : Fn o) (hs : Scalar x) {b : SList o V}
    (hb : getButlast m p x = .ok b) : Scalar b := by
  induction x generalizing b with
  | none => cases hb
  | node leaf hd tl ih =>
    cases hd with
    | none => simp [getButlast] at hb
    | some h =>
      cases tl with
      | none => simp [getButlast] at hb
      | node l' h' t' =>
        unfold getButlast branch at hb
        rcases hs.2.1 with h1 | h1
        · rw [if_pos h1] at hb
          simp only [Out.ok.injEq] at hb
          subst hb
          exact ⟨Or.inl rfl, trivial⟩
        · have hne : l' ≠ Fn.tt o := by
            rw [h1]
            intro h
            have := congrArg (fun g => g.ev (fun _ => true)) h
            simp at this
          rw [if_neg hne, if_pos h1] at hb
          dsimp only at hb
          cases hr : getButlast m p (.node l' h' t') with
          | fail => rw [hr] at hb; cases hb
          | more => rw [hr] at hb; cases hb
          | ok r =>
            rw [hr] at hb
            simp only [Out.bind, Out.ok.injEq] at hb
            subst hb
            exact ⟨Or.inr rfl, ih hs.2 hr⟩

theorem butlast_scalar (m : Fn o → V → V → Out V) (x : SList o V) (p : Fn o) (hs : Scalar x) {b : SList o V}
    (hb : butlast m p x = .ok b) : Scalar b := by
  cases x with
  | none => cases hb
  | node leaf hd tl =>
    unfold butlast isNil branch at hb
    simp only [Out.bind] at hb
    rcases hs.1 with h1 | h1
    · rw [if_pos h1] at hb
      cases hb
    · have hne : leaf ≠ Fn.tt o := by
        rw [h1]
        intro h
        have := congrArg (fun g => g.ev (fun _ => true)) h
        simp at this
      rw [if_neg hne, if_pos h1] at hb
      exact getButlast_scalar m _ p hs hb

/-! ### Conversions -/

theorem list2slist_spec {G : V → Prop} {d : V → Env → A} (l : List V) (h : ∀ v ∈ l, G v) :
    IsList G (list2slist o l) ∧ ∀ η, den d (list2slist o l) η = l.map fun v => d v η := by
  induction l with
  | nil => exact ⟨nil_isList, fun η => den_nil η⟩
  | cons e l ih =>
    obtain ⟨h1, h2⟩ := ih fun v hv => h v (by simp [hv])
    refine ⟨cons_isList (h e (by simp)) h1, fun η => ?_⟩
    rw [list2slist, den_cons, h2]
    rfl

theorem list2_spec {G : V → Prop} {d : V → Env → A} (x : SList o V) (hx : IsList G x) :
    (∀ l, list2 x = .ok l → ∀ η, den d x η = l.map fun v => d v η) ∧ (Scalar x → ∃ l, list2 x = .ok l) := by
  induction x with
  | none => exact absurd rfl hx.1
  | node leaf hd tl ih =>
    unfold list2
    by_cases h1 : leaf = Fn.tt o
    · rw [if_pos h1]
      refine ⟨fun l hl η => ?_, fun _ => ⟨_, rfl⟩⟩
      simp only [Out.ok.injEq] at hl
      subst hl
      rw [den_end (by simp [h1])]
      rfl
    · rw [if_neg h1]
      by_cases h2 : leaf = Fn.ff o
      · rw [if_pos h2]
        obtain ⟨e1, e2⟩ := hx.2.1 h1
        cases hd with
        | none => exact absurd rfl e1
        | some h =>
          obtain ⟨i1, i2⟩ := ih ⟨e2, hx.2.2.2⟩
          refine ⟨fun l hl η => ?_, fun hs => ?_⟩
          · dsimp only at hl
            cases hr : list2 tl with
            | fail => rw [hr] at hl; cases hl
            | more => rw [hr] at hl; cases hl
            | ok r =>
              rw [hr] at hl
              simp only [Out.bind, Out.ok.injEq] at hl
              subst hl
              rw [den_on (by simp [h2]), i1 r hr η]
              rfl
          · obtain ⟨l, hl⟩ := i2 hs.2
            exact ⟨h :: l, by dsimp only; rw [hl]; rfl⟩
      · rw [if_neg h2]
        refine ⟨fun l hl => by simp at hl, fun hs => ?_⟩
        rcases hs.1 with h | h
        · exact absurd h h1
        · exact absurd h h2

theorem const_of_vars {f : Fn o} (h : f.1.vars = []) : f = Fn.tt o ∨ f = Fn.ff o := by
  have key : ∀ η, f.ev η = f.ev (fun _ => true) := fun η => Dd.ev_vars f.1 (by simp [h])
  cases hb : f.ev (fun _ => true)
  · right
    exact Fn.ff_iff.2 fun η => by rw [key, hb]
  · left
    exact Fn.tt_iff.2 fun η => by rw [key, hb]

theorem scalar_of_vars (vs : V → List String) (x : SList o V) (h : vars vs x = []) : Scalar x := by
  induction x with
  | none => trivial
  | node leaf hd tl ih =>
    simp only [vars, List.append_eq_nil_iff] at h
    exact ⟨const_of_vars h.1.1, ih h.2⟩

theorem exp_spec {G : V → Prop} {d : V → Env → A} (x : SList o V) (hx : IsList G x) (cond : Fn o) :
    ∃ l, exp cond x = .ok l ∧ (∀ η, cond.ev η = false → ∀ q ∈ l, q.1.ev η = false) ∧
      ∀ η, cond.ev η = true → den d x η = (l.filter fun q => q.1.ev η).map fun q => d q.2 η := by
  induction x generalizing cond with
  | none => exact absurd rfl hx.1
  | node leaf hd tl ih =>
    unfold exp
    by_cases h1 : leaf = Fn.tt o
    · rw [if_pos h1]
      exact ⟨[], rfl, by simp, fun η _ => by rw [den_end (by simp [h1])]; rfl⟩
    · rw [if_neg h1]
      obtain ⟨e1, e2⟩ := hx.2.1 h1
      cases hd with
      | none => exact absurd rfl e1
      | some h =>
        obtain ⟨l, l1, l2, l3⟩ := ih ⟨e2, hx.2.2.2⟩ (cond.and leaf.not)
        refine ⟨(cond.and leaf.not, h) :: l, by dsimp only; rw [l1]; rfl, fun η hc q hq => ?_, fun η hc => ?_⟩
        · rcases List.mem_cons.1 hq with rfl | hq
          · simp [hc]
          · exact l2 η (by simp [hc]) q hq
        · cases hl : leaf.ev η
          · have hcc : (cond.and leaf.not).ev η = true := by simp [hc, hl]
            rw [den_on hl, List.filter_cons, if_pos hcc, l3 η hcc]
            rfl
          · have hcc : (cond.and leaf.not).ev η = false := by simp [hl]
            rw [den_end hl, List.filter_cons, if_neg (by simp [hcc])]
            have : l.filter (fun q => q.1.ev η) = [] := by
              rw [List.filter_eq_nil_iff]
              intro q hq
              rw [l2 η hcc q hq]
              simp
            rw [this]
            rfl

/-! ### Numbers -/

theorem ints_nil {a b : Int} (h : b < a) : ints a b = [] := by
  have : (b - a + 1).toNat = 0 := by omega
  simp [ints, this]

theorem ints_cons {a b : Int} (h : a ≤ b) : ints a b = a :: ints (a + 1) b := by
  have : (b - a + 1).toNat = (b - (a + 1) + 1).toNat + 1 := by omega
  simp only [ints, this, List.range_succ_eq_map, List.map_cons, List.map_map]
  refine List.cons_eq_cons.2 ⟨by omega, List.map_congr_left fun i _ => ?_⟩
  simp only [Function.comp_def]
  omega

theorem ints_snoc {a b : Int} (h : a ≤ b) : (ints a b).reverse = b :: (ints a (b - 1)).reverse := by
  have : (b - a + 1).toNat = (b - 1 - a + 1).toNat + 1 := by omega
  simp only [ints, this, List.range_succ, List.map_append, List.reverse_append, List.map_cons, List.map_nil,
    List.reverse_cons, List.reverse_nil, List.nil_append, List.singleton_append]
  refine List.cons_eq_cons.2 ⟨by omega, rfl⟩

theorem buildUp_yields (lim : List (Fn o)) (hl : lim ≠ []) (N : Nat) (p : Fn o) (cur : List (Fn o)) (hc : cur ≠ [])
    (hp : ∃ η, p.ev η = true) (hN : ∀ η, p.ev η = true → Bv.sv lim η - Bv.sv cur η < N) (k : Nat) :
    Yields True (buildUp lim (N + 1 + k) p cur) fun z => IsList (· ≠ []) z ∧
      ∀ η, p.ev η = true → den Bv.sv z η = ints (Bv.sv cur η) (Bv.sv lim η) := by
  induction N generalizing p cur with
  | zero =>
    have e : 0 + 1 + k = k + 1 := by omega
    rw [e, buildUp]
    obtain ⟨-, -, ⟨c, c1, c2⟩, -⟩ := Bv.c11_compare (Env := Env) cur lim hc hl
    refine (ofOption_yields (P := fun c' => c' = c) c1 rfl).bind fun c' hc' => ?_
    subst hc'
    have c2 : ∀ η, c'.ev η = decide (Bv.sv cur η > Bv.sv lim η) := c2
    refine branch_yields (Q := fun η z => den Bv.sv z η = ints (Bv.sv cur η) (Bv.sv lim η)) hp
      (fun p' hp' hi => ⟨nil_isList, fun η hη => ?_⟩) (fun p' hp' hi => ?_)
      (fun a b ha hb => (merge_branch bv_means (P := fun η l => l = ints (Bv.sv cur η) (Bv.sv lim η)) a b ha hb).weak
        fun _ => bv_total)
    · obtain ⟨h1, h2⟩ := (hi η).1 hη
      rw [c2] at h2
      have h2 := of_decide_eq_true h2
      rw [den_nil, ints_nil (by omega)]
    · exfalso
      obtain ⟨η, hη⟩ := hp'
      obtain ⟨h1, h2⟩ := (hi η).1 hη
      rw [c2] at h2
      have h2 := of_decide_eq_false h2
      have := hN η h1
      omega
  | succ N ih =>
    have e : N + 1 + 1 + k = (N + 1 + k) + 1 := by omega
    rw [e, buildUp]
    obtain ⟨-, -, ⟨c, c1, c2⟩, -⟩ := Bv.c11_compare (Env := Env) cur lim hc hl
    refine (ofOption_yields (P := fun c' => c' = c) c1 rfl).bind fun c' hc' => ?_
    subst hc'
    have c2 : ∀ η, c'.ev η = decide (Bv.sv cur η > Bv.sv lim η) := c2
    refine branch_yields (Q := fun η z => den Bv.sv z η = ints (Bv.sv cur η) (Bv.sv lim η)) hp
      (fun p' hp' hi => ⟨nil_isList, fun η hη => ?_⟩) (fun p' hp' hi => ?_)
      (fun a b ha hb => (merge_branch bv_means (P := fun η l => l = ints (Bv.sv cur η) (Bv.sv lim η)) a b ha hb).weak
        fun _ => bv_total)
    · obtain ⟨h1, h2⟩ := (hi η).1 hη
      rw [c2] at h2
      have h2 := of_decide_eq_true h2
      rw [den_nil, ints_nil (by omega)]
    · obtain ⟨⟨n, n1, n2, n3⟩, -⟩ := Bv.c08_add_sub (Env := Env) cur [Fn.ff o, Fn.tt o] hc (by simp)
      have hn : n ≠ [] := bvAdd_ne_nil hc (by simp) n1
      refine (ofOption_yields (P := fun n' => n' = n) n1 rfl).bind fun n' hn' => ?_
      subst hn'
      have hcond : ∀ η, p'.ev η = true → Bv.sv lim η - Bv.sv n' η < N := by
        intro η hη
        have := hN η ((hi η).1 hη).1
        have h3 := n3 η
        rw [sv_one] at h3
        omega
      refine (ih p' n' hn hp' hcond).bind fun r hr => ⟨cons_isList hc hr.1, fun η hη => ?_⟩
      obtain ⟨h1, h2⟩ := (hi η).1 hη
      rw [c2] at h2
      have h2 := of_decide_eq_false h2
      have h3 := n3 η
      rw [sv_one] at h3
      rw [den_cons, hr.2 η hη, h3, ← ints_cons (by omega)]

theorem buildDown_yields (lim : List (Fn o)) (hl : lim ≠ []) (N : Nat) (p : Fn o) (cur : List (Fn o)) (hc : cur ≠ [])
    (hp : ∃ η, p.ev η = true) (hN : ∀ η, p.ev η = true → Bv.sv cur η - Bv.sv lim η < N) (k : Nat) :
    Yields True (buildDown lim (N + 1 + k) p cur) fun z => IsList (· ≠ []) z ∧
      ∀ η, p.ev η = true → den Bv.sv z η = (ints (Bv.sv lim η) (Bv.sv cur η)).reverse := by
  induction N generalizing p cur with
  | zero =>
    have e : 0 + 1 + k = k + 1 := by omega
    rw [e, buildDown]
    obtain ⟨⟨c, c1, c2⟩, -⟩ := Bv.c11_compare (Env := Env) cur lim hc hl
    refine (ofOption_yields (P := fun c' => c' = c) c1 rfl).bind fun c' hc' => ?_
    subst hc'
    have c2 : ∀ η, c'.ev η = decide (Bv.sv cur η < Bv.sv lim η) := c2
    refine branch_yields (Q := fun η z => den Bv.sv z η = (ints (Bv.sv lim η) (Bv.sv cur η)).reverse) hp
      (fun p' hp' hi => ⟨nil_isList, fun η hη => ?_⟩) (fun p' hp' hi => ?_)
      (fun a b ha hb => (merge_branch bv_means (P := fun η l => l = (ints (Bv.sv lim η) (Bv.sv cur η)).reverse)
        a b ha hb).weak fun _ => bv_total)
    · obtain ⟨h1, h2⟩ := (hi η).1 hη
      rw [c2] at h2
      have h2 := of_decide_eq_true h2
      rw [den_nil, ints_nil (by omega)]
      rfl
    · exfalso
      obtain ⟨η, hη⟩ := hp'
      obtain ⟨h1, h2⟩ := (hi η).1 hη
      rw [c2] at h2
      have h2 := of_decide_eq_false h2
      have := hN η h1
      omega
  | succ N ih =>
    have e : N + 1 + 1 + k = (N + 1 + k) + 1 := by omega
    rw [e, buildDown]
    obtain ⟨⟨c, c1, c2⟩, -⟩ := Bv.c11_compare (Env := Env) cur lim hc hl
    refine (ofOption_yields (P := fun c' => c' = c) c1 rfl).bind fun c' hc' => ?_
    subst hc'
    have c2 : ∀ η, c'.ev η = decide (Bv.sv cur η < Bv.sv lim η) := c2
    refine branch_yields (Q := fun η z => den Bv.sv z η = (ints (Bv.sv lim η) (Bv.sv cur η)).reverse) hp
      (fun p' hp' hi => ⟨nil_isList, fun η hη => ?_⟩) (fun p' hp' hi => ?_)
      (fun a b ha hb => (merge_branch bv_means (P := fun η l => l = (ints (Bv.sv lim η) (Bv.sv cur η)).reverse)
        a b ha hb).weak fun _ => bv_total)
    · obtain ⟨h1, h2⟩ := (hi η).1 hη
      rw [c2] at h2
      have h2 := of_decide_eq_true h2
      rw [den_nil, ints_nil (by omega)]
      rfl
    · obtain ⟨n, n1, hn, n3⟩ := bvSub_spec cur [Fn.ff o, Fn.tt o] hc (by simp)
      refine (ofOption_yields (P := fun n' => n' = n) n1 rfl).bind fun n' hn' => ?_
      subst hn'
      have hcond : ∀ η, p'.ev η = true → Bv.sv n' η - Bv.sv lim η < N := by
        intro η hη
        have := hN η ((hi η).1 hη).1
        have h3 := n3 η
        rw [sv_one] at h3
        omega
      refine (ih p' n' hn hp' hcond).bind fun r hr => ⟨cons_isList hc hr.1, fun η hη => ?_⟩
      obtain ⟨h1, h2⟩ := (hi η).1 hη
      rw [c2] at h2
      have h2 := of_decide_eq_false h2
      have h3 := n3 η
      rw [sv_one] at h3
      rw [den_cons, hr.2 η hη, h3, ← ints_snoc (by omega)]

end Voss.Slist
