import Verif.Pre.Example
import Verif.Pre.ParamLemmas
import Verif.Lst.Props
import Verif.Bv.Props
/- Lemmas for C87. -/
namespace Voss.Pre
variable {o : Order}
open Fn

/-- The assignment that differs from `η` by the listed values. -/
def assign (l : List (String × Bool)) (η : Env) : Env := fun n => (l.lookup n).getD (η n)

theorem assign_cons (v : String) (b : Bool) (l : List (String × Bool)) (η : Env) :
    assign ((v, b) :: l) η = (assign l η).set v b := by
  funext n
  unfold assign Env.set
  rw [List.lookup_cons]
  by_cases h : n = v
  · simp [h]
  · simp [h, beq_eq_false_iff_ne.2 h]

theorem mem_intersect {a b : List (String × Bool)} {x : String × Bool} :
    x ∈ Lst.intersect (fun p q => decide (p = q)) a b ↔ x ∈ a ∧ x ∈ b := by
  have he : Lst.Equiv (fun p q : String × Bool => decide (p = q)) :=
    ⟨fun a => by simp, fun a b => by simp [eq_comm], fun a b c => by simp; intro h1 h2; exact h1.trans h2⟩
  have := (Lst.c66_sets he a b).2.2.1.1 x
  simpa [Lst.In] using this

theorem intersect_sub {a b : List (String × Bool)} :
    (Lst.intersect (fun p q => decide (p = q)) a b).Sublist a := by
  have he : Lst.Equiv (fun p q : String × Bool => decide (p = q)) :=
    ⟨fun a => by simp, fun a b => by simp [eq_comm], fun a b c => by simp; intro h1 h2; exact h1.trans h2⟩
  exact (Lst.c66_sets he a b).2.2.1.2.2

theorem forcing_vars (d : Dd) : ∀ p ∈ forcing d, p.1 ∈ d.vars := by
  induction d with
  | leaf b => intro p hp; simp [forcing] at hp
  | node v H L ihH ihL =>
    intro p hp
    unfold forcing at hp
    simp only [Dd.vars, List.mem_cons, List.mem_append]
    split at hp
    · rcases List.mem_cons.1 hp with rfl | hp
      · exact Or.inl rfl
      · exact Or.inr (Or.inr (ihL p hp))
    · split at hp
      · rcases List.mem_cons.1 hp with rfl | hp
        · exact Or.inl rfl
        · exact Or.inr (Or.inl (ihH p hp))
      · split at hp
        · simp at hp
        · split at hp
          · simp at hp
          · exact Or.inr (Or.inl (ihH p (mem_intersect.1 hp).1))

theorem sat_of_ne {d : Dd} {k : Nat} (hd : d.Ok o k) (h : d ≠ .leaf false) : ∃ η, d.ev η = true := by
  by_contra hc
  push Not at hc
  exact h (Dd.canon (e := .leaf false) hd trivial fun η => by simpa [Dd.ev] using hc η)

theorem unsat_of_ne {d : Dd} {k : Nat} (hd : d.Ok o k) (h : d ≠ .leaf true) : ∃ η, d.ev η = false := by
  by_contra hc
  push Not at hc
  exact h (Dd.canon (e := .leaf true) hd trivial fun η => by simpa [Dd.ev] using hc η)

theorem forcing_iff {d : Dd} : ∀ {k : Nat}, d.Ok o k → ∀ (v : String) (b : Bool),
    (v, b) ∈ forcing d ↔ (∃ η, d.ev η = true) ∧ ∀ η, d.ev η = true → η v = b := by
  induction d with
  | leaf c =>
    intro k _ v b
    simp only [forcing, List.not_mem_nil, false_iff, not_and]
    rintro ⟨η, hc⟩ h
    simp only [Dd.ev] at hc h
    have := h (fun _ => !b) hc
    simp at this
  | node w H L ihH ihL =>
    intro k hd v b
    obtain ⟨hk, hHL, hH, hL⟩ := hd
    have evw : ∀ (η : Env) (c : Bool), (Dd.node w H L).ev (η.set w c) = (if c then H else L).ev η := by
      intro η c
      cases c
      · simp only [Dd.ev, Env.set, if_true, Bool.false_eq_true, if_false]
        exact Dd.ev_set hL η false
      · simp only [Dd.ev, Env.set, if_true]
        exact Dd.ev_set hH η true
    have satH : H ≠ .leaf false → ∃ η : Env, η w = true ∧ H.ev η = true := fun h => by
      obtain ⟨η, e⟩ := sat_of_ne hH h
      exact ⟨η.set w true, by simp [Env.set], by rw [Dd.ev_set hH, e]⟩
    have satL : L ≠ .leaf false → ∃ η : Env, η w = false ∧ L.ev η = true := fun h => by
      obtain ⟨η, e⟩ := sat_of_ne hL h
      exact ⟨η.set w false, by simp [Env.set], by rw [Dd.ev_set hL, e]⟩
    unfold forcing
    split
    · next h1 =>
      have h2 : L ≠ .leaf false := fun e => hHL (h1.trans e.symm)
      obtain ⟨η0, e0, e1⟩ := satL h2
      rw [List.mem_cons, ihL hL]
      constructor
      · rintro (h | ⟨⟨η, h3⟩, h4⟩)
        · simp only [Prod.mk.injEq] at h
          obtain ⟨rfl, rfl⟩ := h
          refine ⟨⟨η0, by simp [Dd.ev, e0, e1]⟩, fun η h => ?_⟩
          cases hv : η v
          · rfl
          · simp [Dd.ev, hv, h1] at h
        · refine ⟨⟨η0, by simp [Dd.ev, e0, e1]⟩, fun η h => h4 η ?_⟩
          cases hv : η w
          · simpa [Dd.ev, hv] using h
          · simp [Dd.ev, hv, h1] at h
      · rintro ⟨_, h⟩
        by_cases hvw : v = w
        · subst hvw
          left
          have := h η0 (by simp [Dd.ev, e0, e1])
          rw [← this, e0]
        · right
          refine ⟨⟨η0, e1⟩, fun η hη => ?_⟩
          have := h (η.set w false) (by rw [evw]; simpa using hη)
          simpa [Env.set, hvw] using this
    · next h1 =>
      obtain ⟨ηH, eH0, eH1⟩ := satH h1
      split
      · next h2 =>
        rw [List.mem_cons, ihH hH]
        constructor
        · rintro (h | ⟨⟨η, h3⟩, h4⟩)
          · simp only [Prod.mk.injEq] at h
            obtain ⟨rfl, rfl⟩ := h
            refine ⟨⟨ηH, by simp [Dd.ev, eH0, eH1]⟩, fun η h => ?_⟩
            cases hv : η v
            · simp [Dd.ev, hv, h2] at h
            · rfl
          · refine ⟨⟨ηH, by simp [Dd.ev, eH0, eH1]⟩, fun η h => h4 η ?_⟩
            cases hv : η w
            · simp [Dd.ev, hv, h2] at h
            · simpa [Dd.ev, hv] using h
        · rintro ⟨_, h⟩
          by_cases hvw : v = w
          · subst hvw
            left
            have := h ηH (by simp [Dd.ev, eH0, eH1])
            rw [← this, eH0]
          · right
            refine ⟨⟨ηH, eH1⟩, fun η hη => ?_⟩
            have := h (η.set w true) (by rw [evw]; simpa using hη)
            simpa [Env.set, hvw] using this
      · next h2 =>
        obtain ⟨ηL, eL0, eL1⟩ := satL h2
        have notw : (∀ η, (Dd.node w H L).ev η = true → η v = b) → v ≠ w := by
          rintro h rfl
          have a1 := h ηH (by simp [Dd.ev, eH0, eH1])
          have a2 := h ηL (by simp [Dd.ev, eL0, eL1])
          rw [eH0] at a1
          rw [eL0, ← a1] at a2
          exact absurd a2 (by simp)
        have free : ∀ c : Bool, (∀ η, (if c then H else L).ev η = true) →
            ¬ ((∃ η, (Dd.node w H L).ev η = true) ∧ ∀ η, (Dd.node w H L).ev η = true → η v = b) := by
          rintro c hc ⟨_, h⟩
          have hvw := notw h
          have := h (Env.set (fun _ => !b) w c) (by rw [evw]; exact hc _)
          simp [Env.set, hvw] at this
        split
        · next h3 =>
          have := free true fun η => by simp [h3, Dd.ev]
          simp only [List.not_mem_nil, false_iff]
          exact this
        · split
          · next h4 =>
            have := free false fun η => by simp [h4, Dd.ev]
            simp only [List.not_mem_nil, false_iff]
            exact this
          · rw [mem_intersect, ihH hH, ihL hL]
            constructor
            · rintro ⟨⟨_, h5⟩, _, h6⟩
              refine ⟨⟨ηH, by simp [Dd.ev, eH0, eH1]⟩, fun η h => ?_⟩
              cases hv : η w
              · exact h6 η (by simpa [Dd.ev, hv] using h)
              · exact h5 η (by simpa [Dd.ev, hv] using h)
            · rintro ⟨_, h⟩
              have hvw := notw h
              refine ⟨⟨⟨ηH, eH1⟩, fun η hη => ?_⟩, ⟨ηL, eL1⟩, fun η hη => ?_⟩
              · have := h (η.set w true) (by rw [evw]; simpa using hη)
                simpa [Env.set, hvw] using this
              · have := h (η.set w false) (by rw [evw]; simpa using hη)
                simpa [Env.set, hvw] using this

theorem forcing_nodup {d : Dd} : ∀ {k : Nat}, d.Ok o k → ((forcing d).map Prod.fst).Nodup := by
  induction d with
  | leaf c => intro k _; simp [forcing]
  | node w H L ihH ihL =>
    intro k hd
    obtain ⟨hk, hHL, hH, hL⟩ := hd
    have notin : ∀ {e : Dd}, e.Ok o (o.pos w + 1) → w ∉ (forcing e).map Prod.fst := by
      intro e he h
      obtain ⟨p, hp, rfl⟩ := List.mem_map.1 h
      have := (Dd.vars_matter he (forcing_vars e p hp)).1
      omega
    unfold forcing
    split
    · exact List.nodup_cons.2 ⟨notin hL, ihL hL⟩
    · split
      · exact List.nodup_cons.2 ⟨notin hH, ihH hH⟩
      · split
        · simp
        · split
          · simp
          · exact (ihH hH).sublist (intersect_sub.map _)

/-! ### Examples -/

theorem select_names (pref : Bool) (f : Fn o) (vs : List String) : (select pref f vs).map Prod.fst = vs := by
  induction vs generalizing f with
  | nil => rfl
  | cons v vs ih =>
    unfold select
    dsimp only
    split
    · simp [ih]
    · split
      · simp [ih]
      · split <;> simp [ih]

/-- One step of `select`: the value of the variable is one with which the condition can be satisfied, and it is
the preferred one if there is a choice. -/
theorem select_step (pref : Bool) (f : Fn o) (v : String) (vs : List String) : ∃ b,
    select pref f (v :: vs) = (v, b) :: select pref (cof v b f) vs ∧
    ((∃ η, f.ev η = true) → ∃ η, (cof v b f).ev η = true) ∧ (b ≠ pref → ∀ η, f.ev η = true → η v = b) := by
  have hcase : ∀ {b : Bool}, cof v (!b) f = ff o → ∀ η, f.ev η = true → η v = b := by
    intro b h η hη
    by_contra hne
    have : η v = !b := by cases b <;> cases hh : η v <;> simp_all
    have h2 := congrArg (fun g => g.ev η) h
    simp only [cof_ev, const_ev, ← this] at h2
    have hs : η.set v (η v) = η := by
      funext n; unfold Env.set; split
      · next e => rw [e]
      · rfl
    rw [hs, hη] at h2
    exact absurd h2 (by simp)
  have hsat : ∀ {b : Bool}, cof v (!b) f = ff o → (∃ η, f.ev η = true) → ∃ η, (cof v b f).ev η = true := by
    rintro b h ⟨η, hη⟩
    refine ⟨η, ?_⟩
    have := hcase h η hη
    rw [cof_ev]
    have hs : η.set v b = η := by
      funext n; unfold Env.set; split
      · next e => rw [e, this]
      · rfl
    rw [hs, hη]
  have e : select pref f (v :: vs) = if cof v true f = ff o then (v, false) :: select pref (cof v false f) vs
      else if cof v false f = ff o then (v, true) :: select pref (cof v true f) vs
      else if pref then (v, true) :: select pref (cof v true f) vs
      else (v, false) :: select pref (cof v false f) vs := rfl
  rw [e]
  split
  · next h => exact ⟨false, rfl, hsat h, fun _ => hcase h⟩
  · next h =>
    split
    · next h2 => exact ⟨true, rfl, hsat h2, fun _ => hcase h2⟩
    · next h2 =>
      cases pref
      · exact ⟨false, rfl, fun _ => ne_ff.1 h2, fun h => absurd rfl h⟩
      · exact ⟨true, rfl, fun _ => ne_ff.1 h, fun h => absurd rfl h⟩

theorem cof_depends {f : Fn o} {v : String} {vs : List String} {b : Bool} (h : ∀ n ∈ depends [f], n ∈ v :: vs) :
    ∀ n ∈ depends [cof v b f], n ∈ vs := by
  intro n hn
  rw [mem_depends] at hn
  obtain ⟨g, hg, η, hne⟩ := hn
  simp only [List.mem_singleton] at hg
  subst hg
  simp only [cof_ev] at hne
  have hnv : n ≠ v := by
    rintro rfl
    apply hne
    congr 1
    funext m
    simp only [Env.set]
    split <;> rfl
  have : n ∈ depends [f] := by
    refine mem_depends.2 ⟨f, by simp, η.set v b, ?_⟩
    have sw : ∀ x, (η.set v b).set n x = (η.set n x).set v b := by
      intro x
      funext m
      simp only [Env.set]
      split <;> split <;> simp_all
    rw [sw, sw]
    exact hne
  exact (List.mem_cons.1 (h n this)).resolve_left hnv

theorem select_sat (pref : Bool) : ∀ (vs : List String) (f : Fn o), (∃ η, f.ev η = true) →
    (∀ n ∈ depends [f], n ∈ vs) → ∀ η, f.ev (assign (select pref f vs) η) = true
  | [], f, ⟨ζ, h⟩, hd, η => by
    rw [← h]
    exact ev_depends (fs := [f]) (by simp) fun n hn => absurd (hd n hn) (by simp)
  | v :: vs, f, h, hd, η => by
    obtain ⟨b, e, h1, _⟩ := select_step pref f v vs
    rw [e, assign_cons, ← cof_ev]
    exact select_sat pref vs _ (h1 h) (cof_depends hd) η

theorem select_first (pref : Bool) : ∀ (vs : List String) (f : Fn o) (l1 l2 : List (String × Bool)) (v : String) (b : Bool),
    select pref f vs = l1 ++ (v, b) :: l2 → b ≠ pref → ∀ η, f.ev η = true → (∀ p ∈ l1, η p.1 = p.2) → η v = b
  | [], f, l1, l2, v, b, h, _, _, _, _ => by simp [select] at h
  | w :: vs, f, l1, l2, v, b, h, hb, η, hη, hl => by
    obtain ⟨c, e, _, h2⟩ := select_step pref f w vs
    rw [e] at h
    cases l1 with
    | nil =>
      simp only [List.nil_append, List.cons.injEq, Prod.mk.injEq] at h
      obtain ⟨⟨rfl, rfl⟩, _⟩ := h
      exact h2 hb η hη
    | cons p l1 =>
      simp only [List.cons_append, List.cons.injEq] at h
      obtain ⟨rfl, h⟩ := h
      have hw : η w = c := hl (w, c) (by simp)
      refine select_first pref vs _ l1 l2 v b h hb η ?_ fun p hp => hl p (by simp [hp])
      rw [cof_ev]
      have hs : η.set w c = η := by
        funext n; unfold Env.set; split
        · next e => rw [e, hw]
        · rfl
      rw [hs, hη]

/-! ### Enumeration -/

theorem selectLow_spec : ∀ (vs : List String) (f : Fn o), vs.Nodup → (∃ η, f.ev η = true) →
    (selectLow f vs).length = vs.length ∧ ∃ η, f.ev η = true ∧ vs.map η = selectLow f vs
  | [], f, _, h => ⟨rfl, by obtain ⟨η, h⟩ := h; exact ⟨η, h, rfl⟩⟩
  | v :: vs, f, hnd, h => by
    obtain ⟨hv, hvs⟩ := List.nodup_cons.1 hnd
    have step : ∀ b, (∃ η, (cof v b f).ev η = true) →
        (b :: selectLow (cof v b f) vs).length = (v :: vs).length ∧
        ∃ η, f.ev η = true ∧ (v :: vs).map η = b :: selectLow (cof v b f) vs := by
      intro b hb
      obtain ⟨h1, η, h2, h3⟩ := selectLow_spec vs (cof v b f) hvs hb
      refine ⟨by simp [h1], η.set v b, by rwa [cof_ev] at h2, ?_⟩
      rw [List.map_cons, ← h3]
      congr 1
      · simp [Env.set]
      · refine List.map_congr_left fun n hn => ?_
        have : n ≠ v := fun e => hv (e ▸ hn)
        simp [Env.set, this]
    unfold selectLow
    dsimp only
    split
    · next hL =>
      refine step true ?_
      obtain ⟨η, hη⟩ := h
      have hvt : η v = true := by
        by_contra hne
        have hf : η v = false := by simpa using hne
        have h2 := congrArg (fun g => g.ev η) hL
        simp only [cof_ev, const_ev] at h2
        have hs : η.set v false = η := by
          funext n; unfold Env.set; split
          · next e => rw [e, hf]
          · rfl
        rw [hs, hη] at h2
        exact absurd h2 (by simp)
      refine ⟨η, ?_⟩
      rw [cof_ev]
      have hs : η.set v true = η := by
        funext n; unfold Env.set; split
        · next e => rw [e, hvt]
        · rfl
      rw [hs, hη]
    · next hL => exact step false (ne_ff.1 hL)

theorem varsEq_ev : ∀ (vs : List String) (bs : List Bool) (η : Env), bs.length = vs.length →
    ((varsEq o vs bs).ev η = true ↔ vs.map η = bs)
  | [], [], η, _ => by simp [varsEq]
  | [], _ :: _, _, h => by simp at h
  | _ :: _, [], _, h => by simp at h
  | v :: vs, b :: bs, η, h => by
    simp only [varsEq, and_ev, xnor_ev, var_ev, const_ev, Bool.and_eq_true, beq_iff_eq, List.map_cons, List.cons.injEq]
    rw [varsEq_ev vs bs η (by simpa using h)]

theorem enumGo_spec (vars : List String) (hnd : vars.Nodup) : ∀ (n : Nat) (f : Fn o),
    (∀ ex, some ex ∈ enumGo vars n f → ∃ η, f.ev η = true ∧ vars.map η = ex) ∧
    ((enumGo vars n f).filterMap id).Nodup ∧
    ((enumGo vars n f).filterMap id).length ≤ n ∧
    (none ∈ enumGo vars n f → ((enumGo vars n f).filterMap id).length = n) ∧
    (none ∉ enumGo vars n f → ∀ η, f.ev η = true → some (vars.map η) ∈ enumGo vars n f)
  | 0, f => by simp [enumGo]
  | n + 1, f => by
    unfold enumGo
    split
    · next h =>
      subst h
      simp
    · next h =>
      dsimp only
      obtain ⟨hlen, η0, h1, h2⟩ := selectLow_spec vars f hnd (ne_ff.1 h)
      generalize selectLow f vars = ex at hlen h2
      obtain ⟨i1, i2, i3, i4, i5⟩ := enumGo_spec vars hnd n (f.and (varsEq o vars ex).not)
      have hnew : ∀ η : Env, (f.and (varsEq o vars ex).not).ev η = true ↔ f.ev η = true ∧ vars.map η ≠ ex := by
        intro η
        have := varsEq_ev (o := o) vars ex η hlen
        rw [and_ev, not_ev, Bool.and_eq_true, Bool.not_eq_true', ne_eq, ← this, Bool.not_eq_true]
      refine ⟨fun e he => ?_, ?_, ?_, ?_, ?_⟩
      · rcases List.mem_cons.1 he with he | he
        · simp only [Option.some.injEq] at he
          exact ⟨η0, h1, h2.trans he.symm⟩
        · obtain ⟨η, a, b⟩ := i1 e he
          exact ⟨η, ((hnew η).1 a).1, b⟩
      · rw [List.filterMap_cons_some (f := id) (b := ex) rfl, List.nodup_cons]
        refine ⟨fun hm => ?_, i2⟩
        rw [List.mem_filterMap] at hm
        obtain ⟨a, ha, hae⟩ := hm
        simp only [id] at hae
        subst hae
        obtain ⟨η, a, b⟩ := i1 ex ha
        exact ((hnew η).1 a).2 b
      · rw [List.filterMap_cons_some (f := id) (b := ex) rfl, List.length_cons]; omega
      · intro hn
        rw [List.filterMap_cons_some (f := id) (b := ex) rfl, List.length_cons, i4 (by simpa using hn)]
      · intro hn η hη
        by_cases he : vars.map η = ex
        · rw [he]; exact List.mem_cons_self
        · exact List.mem_cons_of_mem _ (i5 (fun h => hn (by simp [h])) η ((hnew η).2 ⟨hη, he⟩))

/-! ### Examples of bit-vectors -/

theorem bvsEq_ev : ∀ (l m : List (List (Fn o))), l.length = m.length → (∀ a ∈ l, a ≠ []) → (∀ a ∈ m, a ≠ []) →
    ∃ e, bvsEq o l m = some e ∧ ∀ η : Env, e.ev η = true ↔ l.map (fun a => Bv.sv a η) = m.map fun a => Bv.sv a η
  | [], [], _, _, _ => ⟨tt o, rfl, by simp⟩
  | [], _ :: _, h, _, _ => by simp at h
  | _ :: _, [], h, _, _ => by simp at h
  | a :: l, b :: m, h, h1, h2 => by
    obtain ⟨e, he, hs⟩ := bvsEq_ev l m (by simpa using h) (fun x hx => h1 x (by simp [hx])) fun x hx => h2 x (by simp [hx])
    obtain ⟨f, hf, hsf⟩ := (Bv.c11_compare a b (h1 a (by simp)) (h2 b (by simp))).2.2.2.2.1
    refine ⟨f.and e, by rw [bvsEq, hf, Option.bind_some, he]; rfl, fun η => ?_⟩
    rw [and_ev, Bool.and_eq_true, hs, List.map_cons, List.map_cons, List.cons.injEq]
    have := hsf η
    have h3 : f.ev η = decide (Bv.sv a η = Bv.sv b η) := this
    rw [h3, decide_eq_true_iff]

theorem under_const (sub : List (String × Bool)) (η : Env) :
    under (sub.map fun p => (p.1, const o p.2)) η = assign sub η := by
  induction sub with
  | nil => rfl
  | cons p sub ih =>
    obtain ⟨v, b⟩ := p
    rw [List.map_cons, under_cons, assign_cons, ih, const_ev]

theorem sv_subst (bv : List (Fn o)) (σ : List (String × Fn o)) (η : Env) :
    Bv.sv (bv.map (subst σ)) η = Bv.sv bv (under σ η) := by
  unfold Bv.sv Bv.bits
  rw [List.map_map]
  congr 1
  refine List.map_congr_left fun f _ => ?_
  exact subst_ev σ f η

theorem sv_congr {bv : List (Fn o)} {η ζ : Env} (h : ∀ f ∈ bv, f.ev η = f.ev ζ) : Bv.sv bv η = Bv.sv bv ζ := by
  unfold Bv.sv Bv.bits
  congr 1
  exact List.map_congr_left h

theorem assign_all {l : List (String × Bool)} {vs : List String} (h : l.map Prod.fst = vs) (η ζ : Env) :
    ∀ n ∈ vs, assign l η n = assign l ζ n := by
  intro n hn
  unfold assign
  cases hl : l.lookup n with
  | some b => rfl
  | none =>
    rw [← h] at hn
    obtain ⟨p, hp, rfl⟩ := List.mem_map.1 hn
    rw [List.lookup_eq_none_iff] at hl
    have := hl p hp
    simp at this

theorem bvExGo_spec (bvs : List (List (Fn o))) (hne : ∀ a ∈ bvs, a ≠ []) : ∀ (n : Nat) (cond : Fn o),
    (∀ m ∈ depends [cond], m ∈ depends bvs.flatten) → ∃ exs, bvExGo (depends bvs.flatten) bvs n cond = some exs ∧
      (∀ ex ∈ exs, ∃ η, cond.ev η = true ∧ bvs.map (fun a => Bv.sv a η) = ex) ∧ exs.Nodup ∧ exs.length ≤ n ∧
      (exs.length < n → ∀ η, cond.ev η = true → bvs.map (fun a => Bv.sv a η) ∈ exs)
  | 0, cond, _ => ⟨[], rfl, by simp, by simp, by simp, by simp⟩
  | n + 1, cond, hd => by
    unfold bvExGo
    by_cases hc : cond = ff o
    · rw [if_pos hc]
      subst hc
      exact ⟨[], rfl, by simp, by simp, by simp, by simp⟩
    · rw [if_neg hc]
      have hfull : fullExample false (depends bvs.flatten) cond = some (select false cond (depends bvs.flatten)) := by
        unfold fullExample
        rw [if_neg]
        rw [ne_eq, Classical.not_not, List.filter_eq_nil_iff]
        intro m hm
        simpa using hd m hm
      rw [hfull, Option.bind_some]
      have hsat := select_sat false (depends bvs.flatten) cond (ne_ff.1 hc) hd
      have hnames := select_names false cond (depends bvs.flatten)
      generalize select false cond (depends bvs.flatten) = sub at hsat hnames
      dsimp only
      generalize hb : (bvs.map fun bv => Bv.list2bv (bv.map (subst (sub.map fun p => (p.1, const o p.2))))) = bvis
      -- the values of the example
      have hval : ∀ η : Env, bvis.map (fun a => Bv.sv a η) = bvs.map fun a => Bv.sv a (assign sub fun _ => false) := by
        intro η
        rw [← hb, List.map_map]
        refine List.map_congr_left fun a ha => ?_
        show Bv.sv (Bv.trim _) η = _
        rw [Bv.sv_trim, sv_subst, under_const]
        refine sv_congr fun f hf => ?_
        refine ev_depends (fs := bvs.flatten) (List.mem_flatten.2 ⟨a, ha, hf⟩) ?_
        exact assign_all hnames _ _
      have hne' : ∀ a ∈ bvis, a ≠ [] := by
        intro a ha
        rw [← hb] at ha
        obtain ⟨bv, hbv, rfl⟩ := List.mem_map.1 ha
        have := hne bv hbv
        exact Bv.trim_ne_nil _ (by simpa using this)
      obtain ⟨e, he, hev⟩ := bvsEq_ev bvs bvis (by rw [← hb]; simp) hne hne'
      rw [he, Option.bind_some]
      have hnew : ∀ η : Env, (cond.and e.not).ev η = true ↔ cond.ev η = true ∧
          bvs.map (fun a => Bv.sv a η) ≠ bvs.map fun a => Bv.sv a (assign sub fun _ => false) := by
        intro η
        have := hev η
        rw [hval] at this
        rw [and_ev, not_ev, Bool.and_eq_true, Bool.not_eq_true', ne_eq, ← this, Bool.not_eq_true]
      have hd' : ∀ m ∈ depends [cond.and e.not], m ∈ depends bvs.flatten := by
        intro m hm
        by_contra hcon
        rw [mem_depends] at hm
        obtain ⟨g, hg, η, hne2⟩ := hm
        simp only [List.mem_singleton] at hg
        subst hg
        apply hne2
        rw [Bool.eq_iff_iff, hnew, hnew]
        have e1 : cond.ev (η.set m true) = cond.ev (η.set m false) := by
          refine ev_depends (fs := [cond]) (by simp) fun k hk => ?_
          have : k ≠ m := fun e => hcon (e ▸ hd k hk)
          simp [Env.set, this]
        have e2 : (bvs.map fun a => Bv.sv a (η.set m true)) = bvs.map fun a => Bv.sv a (η.set m false) := by
          refine List.map_congr_left fun a ha => sv_congr fun f hf => ?_
          refine ev_depends (fs := bvs.flatten) (List.mem_flatten.2 ⟨a, ha, hf⟩) fun k hk => ?_
          have : k ≠ m := fun e => hcon (e ▸ hk)
          simp [Env.set, this]
        rw [e1, e2]
      obtain ⟨exs, x1, x2, x3, x4, x5⟩ := bvExGo_spec bvs hne n (cond.and e.not) hd'
      rw [x1, hval]
      refine ⟨_, rfl, fun ex hex => ?_, ?_, by simp; omega, fun hl η hη => ?_⟩
      · rcases List.mem_cons.1 hex with rfl | hex
        · exact ⟨_, hsat _, rfl⟩
        · obtain ⟨η, a, b⟩ := x2 ex hex
          exact ⟨η, ((hnew η).1 a).1, b⟩
      · rw [List.nodup_cons]
        refine ⟨fun hm => ?_, x3⟩
        obtain ⟨η, a, b⟩ := x2 _ hm
        exact ((hnew η).1 a).2 b
      · by_cases hx : bvs.map (fun a => Bv.sv a η) = bvs.map fun a => Bv.sv a (assign sub fun _ => false)
        · rw [hx]; exact List.mem_cons_self
        · exact List.mem_cons_of_mem _ (x5 (by simpa using hl) η ((hnew η).2 ⟨hη, hx⟩))

end Voss.Pre
