import Verif.Bdd.History
import Verif.Bdd.SaveLemmas
import Verif.Bdd.CollectLemmas
/-
Variables come in pairs: every current-state variable is followed by its next-state copy, as long as
no name ends in `_n_n`.
-/
namespace Voss.Bdd

theorem endsN_app (cs : List Char) : EndsN (String.ofList (cs ++ ['_', 'n'])) := by
  simp [EndsN]

theorem base_app (cs : List Char) : base (String.ofList (cs ++ ['_', 'n'])) = String.ofList cs := by
  simp [base]

theorem app_base {name : String} (h : EndsN name) :
    String.ofList ((base name).toList ++ ['_', 'n']) = name := by
  obtain ⟨h1, h2⟩ := h
  have : (base name).toList ++ ['_', 'n'] = name.toList := by
    unfold base
    rw [String.toList_ofList, ← h2, List.take_append_drop]
  rw [this, String.ofList_toList]

theorem ofList_inj {a b : List Char} (h : String.ofList a = String.ofList b) : a = b := by
  have := congrArg String.toList h
  simpa using this

/-- The name of the next-state copy. -/
def nextName (name : String) : String := String.ofList (name.toList ++ ['_', 'n'])

theorem nextName_inj {a b : String} (h : nextName a = nextName b) : a = b := by
  have h1 := ofList_inj h
  have h2 := List.append_cancel_right h1
  rw [← String.ofList_toList (s := a), h2, String.ofList_toList]

theorem nextName_ne (a : String) : nextName a ≠ a := by
  intro h
  have := congrArg (fun s => s.toList.length) h
  simp [nextName] at this

/-- The variable table, names only. -/
structure NInv (s : S) : Prop where
  look_ok : ∀ name f, s.vars.lookup name = some f → ∃ v, v < s.nvars ∧ s.vname v = name
  look_all : ∀ v, v < s.nvars → ∃ f, s.vars.lookup (s.vname v) = some f

/-- Variables are in pairs. -/
structure PairedN (s : S) : Prop where
  ninv : NInv s
  pair : Paired s
  name : ∀ k, 2 * k < s.nvars → s.vname (2 * k + 1) = nextName (s.vname (2 * k)) ∧ ¬ EndsN (s.vname (2 * k))

theorem VInv.ninv {s : S} (h : VInv s) : NInv s :=
  ⟨fun name f hl => by
      obtain ⟨v, a, b, _⟩ := h.var_ok name f (lookup_mem hl)
      exact ⟨v, a, b⟩,
    fun v hv => by
      obtain ⟨f, a, _⟩ := h.var_all v hv
      exact ⟨f, a⟩⟩

theorem PairedN.init (lg : Nat) : PairedN (init lg) :=
  ⟨(init_inv lg).vars.ninv, ⟨rfl, fun k hk => by simp [Bdd.init] at hk⟩, fun k hk => by simp [Bdd.init] at hk⟩

theorem PairedN.ext {s s' : S} (h : PairedN s) (e : Ext s s') : PairedN s' := by
  obtain ⟨⟨a, b⟩, ⟨c, d⟩, f⟩ := h
  obtain ⟨_, e1, e2, e3, e4⟩ := e
  exact ⟨⟨by rw [e2, e3, e4]; exact a, by rw [e2, e3, e4]; exact b⟩,
    ⟨by rw [e2]; exact c, by rw [e2, e1]; exact d⟩, by rw [e2, e3]; exact f⟩

theorem upd_eq {α : Type} (f : Nat → α) (i : Nat) (x : α) : upd f i x i = x := by simp [upd]

theorem NInv.prim {s s' : S} (h : NInv s) {name : String} {f : F} (hl : s.vars.lookup name = none)
    (e : primVar s name = some (f, s')) : NInv s' := by
  obtain ⟨e1, _, e3, e4⟩ := primVar_frame hl e
  constructor
  · intro nm g hg
    rw [e4, List.lookup_cons] at hg
    split at hg
    · next hb => exact ⟨s.nvars, by omega, by rw [e3, upd_eq]; exact (beq_iff_eq.1 hb).symm⟩
    · obtain ⟨v, hv, hn⟩ := h.look_ok nm g hg
      exact ⟨v, by omega, by rw [e3]; simp only [upd]; rw [if_neg (by omega)]; exact hn⟩
  · intro v hv
    rw [e3, e4]
    by_cases hvn : v = s.nvars
    · subst hvn; rw [upd_eq]; exact ⟨f, by simp [List.lookup_cons]⟩
    · obtain ⟨g, hg⟩ := h.look_all v (by omega)
      simp only [upd, if_neg hvn, List.lookup_cons]
      split
      · exact ⟨f, rfl⟩
      · exact ⟨g, hg⟩

/-- Declaring a fresh pair. -/
theorem PairedN.two {s s1 s2 : S} (h : PairedN s) {b n : String} {f1 f2 : F} (hb : s.vars.lookup b = none)
    (hn : s.vars.lookup n = none) (hbn : n = nextName b) (hbe : ¬ EndsN b)
    (e1 : primVar s b = some (f1, s1)) (e2 : primVar s1 n = some (f2, s2)) : PairedN s2 := by
  obtain ⟨a1, a2, a3, a4⟩ := primVar_frame hb e1
  have hn1 : s1.vars.lookup n = none := by
    rw [a4, List.lookup_cons]
    have : (n == b) = false := by rw [beq_eq_false_iff_ne, hbn]; exact nextName_ne b
    rw [this]; exact hn
  obtain ⟨b1, b2, b3, b4⟩ := primVar_frame hn1 e2
  refine ⟨(h.ninv.prim hb e1).prim hn1 e2, ⟨by have := h.pair.even; omega, ?_⟩, ?_⟩
  · intro k hk
    have hev := h.pair.even
    rw [b2, a2, a1]
    rcases Nat.lt_or_ge (2 * k) s.nvars with hlt | hge
    · obtain ⟨p1, p2⟩ := h.pair.pos k hlt
      simp only [upd]
      rw [if_neg (by omega), if_neg (by omega), if_neg (by omega), if_neg (by omega)]
      exact ⟨p1, p2⟩
    · have : 2 * k = s.nvars := by omega
      simp only [upd, this]
      simp [hev]
  · intro k hk
    have hev := h.pair.even
    rw [b3, a3, a1]
    rcases Nat.lt_or_ge (2 * k) s.nvars with hlt | hge
    · obtain ⟨p1, p2⟩ := h.name k hlt
      simp only [upd]
      rw [if_neg (by omega), if_neg (by omega), if_neg (by omega), if_neg (by omega)]
      exact ⟨p1, p2⟩
    · have : 2 * k = s.nvars := by omega
      simp only [upd, this]
      simp [hbn, hbe]

/-- The declared variable with a given name sits at an even number exactly when it is a current-state
variable. -/
theorem PairedN.even {s : S} (h : PairedN s) {v : Nat} (hv : v < s.nvars) (hn : ¬ EndsN (s.vname v)) :
    ∃ k, v = 2 * k := by
  by_contra hc
  have : ∃ k, v = 2 * k + 1 := ⟨v / 2, by
    have : v % 2 ≠ 0 := fun h0 => hc ⟨v / 2, by omega⟩
    omega⟩
  obtain ⟨k, rfl⟩ := this
  apply hn
  rw [(h.name k (by omega)).1]
  exact endsN_app _

theorem PairedN.odd {s : S} (h : PairedN s) {v : Nat} (hv : v < s.nvars) (hn : EndsN (s.vname v)) :
    ∃ k, v = 2 * k + 1 := by
  by_contra hc
  have : ∃ k, v = 2 * k := ⟨v / 2, by
    have : ¬ v % 2 = 1 := fun h0 => hc ⟨v / 2, by omega⟩
    omega⟩
  obtain ⟨k, rfl⟩ := this
  exact (h.name k hv).2 hn

theorem PairedN.bVar {s s' : S} (h : PairedN s) {name : String} {f : F} (hok : NameOK name)
    (e : bVar s name = some (f, s')) : PairedN s' := by
  unfold Bdd.bVar at e
  cases hl : s.vars.lookup name with
  | some g =>
    rw [hl] at e
    cases e
    exact h
  | none =>
    rw [hl] at e
    simp only at e
    split at e
    · next hE =>
      have hE' : EndsN name := hE
      rw [Option.bind_eq_bind, Option.bind_eq_some_iff] at e
      obtain ⟨⟨f1, s1⟩, e1, e2⟩ := e
      have hbe : ¬ EndsN (base name) := fun hb => hok ⟨hE', hb⟩
      have hnn : name = nextName (base name) := (app_base hE').symm
      have hb : s.vars.lookup (base name) = none := by
        cases hb : s.vars.lookup (base name) with
        | none => rfl
        | some g =>
          obtain ⟨v, hv, hvn⟩ := h.ninv.look_ok _ _ hb
          obtain ⟨k, rfl⟩ := h.even hv (by rw [hvn]; exact hbe)
          obtain ⟨g', hg'⟩ := h.ninv.look_all (2 * k + 1) (by have := h.pair.even; omega)
          rw [(h.name k hv).1, hvn, ← hnn, hl] at hg'
          exact absurd hg' (by simp)
      exact h.two hb hl hnn hbe e1 e2
    · next hE =>
      have hE' : ¬ EndsN name := hE
      rw [Option.bind_eq_bind, Option.bind_eq_some_iff] at e
      obtain ⟨⟨f1, s1⟩, e1, e2⟩ := e
      rw [Option.bind_eq_some_iff] at e2
      obtain ⟨⟨f2, s2⟩, e2, e3⟩ := e2
      cases e3
      have hn : s.vars.lookup (nextName name) = none := by
        cases hn : s.vars.lookup (nextName name) with
        | none => rfl
        | some g =>
          obtain ⟨v, hv, hvn⟩ := h.ninv.look_ok _ _ hn
          obtain ⟨k, rfl⟩ := h.odd hv (by rw [hvn]; exact endsN_app _)
          have hk : 2 * k < s.nvars := by omega
          rw [(h.name k hk).1] at hvn
          obtain ⟨g', hg'⟩ := h.ninv.look_all (2 * k) hk
          rw [nextName_inj hvn, hl] at hg'
          exact absurd hg' (by simp)
      exact h.two hl hn rfl hE' e1 e2

theorem PairedN.via {s s' : S} (h : PairedN s) (hv : Via NameOK s s') : PairedN s' := by
  induction hv with
  | refl => exact h
  | ext e _ ih => exact ih (h.ext e)
  | var hn e _ ih => exact ih (h.bVar hn e)

theorem PairedN.nameOK {s : S} (h : PairedN s) {v : Nat} (hv : v < s.nvars) : NameOK (s.vname v) := by
  rintro ⟨h1, h2⟩
  obtain ⟨k, rfl⟩ := h.odd hv h1
  have := h.name k (by omega)
  rw [this.1] at h2
  have e : base (nextName (s.vname (2 * k))) = s.vname (2 * k) := by
    unfold nextName; rw [base_app, String.ofList_toList]
  rw [e] at h2
  exact this.2 h2

/-- `Add_ordering_var` on current-state variables. -/
theorem orderingVars_spec : ∀ (names : List String) (s : S), Inv s → PairedN s → (∀ n ∈ names, ¬ EndsN n) →
    ∃ vs s', orderingVars s names = some (vs, s') ∧ Inv s' ∧ Keeps s s' ∧ PairedN s' ∧ Pairs vs ∧
      (∀ v ∈ vs, v < s'.nvars) ∧ (∀ (j : Nat) (n : String), names[j]? = some n → ∃ v, vs[2 * j]? = some v ∧
        vs[2 * j + 1]? = some (v + 1) ∧ s'.vname v = n) ∧ (names.Nodup → vs.Nodup) ∧
      (∀ v ∈ vs, s'.vname (2 * (v / 2)) ∈ names) := by
  intro names
  induction names with
  | nil =>
    intro s hI hP _
    exact ⟨[], s, rfl, hI, Keeps.refl s, hP, Pairs.nil, by simp, by simp, by simp, by simp⟩
  | cons name rest ih =>
    intro s hI hP hn
    have hne : ¬ EndsN name := hn name (by simp)
    obtain ⟨f, s1, e1, I1, K1, _, v, hv, hvn, hd⟩ := bVar_spec hI name
    have hP1 := hP.bVar (fun h => hne h.1) e1
    obtain ⟨k, rfl⟩ := hP1.even hv (by rw [hvn]; exact hne)
    obtain ⟨n, en, hnv⟩ := var_node I1.str hd
    obtain ⟨vs, s2, e2, I2, K2, P2, p2, lt2, at2, nd2, in2⟩ := ih s1 I1 hP1 (fun n h => hn n (by simp [h]))
    have hlt : 2 * k < s2.nvars := lt_of_lt_of_le hv K2.nvars
    have hlt' : 2 * k + 1 < s2.nvars := by have := P2.pair.even; omega
    have hnm : s2.vname (2 * k) = name := by rw [K2.vname _ hv, hvn]
    refine ⟨2 * k :: (2 * k + 1) :: vs, s2, ?_, I2, K1.trans K2, P2, Pairs.cons k p2, ?_, ?_, ?_, ?_⟩
    · have hc : ¬ (2 < name.toList.length ∧ name.toList.drop (name.toList.length - 2) = ['_', 'n']) := by
        rintro ⟨a, b⟩
        exact hne ⟨by omega, b⟩
      simp only [orderingVars]
      rw [if_neg hc]
      simp only [e1, en, e2, hnv, Option.bind_eq_bind, Option.bind_some]
    · intro w hw
      simp only [List.mem_cons] at hw
      rcases hw with rfl | rfl | hw
      · exact hlt
      · exact hlt'
      · exact lt2 w hw
    · intro j n hj
      cases j with
      | zero =>
        simp only [List.getElem?_cons_zero, Option.some.injEq] at hj
        subst hj
        exact ⟨2 * k, rfl, rfl, hnm⟩
      | succ j =>
        simp only [List.getElem?_cons_succ] at hj
        obtain ⟨w, h1, h2, h3⟩ := at2 j n hj
        refine ⟨w, ?_, ?_, h3⟩
        · rw [show 2 * (j + 1) = 2 * j + 1 + 1 by omega]; simpa using h1
        · rw [show 2 * (j + 1) + 1 = (2 * j + 1) + 1 + 1 by omega]; simpa using h2
    · intro hnd
      rw [List.nodup_cons] at hnd
      have hnot : ∀ w ∈ vs, w / 2 ≠ k := by
        intro w hw he
        have := in2 w hw
        rw [he, hnm] at this
        exact hnd.1 this
      rw [List.nodup_cons, List.nodup_cons]
      refine ⟨?_, ?_, nd2 hnd.2⟩
      · intro h
        rcases List.mem_cons.1 h with h | h
        · omega
        · exact hnot _ h (by omega)
      · intro h
        exact hnot _ h (by omega)
    · intro w hw
      simp only [List.mem_cons] at hw
      rcases hw with rfl | rfl | hw
      · rw [show 2 * (2 * k / 2) = 2 * k by omega, hnm]; simp
      · rw [show 2 * ((2 * k + 1) / 2) = 2 * k by omega, hnm]; simp
      · exact List.mem_cons_of_mem _ (in2 w hw)

end Voss.Bdd
