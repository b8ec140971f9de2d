import Verif.Bdd.QuantLemmas
/-
Initial state and variable declaration.
-/
namespace Voss.Bdd

/-- `s'` keeps every handle, variable and variable name of `s`, and may have more variables. -/
structure Keeps (s s' : S) : Prop where
  den : ∀ f g, Denotes s f g → Denotes s' f g
  nvars : s.nvars ≤ s'.nvars
  vname : ∀ v, v < s.nvars → s'.vname v = s.vname v
  vars : ∀ name f, s.vars.lookup name = some f → s'.vars.lookup name = some f
  ord : ∀ v, v < s.nvars → s'.ord v = s.ord v
  tbl : ∀ i n, s.tbl i = some n → s'.tbl i = some n

theorem Keeps.refl (s : S) : Keeps s s :=
  ⟨fun _ _ h => h, le_rfl, fun _ _ => rfl, fun _ _ h => h, fun _ _ => rfl, fun _ _ h => h⟩

theorem Keeps.trans {a b c : S} (h : Keeps a b) (h' : Keeps b c) : Keeps a c :=
  ⟨fun f g d => h'.den f g (h.den f g d), h.nvars.trans h'.nvars,
    fun v hv => by rw [h'.vname v (lt_of_lt_of_le hv h.nvars), h.vname v hv],
    fun n f e => h'.vars n f (h.vars n f e),
    fun v hv => by rw [h'.ord v (lt_of_lt_of_le hv h.nvars), h.ord v hv],
    fun i n e => h'.tbl i n (h.tbl i n e)⟩

theorem Ext.keeps {s s' : S} (h : Ext s s') : Keeps s s' :=
  ⟨fun _ _ d => d.ext h, h.nvars.ge, fun v _ => by rw [h.vname], fun n f e => by rw [h.vars]; exact e,
    fun v _ => by rw [h.ord], h.tbl⟩

theorem VInv.ext {s s' : S} (h : VInv s) (hE : Ext s s') : VInv s' := by
  constructor
  · intro name f hm
    rw [hE.vars] at hm
    obtain ⟨v, hv, hn, hd⟩ := h.var_ok name f hm
    exact ⟨v, by rw [hE.nvars]; exact hv, by rw [hE.vname]; exact hn, hd.ext hE⟩
  · intro v hv
    rw [hE.nvars] at hv
    obtain ⟨f, e, d⟩ := h.var_all v hv
    exact ⟨f, by rw [hE.vname, hE.vars]; exact e, d.ext hE⟩
  · intro v w hv hw
    rw [hE.nvars] at hv hw
    rw [hE.vname]
    exact h.name_inj v w hv hw

theorem Inv.good {s s' : S} (h : Inv s) (G : Good s s') : Inv s' := ⟨G.str, G.cache, h.vars.ext G.ext⟩

theorem init_inv (lg : Nat) : Inv (init lg) := by
  refine ⟨?_, ?_, ?_⟩
  · constructor <;> simp only [init] <;> try simp
    · intro i h1 h2
      have : 0 < 2 ^ lg := Nat.two_pow_pos lg
      omega
    · exact List.nodup_range'
  · intro e he; simp [init] at he
  · constructor <;> simp [init]

theorem lookup_mem {β : Type} {l : List (String × β)} {n : String} {f : β}
    (h : l.lookup n = some f) : (n, f) ∈ l := by
  induction l with
  | nil => simp at h
  | cons a l ih =>
    obtain ⟨m, b⟩ := a
    rw [List.lookup_cons] at h
    by_cases hm : n == m
    · simp only [hm] at h
      rw [beq_iff_eq] at hm
      cases h; subst hm; simp
    · simp only [hm] at h
      exact List.mem_cons_of_mem _ (ih h)

theorem primVar_spec {s : S} (hI : Inv s) (name : String) :
    ∃ f s', primVar s name = some (f, s') ∧ Inv s' ∧ Keeps s s' ∧
      s'.vars.lookup name = some f ∧
      ∃ v, v < s'.nvars ∧ s'.vname v = name ∧ Denotes s' f (fun ρ => ρ v) := by
  obtain ⟨hs, hc, hv⟩ := hI
  unfold primVar
  cases hl : s.vars.lookup name with
  | some f =>
    refine ⟨f, s, rfl, ⟨hs, hc, hv⟩, Keeps.refl s, hl, hv.var_ok name f (lookup_mem hl)⟩
  | none =>
    simp only
    have hfresh : ∀ v, v < s.nvars → s.vname v ≠ name := by
      intro v hlt he
      obtain ⟨f, e, _⟩ := hv.var_all v hlt
      rw [he, hl] at e
      exact absurd e (by simp)
    generalize hs1 : ({ s with nvars := s.nvars + 1, ord := upd s.ord s.nvars s.nvars,
                               vname := upd s.vname s.nvars name } : S) = s1
    have t1 : s1.tbl = s.tbl := by rw [← hs1]
    have n1 : s1.nvars = s.nvars + 1 := by rw [← hs1]
    have o1 : ∀ v, v < s.nvars → s1.ord v = s.ord v := by
      intro v hlt; rw [← hs1]; exact upd_ne _ _ (by omega)
    have o2 : s1.ord s.nvars = s.nvars := by rw [← hs1]; exact upd_same _ _ _
    have v1 : ∀ v, v < s.nvars → s1.vname v = s.vname v := by
      intro v hlt; rw [← hs1]; exact upd_ne _ _ (by omega)
    have v2 : s1.vname s.nvars = name := by rw [← hs1]; exact upd_same _ _ _
    have c1 : s1.cache = s.cache := by rw [← hs1]
    have vv1 : s1.vars = s.vars := by rw [← hs1]
    have hb : ∀ v j, v < s.nvars → Below s v j → Below s1 v j := by
      intro v j hlt h
      rcases h with h | ⟨m, e, h⟩
      · exact Or.inl h
      · refine Or.inr ⟨m, by rw [t1]; exact e, ?_⟩
        rw [o1 v hlt, o1 _ (hs.var_lt _ _ e)]; exact h
    have hS1 : SInv s1 := by
      constructor
      · rw [t1]; exact hs.tbl0
      · rw [t1, ← hs1]; exact hs.live_iff
      · rw [← hs1]; exact hs.live_nodup
      · rw [← hs1]; exact hs.live_lt
      · rw [← hs1]; exact hs.free_ok
      · rw [← hs1]; exact hs.free_nodup
      · rw [← hs1]; exact hs.size_pos
      · rw [t1]; exact hs.uniq
      · intro i n e; rw [t1] at e; have := hs.var_lt _ _ e; omega
      · intro i n e; rw [t1] at e; exact hb _ _ (hs.var_lt _ _ e) (hs.below_l _ _ e)
      · intro i n e; rw [t1] at e; exact hb _ _ (hs.var_lt _ _ e) (hs.below_r _ _ e)
      · rw [t1]; exact hs.reduced
      · intro v w hv' hw' he
        rw [n1] at hv' hw'
        rcases Nat.lt_succ_iff_lt_or_eq.1 hv' with a | a <;>
          rcases Nat.lt_succ_iff_lt_or_eq.1 hw' with b | b
        · rw [o1 v a, o1 w b] at he; exact hs.ord_inj _ _ a b he
        · subst b; rw [o1 v a, o2] at he; have := hs.ord_lt v a; omega
        · subst a; rw [o1 w b, o2] at he; have := hs.ord_lt w b; omega
        · omega
      · intro v hv'
        rw [n1] at hv' ⊢
        rcases Nat.lt_succ_iff_lt_or_eq.1 hv' with a | a
        · rw [o1 v a]; have := hs.ord_lt v a; omega
        · subst a; rw [o2]; omega
    obtain ⟨f, s2, e2, hS2, hE2, hc2, d2⟩ := var_denotes hS1 (v := s.nvars) (by omega)
    simp only [e2, Option.bind_eq_bind, Option.bind_some]
    have hden : ∀ f g, Denotes s f g → Denotes s2 f g := by
      intro f g d
      exact (d.mono (s' := s1) (by rw [t1]; exact fun _ _ h => h)).ext hE2
    refine ⟨f, _, rfl, ⟨?_, ?_, ?_⟩, ?_, ?_, s.nvars, ?_, ?_, ?_⟩
    · exact ⟨hS2.tbl0, hS2.live_iff, hS2.live_nodup, hS2.live_lt, hS2.free_ok, hS2.free_nodup,
        hS2.size_pos, hS2.uniq, hS2.var_lt, hS2.below_l, hS2.below_r, hS2.reduced, hS2.ord_inj,
        hS2.ord_lt⟩
    · intro e he
      simp only [hc2, c1] at he
      exact ((hc e he).mono (s' := s1) (by rw [t1]; exact fun _ _ h => h)).mono hE2.tbl
    · constructor
      · intro nm f' hm
        simp only [List.mem_cons] at hm
        rcases hm with hm | hm
        · cases hm
          exact ⟨s.nvars, by simp only [hE2.nvars, n1]; omega, by simp only [hE2.vname, v2], d2⟩
        · rw [hE2.vars, vv1] at hm
          obtain ⟨v, hlt, hn, hd⟩ := hv.var_ok nm f' hm
          exact ⟨v, by simp only [hE2.nvars, n1]; omega, by simp only [hE2.vname, v1 v hlt, hn],
            hden _ _ hd⟩
      · intro v hlt
        simp only [hE2.nvars, n1] at hlt
        simp only [hE2.vname, hE2.vars, vv1]
        rcases Nat.lt_succ_iff_lt_or_eq.1 hlt with a | a
        · obtain ⟨f', e', d'⟩ := hv.var_all v a
          refine ⟨f', ?_, hden _ _ d'⟩
          rw [v1 v a, List.lookup_cons]
          have : (s.vname v == name) = false := by
            rw [beq_eq_false_iff_ne]; exact hfresh v a
          simp only [this]; exact e'
        · subst a
          refine ⟨f, ?_, d2⟩
          rw [v2, List.lookup_cons]; simp
      · intro v w hv' hw' he
        simp only [hE2.nvars, n1] at hv' hw'
        simp only [hE2.vname] at he
        rcases Nat.lt_succ_iff_lt_or_eq.1 hv' with a | a <;>
          rcases Nat.lt_succ_iff_lt_or_eq.1 hw' with b | b
        · rw [v1 v a, v1 w b] at he; exact hv.name_inj v w a b he
        · subst b; rw [v1 v a, v2] at he; exact absurd he (hfresh v a)
        · subst a; rw [v1 w b, v2] at he; exact absurd he.symm (hfresh w b)
        · omega
    · refine ⟨hden, by simp only [hE2.nvars, n1]; omega, ?_, ?_, ?_, ?_⟩
      · intro v hlt; simp only [hE2.vname]; exact v1 v hlt
      · intro nm f' e'
        simp only [hE2.vars, vv1, List.lookup_cons]
        have : (nm == name) = false := by
          rw [beq_eq_false_iff_ne]; rintro rfl; rw [hl] at e'; exact absurd e' (by simp)
        simp only [this]; exact e'
      · intro v hlt; simp only [hE2.ord]; exact o1 v hlt
      · intro i n e; exact hE2.tbl _ _ (by rw [t1]; exact e)
    · simp only [List.lookup_cons]; simp
    · simp only [hE2.nvars, n1]; omega
    · simp only [hE2.vname, v2]
    · exact d2

theorem bVar_spec {s : S} (hI : Inv s) (name : String) :
    ∃ f s', bVar s name = some (f, s') ∧ Inv s' ∧ Keeps s s' ∧ s'.vars.lookup name = some f ∧
      ∃ v, v < s'.nvars ∧ s'.vname v = name ∧ Denotes s' f (fun ρ => ρ v) := by
  unfold bVar
  cases hl : s.vars.lookup name with
  | some f =>
    exact ⟨f, s, rfl, hI, Keeps.refl s, hl, hI.vars.var_ok name f (lookup_mem hl)⟩
  | none =>
    simp only
    split
    · obtain ⟨f1, s1, e1, I1, K1, _, _⟩ := primVar_spec hI
        (String.ofList (name.toList.take (name.toList.length - 2)))
      simp only [e1, Option.bind_eq_bind, Option.bind_some]
      obtain ⟨f2, s2, e2, I2, K2, l2, h2⟩ := primVar_spec I1 name
      exact ⟨f2, s2, e2, I2, K1.trans K2, l2, h2⟩
    · obtain ⟨f1, s1, e1, I1, K1, l1, v, hv, hn, hd⟩ := primVar_spec hI name
      simp only [e1, Option.bind_eq_bind, Option.bind_some]
      obtain ⟨f2, s2, e2, I2, K2, l2, h2⟩ := primVar_spec I1 (String.ofList (name.toList ++ ['_', 'n']))
      simp only [e2, Option.bind_some]
      refine ⟨f1, s2, rfl, I2, K1.trans K2, K2.vars _ _ l1, v, lt_of_lt_of_le hv K2.nvars, ?_, K2.den _ _ hd⟩
      rw [K2.vname v hv, hn]

/-- `s'` is reached from `s` by declaring variables with names in `N` and by operations that keep
the variables. -/
inductive Via (N : String → Prop) : S → S → Prop
  | refl (s : S) : Via N s s
  | ext {a b c : S} : Ext a b → Via N b c → Via N a c
  | var {a b c : S} {name : String} {f : F} : N name → bVar a name = some (f, b) → Via N b c → Via N a c

theorem Via.trans {N : String → Prop} {a b c : S} (h : Via N a b) (h' : Via N b c) : Via N a c := by
  induction h with
  | refl => exact h'
  | ext e _ ih => exact Via.ext e (ih h')
  | var hn e _ ih => exact Via.var hn e (ih h')

theorem Via.mono {N M : String → Prop} (hNM : ∀ n, N n → M n) {a b : S} (h : Via N a b) : Via M a b := by
  induction h with
  | refl => exact Via.refl _
  | ext e _ ih => exact Via.ext e ih
  | var hn e _ ih => exact Via.var (hNM _ hn) e ih

theorem findInsert_frame {s s' : S} {v : Nat} {l r f : F} (h : findInsert s v l r = some (f, s')) :
    s'.nvars = s.nvars ∧ s'.ord = s.ord ∧ s'.vname = s.vname ∧ s'.vars = s.vars := by
  unfold findInsert at h
  split at h
  · cases h; exact ⟨rfl, rfl, rfl, rfl⟩
  · simp only at h
    split at h
    · cases h; exact ⟨rfl, rfl, rfl, rfl⟩
    · split at h
      · cases h
      · next ha =>
        cases h
        unfold alloc at ha
        simp only at ha
        split at ha
        · cases ha
        · cases ha
          split <;> exact ⟨rfl, rfl, rfl, rfl⟩

theorem primVar_frame {s s' : S} {name : String} {f : F} (hl : s.vars.lookup name = none)
    (h : primVar s name = some (f, s')) :
    s'.nvars = s.nvars + 1 ∧ s'.ord = upd s.ord s.nvars s.nvars ∧ s'.vname = upd s.vname s.nvars name ∧
      s'.vars = (name, f) :: s.vars := by
  unfold primVar at h
  rw [hl] at h
  simp only [Option.bind_eq_bind] at h
  rw [Option.bind_eq_some_iff] at h
  obtain ⟨⟨f1, s1⟩, e1, h⟩ := h
  obtain ⟨a, b, c, d⟩ := findInsert_frame e1
  cases h
  exact ⟨a, b, c, by simp only [d]⟩

end Voss.Bdd
