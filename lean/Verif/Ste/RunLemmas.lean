import Verif.Ste.EventLemmas
import Verif.Sim.Props
/-
Lemmas about whole runs.
-/
namespace Voss.Ste
open Voss.Sim

variable {F Env : Type} {p : Par F} {den : F → Env → Bool} {ρ : Env}

/-! ### Values admit executions -/

/-- A component's results admit every possible result. -/
def OkS (k : Comp) (i raw : List (DR Bool)) : Prop :=
  i.length = k.inps.length → ∀ w, AdmitsW i w → ∀ v, List.Forall₂ Possible (wordOp k.prim k.size w) v → AdmitsW raw v

theorem evalComp_sound (hE : Exact p.o den) (c : Comp) (hg : GoodComp c) (k : Nat) (inps raw : List (DR F)) (h : evalComp p k c inps = some raw) :
    OkS c (inps.map (DR.at den ρ)) (raw.map (DR.at den ρ)) := by
  intro hl w hw v hv
  rw [List.length_map] at hl
  unfold evalComp at h
  have hlen : c.prim.inputs c.size ≤ inps.length := by rw [hl]; exact hg.inps
  cases hlim : p.lim k with
  | none =>
    rw [hlim] at h
    obtain ⟨outs, h1, h2⟩ := c35_sound_partial p.o den hE c.prim hg.prim c.size inps ρ w hw hlen hg.wf hg.size
    rw [h1] at h
    rw [← Option.some.inj h]
    exact h2 v hv
  | some big =>
    rw [hlim] at h
    obtain ⟨outs, h1, h2⟩ := c38_sound_partial p.o den hE big c.prim hg.prim c.size inps ρ w hw hlen hg.wf hg.size
    dsimp only at h
    rw [h1] at h
    rw [← Option.some.inj h]
    exact h2 v hv

theorem hypS (hE : Exact p.o den) (hn : ∀ a b, p.neq a b = false → ∀ ρ, den a ρ = den b ρ) (hg : ∀ k ∈ p.net, GoodComp k) :
    Hyp p den ρ OkS :=
  ⟨hE, fun a b h => hn a b h ρ, fun k c inps raw hc h => evalComp_sound hE c (hg c hc) k inps raw h⟩

theorem forall2_mem_zip {P : α → β → Prop} {as : List α} {bs : List β} (h : List.Forall₂ P as bs) : ∀ q ∈ as.zip bs, P q.1 q.2 := by
  induction h with
  | nil => simp
  | cons h _ ih =>
    intro q hq
    rw [List.zip_cons_cons, List.mem_cons] at hq
    rcases hq with rfl | hq
    · exact h
    · exact ih q hq

theorem admitsW_map {σ : Nat → Bool} {l : List Nat} {i : List (DR Bool)} (h : List.Forall₂ (fun n d => Admits d (σ n)) l i) :
    AdmitsW i (l.map σ) := by
  induction h with
  | nil => exact .nil
  | cons h _ ih => exact .cons h ih

theorem admitsW_zip {σ : Nat → Bool} {l : List Nat} {raw : List (DR Bool)} (h : AdmitsW raw (l.map σ)) :
    ∀ q ∈ l.zip raw, Admits q.2 (σ q.1) := by
  induction l generalizing raw with
  | nil => simp
  | cons a as ih =>
    rw [List.map_cons] at h
    cases h with
    | cons h1 h2 =>
      intro q hq
      rw [List.zip_cons_cons, List.mem_cons] at hq
      rcases hq with rfl | hq
      · exact h1
      · exact ih h2 q hq

/-- Weakening and antecedents keep what an execution that meets the antecedents has. -/
theorem adj_admits (hE : Exact p.o den) {items : List (Item F)} {evs : List (Event F)} (hS : Sorted p.o items evs)
    {σ : Int → Nat → Bool} (ha : Meets den ρ .ant items σ) (t : Int) (v : Ev F) (rest : List (Event F)) (hev : EvAt p.o evs t v rest)
    (n : Nat) (x : DR Bool) (hx : Admits x (σ t n)) : Admits (adjB den ρ v n x) (σ t n) := by
  unfold adjB
  have h1 : Admits (if v.hasWeak n = true then (⟨x.h || den (v.weak n).h ρ, x.l || den (v.weak n).l ρ⟩ : DR Bool) else x) (σ t n) := by
    cases hw : v.hasWeak n with
    | false => simpa using hx
    | true =>
      unfold Admits at hx ⊢
      cases hs : σ t n <;> rw [hs] at hx <;> simp at hx ⊢ <;> exact Or.inl hx
  generalize (if v.hasWeak n = true then (⟨x.h || den (v.weak n).h ρ, x.l || den (v.weak n).l ρ⟩ : DR Bool) else x) = y at h1
  dsimp only
  cases hA : v.hasAnt n with
  | false => simpa using h1
  | true =>
    simp only [if_true]
    obtain ⟨d, _, hI, _⟩ := evAt_inv hS t v rest hev
    have hb : v.ant n = meet p.o (v.actA n) := hI.buf .ant n (by simp) hA
    have hm := meet_spec (ρ := ρ) hE (v.actA n)
    rw [← hb] at hm
    have hact : ∀ e ∈ v.actA n, (σ t n = true → den e.H ρ = true) ∧ (σ t n = false → den e.L ρ = true) := by
      intro e he
      obtain ⟨i, hi, a1, a2, a3, a4, a5, a6⟩ := active_item hS t v rest hev .ant (by simp) n e he
      obtain ⟨b1, b2⟩ := events_values p.o _ i e a5 a6 (Or.inl a1)
      have := ha i hi a1
      rw [b1, b2, hE.or, hE.or, hE.not, hE.not]
      cases hc : den i.cond ρ with
      | false => simp
      | true =>
        have := this hc t a3 a4
        rw [a2] at this
        rw [this]; cases den i.val ρ <;> simp
    unfold Admits at h1 ⊢
    cases hs : σ t n with
    | true =>
      rw [hs] at h1
      simp only [if_true] at h1 ⊢
      rw [h1, hm.1.2 fun e he => (hact e he).1 hs]; rfl
    | false =>
      rw [hs] at h1
      simp only [Bool.false_eq_true, if_false] at h1 ⊢
      rw [h1, hm.2.2 fun e he => (hact e he).2 hs]; rfl

/-- "Admits the value in the execution" is kept by the circuit. -/
theorem closedS (hE : Exact p.o den) {items : List (Item F)} {evs : List (Event F)} (hS : Sorted p.o items evs)
    {σ : Int → Nat → Bool} (hσ : Execution p.net σ) (ha : Meets den ρ .ant items σ) :
    Closed p den ρ OkS evs (fun t n x => Admits x (σ t n)) where
  bot := by intro t n; cases h : σ t n <;> simp [Admits, h]
  con := by
    intro t n hn
    unfold constB
    by_cases h0 : n = 0
    · subst h0; simp [Admits, hσ.zero]
    · by_cases h1 : n = 1
      · subst h1; simp [Admits, hσ.one]
      · rw [if_neg h0, if_neg h1, if_neg (by omega)]
        cases h : σ t n <;> simp [Admits, h]
  comb := by
    intro t v rest hev k hk hd i raw hi hok q hq
    apply adj_admits hE hS ha t v rest hev
    have := hok hi.length_eq.symm _ (admitsW_map hi) _ (hσ.comb t k hk hd)
    exact admitsW_zip this q hq
  del := by
    intro t k hk hd i raw hi hok q hq
    have := hok hi.length_eq.symm _ (admitsW_map hi) _ (hσ.delay t k hk hd)
    exact admitsW_zip this q hq
  inp := by
    intro t v rest hev n
    intros
    apply adj_admits hE hS ha t v rest hev
    cases h : σ t n <;> simp [Admits, h]

/-! ### The start of a run -/

theorem evAt_before (o : Ops F) (evs : List (Event F)) (e : Event F) (h : evs.head? = some e) (t : Int) (ht : t < e.time) :
    EvAt o evs t (ev0 o) evs := by
  cases evs with
  | nil => simp at h
  | cons x xs =>
    simp only [List.head?_cons, Option.some.injEq] at h
    subst h
    refine ⟨fun _ => false, ?_⟩
    rw [process, if_pos ht]

/-- After initialisation the invariant of the main loop holds. -/
theorem init_ri {Ok P} {evs : List (Event F)} {level} (A : Acyclic p level) (H : Hyp p den ρ Ok) (W : WFNet p) (C : Closed p den ρ Ok evs P)
    (e : Event F) (he : evs.head? = some e) (s : St F) (h : initState p = some (s, true)) (chg : Nat → Bool) :
    RI p den ρ Ok evs P e.time ⟨s, chg, evs, true⟩ := by
  have hT : ∀ t < e.time, ∃ rest, EvAt p.o evs t (ev0 p.o) rest := fun t ht => ⟨evs, evAt_before p.o evs e he t ht⟩
  obtain ⟨a1, a2, _, a4⟩ := init_spec A H W C e.time hT p.limit _ s (st0_ti H)
    (addAll_fields (p := p) (List.range p.net.length) (st0 p)).2.2.2.1 (fun t _ => st0_ps H.exact W C.bot t) h
  exact ⟨a1, a4, by rw [a2]; exact evAt_before p.o evs e he _ (by omega)⟩

/-- What a passing check says about each time. -/
theorem run_check {Ok P} {evs : List (Event F)} {level} (A : Acyclic p level) (H : Hyp p den ρ Ok) (W : WFNet p) (C : Closed p den ρ Ok evs P)
    (E : EvOK p evs) (t0 : Int) (r0 r : Run F) (n : Nat) (h0 : RI p den ρ Ok evs P t0 r0) (h : mainLoop p n t0 r0 = some r)
    (hok : r.ok = true) (t : Int) (h1 : t0 ≤ t) (h2 : t < t0 + n) :
    ∃ s rest, stateAt p t0 r0 t = some s ∧ EvAt p.o evs t s.ev rest ∧ (∀ m < p.nodes, m ≠ 3 → P t m (vb den ρ s m)) ∧
      (den r.s.check ρ = true → ∀ m < p.nodes, s.ev.hasCons m = true →
        ((vb den ρ s m).h = true → den (s.ev.cons m).h ρ = true) ∧ ((vb den ρ s m).l = true → den (s.ev.cons m).l ρ = true)) := by
  have hn : n = (t - t0).toNat + ((n - (t - t0).toNat - 1) + 1) := by omega
  rw [hn, mainLoop_add] at h
  cases ha : mainLoop p (t - t0).toNat t0 r0 with
  | none => rw [ha] at h; simp at h
  | some r1 =>
    rw [ha, Option.bind_some, mainLoop] at h
    cases hb : timeStep p (t0 + (t - t0).toNat) r1 with
    | none => rw [hb] at h; simp at h
    | some r2 =>
      rw [hb] at h
      simp only [Option.bind_eq_bind, Option.bind_some] at h
      have ht : t0 + ((t - t0).toNat : Int) = t := by omega
      rw [ht] at hb h
      have ok2 : r2.ok = true := mainLoop_ok _ _ { r2 with s := doPhase p r2.s } r h hok
      have ok1 := timeStep_ok _ _ _ hb ok2
      have hR := mainLoop_ri A H W C E _ t0 r0 r1 h0 ha ok1
      rw [ht] at hR
      have hR2 := nextTime A H W C E t r1 r2 hR hb ok2
      obtain ⟨b1, b2, b3, b4, b5⟩ := timeStep_spec H W E t r1 r2 hR hb
      have hph : (doPhase p r2.s).check = r2.s.check := (doPhase_spec H W r2.s b1 (E.quiet t _ _ b2)).2.2.1
      refine ⟨r2.s, r2.evs, by simp [stateAt, ha, hb], b2, stable_P A W C r2.s t r2.evs b1 (b4 ok2).2 b2 b3, fun hc => ?_⟩
      have hc2 := mainLoop_check A H W C E _ _ _ r hR2 h hok hc
      dsimp only at hc2
      rw [hph] at hc2
      exact (b5.1 hc2).2

theorem head_le {evs : List (Event F)} (hB : evs.Pairwise Before) (e x : Event F) (h : evs.head? = some e) (hx : x ∈ evs) : e.time ≤ x.time := by
  cases evs with
  | nil => simp at h
  | cons y ys =>
    simp only [List.head?_cons, Option.some.injEq] at h
    subst h
    rcases List.mem_cons.1 hx with rfl | hx
    · omega
    · rcases (List.pairwise_cons.1 hB).1 x hx with h | ⟨h, _⟩ <;> omega

theorem le_last {evs : List (Event F)} (hB : evs.Pairwise Before) (e x : Event F) (h : evs.getLast? = some e) (hx : x ∈ evs) : x.time ≤ e.time := by
  have hr : evs.reverse.head? = some e := by rw [List.head?_reverse]; exact h
  cases hv : evs.reverse with
  | nil => rw [hv] at hr; simp at hr
  | cons y ys =>
    rw [hv] at hr
    simp only [List.head?_cons, Option.some.injEq] at hr
    subst hr
    have he : evs = ys.reverse ++ [y] := by
      have := congrArg List.reverse hv
      simpa using this
    rw [he] at hx hB
    rcases List.mem_append.1 hx with hx | hx
    · rcases (List.pairwise_append.1 hB).2.2 x hx y (by simp) with h | ⟨h, _⟩ <;> omega
    · simp only [List.mem_singleton] at hx
      rw [hx]

/-- A run that returned a result, taken apart. -/
theorem ste_some (items : List (Item F)) (evs : List (Event F)) (chg : Nat → Bool) (r : Result F) (h : ste p items evs chg = some (some r)) :
    ∃ s, initState p = some (s, true) ∧
      ((evs = [] ∧ r = ⟨true, okOf p.o .ant items, s.valid, okOf p.o .cons items, s.check⟩) ∨
       ∃ e l r', evs.head? = some e ∧ evs.getLast? = some l ∧
        mainLoop p (l.time + 1 - e.time + 1).toNat e.time ⟨s, chg, evs, true⟩ = some r' ∧
        r = ⟨r'.ok, okOf p.o .ant items, r'.s.valid, okOf p.o .cons items, r'.s.check⟩) := by
  unfold ste at h
  cases hi : initState p with
  | none => rw [hi] at h; simp at h
  | some q =>
    obtain ⟨s, ok⟩ := q
    rw [hi] at h
    simp only [Option.bind_eq_bind, Option.bind_some] at h
    cases ok with
    | false => simp at h
    | true =>
      simp only [Bool.true_eq_false, if_false] at h
      refine ⟨s, rfl, ?_⟩
      cases evs with
      | nil => left; simp at h; exact ⟨rfl, h.symm⟩
      | cons e es =>
        right
        cases hl : (e :: es).getLast? with
        | none => simp at hl
        | some l =>
          rw [hl] at h
          simp only [List.head?_cons] at h
          cases hm : mainLoop p (l.time + 1 - e.time + 1).toNat e.time ⟨s, chg, e :: es, true⟩ with
          | none => rw [hm] at h; simp at h
          | some r' =>
            rw [hm] at h
            simp only [Option.bind_some, Option.some.injEq] at h
            exact ⟨e, l, r', rfl, rfl, hm, h.symm⟩

/-- Passing checks: the consequents hold in every execution that meets the antecedents. -/
theorem check_sound (hE : Exact p.o den) (hn : ∀ a b, p.neq a b = false → ∀ ρ, den a ρ = den b ρ) (hg : ∀ k ∈ p.net, GoodComp k)
    (W : WFNet p) {level} (A : Acyclic p level) (items : List (Item F)) (evs : List (Event F)) (chg : Nat → Bool) (hS : Sorted p.o items evs) (hF : Fair p items)
    (r : Result F) (h : ste p items evs chg = some (some r)) (hok : r.ok = true) (ρ : Env) (hc : den r.checkOK ρ = true)
    (σ : Int → Nat → Bool) (hσ : Execution p.net σ) (ha : Meets den ρ .ant items σ) : Meets den ρ .cons items σ := by
  intro i hi hk hcond t h1 h2
  have H : Hyp p den ρ OkS := hypS hE hn hg
  have C := closedS hE hS hσ ha
  have E := evOK hS hF
  have hB := sorted_before hS
  obtain ⟨n, hin⟩ := List.getElem?_of_mem hi
  have hmem : ∀ b : Bool, ∃ e ∈ evs, e.time = if b then i.frm else i.til := by
    intro b
    obtain ⟨e, he, hs⟩ := events_start p.o n i b
    refine ⟨e, hS.1.mem_iff.2 (create_mem hin e he), ?_⟩
    rw [(events_cases p.o _ i e he).2.2.2, hs]
  obtain ⟨x, hx, hxt⟩ := hmem true
  obtain ⟨y, hy, hyt⟩ := hmem false
  simp only [if_true, Bool.false_eq_true, if_false] at hxt hyt
  obtain ⟨s, hs, ⟨rfl, _⟩ | ⟨e, l, r', he, hl, hm, rfl⟩⟩ := ste_some items evs chg r h
  · simp at hx
  · have h3 := head_le hB e x he hx
    have h4 := le_last hB l y hl hy
    obtain ⟨s', rest, _, g1, g2, g3⟩ := run_check A H W C E e.time _ r' _ (init_ri A H W C e he s hs chg) hm hok t (by omega) (by omega)
    have g3 := g3 hc
    obtain ⟨c1, c2, z, hz, c3, c4⟩ := cons_active hS hF t s'.ev rest g1 i hi hk h1 h2
    obtain ⟨hb, hb3⟩ := hF.node i hi
    have hP := g2 i.node hb hb3
    obtain ⟨d1, d2⟩ := g3 i.node hb c1
    have hme := meet_spec (ρ := ρ) hE (s'.ev.actC i.node)
    rw [← c2] at hme
    unfold Admits at hP
    cases hσv : σ t i.node with
    | true =>
      rw [hσv] at hP
      have := hme.1.1 (d1 (by simpa using hP)) z hz
      rw [c3, hE.or, hE.not, hcond] at this
      simpa using this.symm
    | false =>
      rw [hσv] at hP
      have := hme.2.1 (d2 (by simpa using hP)) z hz
      rw [c4, hE.or, hE.not, hE.not, hcond] at this
      simpa using this.symm

end Voss.Ste
