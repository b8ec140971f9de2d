import Verif.Ste.PhaseLemmas
/-
Lemmas about whole runs: a predicate on (time, node, value) that is kept by every component holds of all
simulated values.
-/
namespace Voss.Ste
open Voss.Sim

variable {F Env : Type} {p : Par F} {den : F → Env → Bool} {ρ : Env}

/-! ### The event state as a function of time -/

theorem process1_indep (o : Ops F) (v v' : Ev F) (chg chg' : Nat → Bool) (e : Event F)
    (h : process1 o (v, chg) e = some (v', chg')) (chg2 : Nat → Bool) : ∃ c, process1 o (v, chg2) e = some (v', c) := by
  unfold process1 at h ⊢
  cases hk : e.kind <;> rw [hk] at h <;> simp only at h ⊢
  · cases ha : active v.actW e with
    | none => rw [ha] at h; simp at h
    | some a =>
      rw [ha] at h
      simp only [Option.bind_eq_bind, Option.bind_some, Option.some.injEq, Prod.mk.injEq] at h ⊢
      exact ⟨_, h.1, rfl⟩
  · cases ha : active v.actA e with
    | none => rw [ha] at h; simp at h
    | some a =>
      rw [ha] at h
      simp only [Option.bind_eq_bind, Option.bind_some, Option.some.injEq, Prod.mk.injEq] at h ⊢
      exact ⟨_, h.1, rfl⟩
  · cases ha : active v.actC e with
    | none => rw [ha] at h; simp at h
    | some a =>
      rw [ha] at h
      simp only [Option.bind_eq_bind, Option.bind_some, Option.some.injEq, Prod.mk.injEq] at h ⊢
      exact ⟨_, h.1, rfl⟩
  · simp only [Option.some.injEq, Prod.mk.injEq] at h ⊢
    exact ⟨_, h.1, rfl⟩

theorem process_indep (o : Ops F) (t : Int) (es rest : List (Event F)) (v v' : Ev F) (chg chg' : Nat → Bool)
    (h : process o t (v, chg) es = some ((v', chg'), rest)) (chg2 : Nat → Bool) :
    ∃ c, process o t (v, chg2) es = some ((v', c), rest) := by
  induction es generalizing v chg chg2 with
  | nil =>
    simp only [process, Option.some.injEq, Prod.mk.injEq] at h ⊢
    exact ⟨chg2, ⟨h.1.1, rfl⟩, h.2⟩
  | cons e es ih =>
    rw [process] at h ⊢
    split at h
    · rename_i ht
      simp only [Option.some.injEq, Prod.mk.injEq] at h
      rw [if_pos ht]
      exact ⟨chg2, by rw [h.1.1, h.2]⟩
    · rename_i ht
      rw [if_neg ht]
      cases h1 : process1 o (v, chg) e with
      | none => rw [h1] at h; simp at h
      | some q =>
        obtain ⟨v1, c1⟩ := q
        rw [h1] at h
        simp only [Option.bind_eq_bind, Option.bind_some] at h
        obtain ⟨c2, h2⟩ := process1_indep o v v1 chg c1 e h1 chg2
        obtain ⟨c3, h3⟩ := ih v1 c1 h c2
        exact ⟨c3, by rw [h2]; simpa using h3⟩

/-- Processing in two steps. -/
theorem process_comp (o : Ops F) (t t' : Int) (ht : t ≤ t') (es rest : List (Event F)) (x y : Ev F × (Nat → Bool))
    (h : process o t x es = some (y, rest)) : process o t' x es = process o t' y rest := by
  induction es generalizing x with
  | nil =>
    simp only [process, Option.some.injEq, Prod.mk.injEq] at h
    rw [h.1, ← h.2]
  | cons e es ih =>
    rw [process] at h
    split at h
    · simp only [Option.some.injEq, Prod.mk.injEq] at h
      rw [h.1, h.2]
    · rename_i hle
      cases h1 : process1 o x e with
      | none => rw [h1] at h; simp at h
      | some q =>
        rw [h1] at h
        simp only [Option.bind_eq_bind, Option.bind_some] at h
        rw [process, if_neg (by omega), h1]
        simpa using ih q h

/-- The event state at time `t` and the events left. -/
def EvAt (o : Ops F) (evs : List (Event F)) (t : Int) (v : Ev F) (rest : List (Event F)) : Prop :=
  ∃ c, process o t (ev0 o, fun _ => false) evs = some ((v, c), rest)

theorem EvAt.unique {o : Ops F} {evs : List (Event F)} {t : Int} {v v' : Ev F} {r r' : List (Event F)}
    (h : EvAt o evs t v r) (h' : EvAt o evs t v' r') : v = v' ∧ r = r' := by
  obtain ⟨c, h⟩ := h
  obtain ⟨c', h'⟩ := h'
  rw [h] at h'
  simp only [Option.some.injEq, Prod.mk.injEq] at h'
  exact ⟨h'.1.1, h'.2⟩

theorem EvAt.step {o : Ops F} {evs : List (Event F)} {t t' : Int} (ht : t ≤ t') {v v' : Ev F} {r r' : List (Event F)} {chg chg' : Nat → Bool}
    (h : EvAt o evs t v r) (hs : process o t' (v, chg) r = some ((v', chg'), r')) : EvAt o evs t' v' r' := by
  obtain ⟨c, h⟩ := h
  obtain ⟨c', hs'⟩ := process_indep o t' r r' v v' chg chg' hs c
  exact ⟨c', by rw [process_comp o t t' ht _ _ _ _ h]; exact hs'⟩

/-! ### Predicates on simulated values -/

variable (p den ρ) in
/-- `P t n x`, "the value `x` is all right for node `n` at time `t`", is kept by the circuit. -/
structure Closed (Ok : Comp → List (DR Bool) → List (DR Bool) → Prop) (evs : List (Event F)) (P : Int → Nat → DR Bool → Prop) : Prop where
  bot : ∀ t n, P t n ⟨true, true⟩
  con : ∀ t n, n ≤ 2 → P t n (constB n)
  comb : ∀ t v rest, EvAt p.o evs t v rest → ∀ k ∈ p.net, k.delay = false → ∀ i raw, List.Forall₂ (P t) k.inps i → Ok k i raw →
    ∀ q ∈ k.outs.zip raw, P t q.1 (adjB den ρ v q.1 q.2)
  del : ∀ t, ∀ k ∈ p.net, k.delay = true → ∀ i raw, List.Forall₂ (P t) k.inps i → Ok k i raw →
    ∀ q ∈ k.outs.zip raw, P (t + 1) q.1 q.2
  inp : ∀ t v rest, EvAt p.o evs t v rest → ∀ n, 3 < n → p.net.driver n = none → P t n (adjB den ρ v n ⟨true, true⟩)

variable (p den ρ) in
/-- Delayed outputs are all right at time `t`. -/
def PS (P : Int → Nat → DR Bool → Prop) (s : St F) (t : Int) : Prop :=
  ∀ k ∈ p.net, k.delay = true → ∀ n ∈ k.outs, P t n (vb den ρ s n)

theorem forall2_map {P : Nat → DR Bool → Prop} (f : Nat → DR Bool) (l : List Nat) (h : ∀ n ∈ l, P n (f n)) : List.Forall₂ P l (l.map f) := by
  induction l with
  | nil => exact .nil
  | cons a as ih => exact .cons (h a (by simp)) (ih fun n hn => h n (List.mem_cons_of_mem _ hn))

theorem mem_zip_exists {outs : List Nat} {raw : List (DR Bool)} (hl : raw.length = outs.length) {n : Nat} (hn : n ∈ outs) :
    ∃ r, (n, r) ∈ outs.zip raw := by
  obtain ⟨i, hi, rfl⟩ := List.getElem_of_mem hn
  refine ⟨raw[i], ?_⟩
  rw [List.mem_iff_getElem]
  exact ⟨i, by simp; omega, by simp⟩

/-- Where everything the node depends on is settled, the node is all right.  `ok n` marks such nodes. -/
theorem settled_P {Ok P} {evs : List (Event F)} {level} (A : Acyclic p level) (W : WFNet p) (C : Closed p den ρ Ok evs P)
    (s : St F) (t : Int) (rest : List (Event F)) (hI : TI p den ρ Ok s) (hev : EvAt p.o evs t s.ev rest) (hps : PS p den ρ P s t)
    (good : Nat → Prop)
    (hgood : ∀ n, good n → ∀ c k, p.net[c]? = some k → n ∈ k.outs → k.delay = false → s.flag c = false ∧ ∀ i ∈ k.inps, good i) :
    ∀ n, good n → n < p.nodes → n ≠ 3 → P t n (vb den ρ s n) := by
  have key : ∀ l n, level n = l → good n → n < p.nodes → n ≠ 3 → P t n (vb den ρ s n) := by
    intro l
    induction l using Nat.strong_induction_on with
    | _ l ih =>
    intro n hl hg hn h3
    by_cases hc : n ≤ 3
    · rcases hI.con n hc with h | h
      · rw [h]; exact C.con t n (by omega)
      · rw [h]; exact C.bot t n
    · cases hd : p.net.driver n with
      | none =>
        rw [hI.inp n (by omega) hn hd]
        exact C.inp t s.ev rest hev n (by omega) hd
      | some c =>
        obtain ⟨k, hk, hm⟩ := driver_spec n c hd
        have hmem := List.mem_of_getElem? hk
        cases hdel : k.delay with
        | true => exact hps k hmem hdel n hm
        | false =>
          obtain ⟨hf, hgi⟩ := hgood n hg c k hk hm hdel
          obtain ⟨raw, h1, h2, h4⟩ := hI.inv.j c k hk (fun h => h) hf
          obtain ⟨r, hr⟩ := mem_zip_exists h2 hm
          have h5 := h4 _ hr
          rw [hdel] at h5
          simp only [Bool.false_eq_true, if_false] at h5
          rw [h5]
          refine C.comb t s.ev rest hev k hmem hdel _ raw ?_ h1 _ hr
          apply forall2_map
          intro i hi
          refine ih (level i) ?_ i rfl (hgi i hi) (W.inps k hmem i hi) ?_
          · rw [← hl]; exact A.lt k hmem hdel i hi n hm
          · rintro rfl; exact A.top k hmem hi
  intro n
  exact key (level n) n rfl

/-- In a state where nothing is waiting every node is all right. -/
theorem stable_P {Ok P} {evs : List (Event F)} {level} (A : Acyclic p level) (W : WFNet p) (C : Closed p den ρ Ok evs P)
    (s : St F) (t : Int) (rest : List (Event F)) (hI : TI p den ρ Ok s) (hf : ∀ c, s.flag c = false) (hev : EvAt p.o evs t s.ev rest) (hps : PS p den ρ P s t) :
    ∀ n, n < p.nodes → n ≠ 3 → P t n (vb den ρ s n) := by
  intro n
  exact settled_P A W C s t rest hI hev hps (fun _ => True) (fun _ _ c k _ _ _ => ⟨hf c, fun _ _ => trivial⟩) n trivial

/-- From a settled state, a phase makes the delayed outputs all right for the next time. -/
theorem phase_P {Ok P} {evs : List (Event F)} {level} (A : Acyclic p level) (H : Hyp p den ρ Ok) (W : WFNet p) (C : Closed p den ρ Ok evs P)
    (s : St F) (t : Int) (rest : List (Event F)) (hI : TI p den ρ Ok s) (hf : ∀ c, s.flag c = false) (hev : EvAt p.o evs t s.ev rest)
    (hq : Quiet p s.ev) (hps : PS p den ρ P s t) : PS p den ρ P (doPhase p s) (t + 1) := by
  intro k hk hd n hn
  rw [(doPhase_spec H W s hI hq).2.2.2 k hk hd n hn]
  obtain ⟨c, hc⟩ := List.getElem?_of_mem hk
  obtain ⟨raw, h1, h2, h3⟩ := hI.inv.j c k hc (fun h => h) (hf c)
  obtain ⟨r, hr⟩ := mem_zip_exists h2 hn
  have h4 := h3 _ hr
  rw [hd] at h4
  simp only [if_true] at h4
  have h5 : P (t + 1) n r := by
    refine C.del t k hk hd _ raw ?_ h1 _ hr
    apply forall2_map
    intro i hi
    refine stable_P A W C s t rest hI hf hev hps i (W.inps k hk i hi) ?_
    rintro rfl; exact A.top k hk hi
  cases hh : s.hasPhase n with
  | true => rw [hh] at h4; simp only [if_true] at h4 ⊢; rw [h4]; exact h5
  | false => rw [hh] at h4; simp only [Bool.false_eq_true, if_false] at h4 ⊢; rw [h4]; exact h5

/-! ### Initialisation -/

theorem st0_ti {Ok} (H : Hyp p den ρ Ok) : TI p den ρ Ok ((List.range p.net.length).foldl (addTodo p) (st0 p)) := by
  obtain ⟨a1, a2, a3, a4, a5, a6, a7, a8⟩ := addAll_fields (p := p) (List.range p.net.length) (st0 p)
  refine ⟨⟨?_, ?_, ?_⟩, ?_, ?_⟩
  · intro c k hk _ hf
    rw [addAll_flag _ _ c k hk (List.mem_range.2 (List.getElem?_eq_some_iff.1 hk).1)] at hf
    exact absurd hf (by simp)
  · apply addAll_fw
    intro c h
    exact absurd h (by simp [st0])
  · intro n hn
    rw [a3] at hn
    exact absurd hn (by simp [st0])
  · intro n h1 h2 h3
    unfold vb
    rw [a1, a4]
    rw [adjB_quiet _ _ _ ⟨rfl, rfl⟩]
    have e0 : n ≠ 0 := by omega
    have e1 : n ≠ 1 := by omega
    have e3 : n ≠ 3 := by omega
    simp [st0, cur0, e0, e1, e3, DR.at, H.exact.one]
  · intro n hn
    left
    unfold vb
    rw [a1]
    simp only [st0, cur0, constB]
    split
    · simp [DR.at, H.exact.one, H.exact.zero]
    · split
      · simp [DR.at, H.exact.one, H.exact.zero]
      · split
        · simp [DR.at, H.exact.zero]
        · simp [DR.at, H.exact.one]

theorem st0_ps {P : Int → Nat → DR Bool → Prop} (H1 : Exact p.o den) (W : WFNet p) (hb : ∀ t n, P t n ⟨true, true⟩) (t : Int) :
    PS p den ρ P ((List.range p.net.length).foldl (addTodo p) (st0 p)) t := by
  intro k hk _ n hn
  obtain ⟨a1, _⟩ := addAll_fields (p := p) (List.range p.net.length) (st0 p)
  have h3 := (W.outs k hk n hn).1
  have : vb den ρ ((List.range p.net.length).foldl (addTodo p) (st0 p)) n = ⟨true, true⟩ := by
    unfold vb
    rw [a1]
    have e0 : n ≠ 0 := by omega
    have e1 : n ≠ 1 := by omega
    have e3 : n ≠ 3 := by omega
    simp [st0, cur0, e0, e1, e3, DR.at, H1.one]
  rw [this]
  exact hb t n

theorem quiet0 (o : Ops F) : Quiet p (ev0 o) := ⟨fun _ _ _ _ _ => ⟨rfl, rfl⟩, fun _ _ => ⟨rfl, rfl⟩⟩

theorem init_spec {Ok P} {evs : List (Event F)} {level} (A : Acyclic p level) (H : Hyp p den ρ Ok) (W : WFNet p) (C : Closed p den ρ Ok evs P)
    (T : Int) (hT : ∀ t < T, ∃ rest, EvAt p.o evs t (ev0 p.o) rest)
    (n : Nat) (s s' : St F) (hI : TI p den ρ Ok s) (he : s.ev = ev0 p.o)
    (hall : ∀ t, t ≤ T → PS p den ρ P s t)
    (h : initLoop p n s = some (s', true)) :
    TI p den ρ Ok s' ∧ s'.ev = ev0 p.o ∧ s'.check = s.check ∧ PS p den ρ P s' T := by
  induction n generalizing s with
  | zero => simp [initLoop] at h
  | succ n ih =>
    rw [initLoop] at h
    cases hc : combinational p s with
    | none => rw [hc] at h; simp at h
    | some q =>
      obtain ⟨u, ok⟩ := q
      rw [hc] at h
      simp only [Option.bind_eq_bind, Option.bind_some] at h
      obtain ⟨a1, a2, a3, a4, a5⟩ := comb_spec H W s u ok hI hc
      have hpsu : ∀ t, t ≤ T → PS p den ρ P u t := by
        intro t ht k hk hd m hm
        rw [a5 k hk hd m hm]
        exact hall t ht k hk hd m hm
      split at h
      · simp at h
      · rename_i hok
        have hok : ok = true := by simpa using hok
        split at h
        · have hq : Quiet p u.ev := by rw [a2, he]; exact quiet0 p.o
          obtain ⟨b1, b2, b3, _⟩ := doPhase_spec H W u a1 hq
          have hall' : ∀ t, t ≤ T → PS p den ρ P (doPhase p u) t := by
            intro t ht
            obtain ⟨rest, hev⟩ := hT (t - 1) (by omega)
            have := phase_P A H W C u (t - 1) rest a1 (a4 hok) (by rw [a2, he]; exact hev) hq (hpsu (t - 1) (by omega))
            rwa [Int.sub_add_cancel] at this
          obtain ⟨c1, c2, c3, c4⟩ := ih (doPhase p u) b1 (by rw [b2, a2, he]) hall' h
          exact ⟨c1, c2, by rw [c3, b3, a3], c4⟩
        · simp only [Option.some.injEq, Prod.mk.injEq, and_true] at h
          subst h
          exact ⟨a1, a2.trans he, a3, hpsu T (Int.le_refl T)⟩

/-! ### The main loop -/

variable (p) in
/-- What is needed of the events: quiet nodes stay quiet and changes are noticed. -/
structure EvOK (evs : List (Event F)) : Prop where
  quiet : ∀ t v rest, EvAt p.o evs t v rest → Quiet p v
  chg : ∀ t v v' chg chg' rest rest', EvAt p.o evs (t - 1) v rest → process p.o t (v, chg) rest = some ((v', chg'), rest') →
    ∀ n, chg' n = true ∨ SameAdj v v' n

variable (p den ρ) in
/-- The invariant of the main loop, before time `t`. -/
structure RI (Ok : Comp → List (DR Bool) → List (DR Bool) → Prop) (evs : List (Event F)) (P : Int → Nat → DR Bool → Prop) (t : Int) (r : Run F) : Prop where
  ti : TI p den ρ Ok r.s
  ps : PS p den ρ P r.s t
  ev : EvAt p.o evs (t - 1) r.s.ev r.evs

theorem checks_fields (ns : List Nat) (s : St F) :
    let t := ns.foldl (check1 p) s
    t.cur = s.cur ∧ t.next = s.next ∧ t.hasPhase = s.hasPhase ∧ t.ev = s.ev ∧ t.flag = s.flag ∧ t.wheel = s.wheel ∧ t.valid = s.valid := by
  induction ns generalizing s with
  | nil => simp
  | cons n ns ih =>
    obtain ⟨b1, b2, b3, b4, b5, b6, b7⟩ := ih (check1 p s n)
    have : (check1 p s n).cur = s.cur ∧ (check1 p s n).next = s.next ∧ (check1 p s n).hasPhase = s.hasPhase ∧ (check1 p s n).ev = s.ev ∧
        (check1 p s n).flag = s.flag ∧ (check1 p s n).wheel = s.wheel ∧ (check1 p s n).valid = s.valid := by
      unfold check1; split <;> simp
    obtain ⟨a1, a2, a3, a4, a5, a6, a7⟩ := this
    exact ⟨b1.trans a1, b2.trans a2, b3.trans a3, b4.trans a4, b5.trans a5, b6.trans a6, b7.trans a7⟩

/-- The checks of one time unit. -/
theorem checks_spec (hE : Exact p.o den) (ns : List Nat) (s : St F) :
    den (ns.foldl (check1 p) s).check ρ = true ↔ den s.check ρ = true ∧
      ∀ n ∈ ns, s.ev.hasCons n = true →
        ((vb den ρ s n).h = true → den (s.ev.cons n).h ρ = true) ∧ ((vb den ρ s n).l = true → den (s.ev.cons n).l ρ = true) := by
  induction ns generalizing s with
  | nil => simp
  | cons n ns ih =>
    rw [List.foldl_cons, ih]
    have h1 : (check1 p s n).ev = s.ev ∧ (check1 p s n).cur = s.cur := by unfold check1; split <;> simp
    have h2 : den (check1 p s n).check ρ = true ↔ den s.check ρ = true ∧ (s.ev.hasCons n = true →
        ((vb den ρ s n).h = true → den (s.ev.cons n).h ρ = true) ∧ ((vb den ρ s n).l = true → den (s.ev.cons n).l ρ = true)) := by
      unfold check1
      cases hc : s.ev.hasCons n
      · simp
      · simp only [if_true, hE.and, hE.or, hE.not, Bool.and_eq_true, vb, DR.at, forall_const]
        cases den (s.cur n).h ρ <;> cases den (s.cur n).l ρ <;> cases den (s.ev.cons n).h ρ <;> cases den (s.ev.cons n).l ρ <;> simp
    rw [h2, h1.1]
    have h3 : ∀ m, vb den ρ (check1 p s n) m = vb den ρ s m := by intro m; unfold vb; rw [h1.2]
    simp only [h3, List.mem_cons, forall_eq_or_imp]
    constructor
    · rintro ⟨⟨a, b⟩, c⟩; exact ⟨a, b, c⟩
    · rintro ⟨a, b, c⟩; exact ⟨⟨a, b⟩, c⟩

/-- One time unit: the state after the relaxation and the checks. -/
theorem timeStep_spec {Ok P} {evs : List (Event F)} (H : Hyp p den ρ Ok) (W : WFNet p)
    (E : EvOK p evs) (t : Int) (r r' : Run F) (hR : RI p den ρ Ok evs P t r) (h : timeStep p t r = some r') :
    TI p den ρ Ok r'.s ∧ EvAt p.o evs t r'.s.ev r'.evs ∧ PS p den ρ P r'.s t ∧ (r'.ok = true → r.ok = true ∧ ∀ c, r'.s.flag c = false) ∧
    (den r'.s.check ρ = true ↔ den r.s.check ρ = true ∧ ∀ n < p.nodes, r'.s.ev.hasCons n = true →
        ((vb den ρ r'.s n).h = true → den (r'.s.ev.cons n).h ρ = true) ∧ ((vb den ρ r'.s n).l = true → den (r'.s.ev.cons n).l ρ = true)) := by
  unfold timeStep at h
  cases hp : process p.o t (r.s.ev, r.chg) r.evs with
  | none => rw [hp] at h; simp at h
  | some q =>
    obtain ⟨⟨v, chg⟩, rest⟩ := q
    rw [hp] at h
    simp only [Option.bind_eq_bind, Option.bind_some] at h
    have hev : EvAt p.o evs t v rest := hR.ev.step (by omega) hp
    have hq := E.quiet t v rest hev
    obtain ⟨a1, a2, a3, a4, a5, a6⟩ := touched_spec H W r.s hR.ti v chg hq (E.chg t r.s.ev v r.chg chg r.evs rest hR.ev hp)
    cases hc : combinational p ((List.range p.nodes).foldl (touch p chg) { r.s with ev := v }) with
    | none => rw [hc] at h; simp at h
    | some q =>
      obtain ⟨u, ok⟩ := q
      rw [hc] at h
      simp only [Option.bind_some, Option.some.injEq] at h
      obtain ⟨b1, b2, b3, b4, b5⟩ := comb_spec H W _ u ok a1 hc
      obtain ⟨c1, c2, c3, c4, c5, c6, _⟩ := checks_fields (p := p) (List.range p.nodes) u
      subst h
      dsimp only
      have hvb : ∀ n, vb den ρ ((List.range p.nodes).foldl (check1 p) u) n = vb den ρ u n := by intro n; unfold vb; rw [c1]
      refine ⟨⟨⟨?_, ?_, ?_⟩, ?_, ?_⟩, ?_, ?_, ?_, ?_⟩
      · intro c k hk _ hf
        rw [c5] at hf
        exact settled_congr (b1.inv.j c k hk (fun h => h) hf) (fun n _ => hvb n) (fun n _ => hvb n) (fun n _ => by rw [c2, c3]; exact ⟨rfl, rfl⟩) c4
      · intro c hf
        rw [c5] at hf
        rw [c6]
        exact b1.inv.fw c hf
      · intro n hn
        rw [c3] at hn
        exact b1.inv.hp n hn
      · intro n h1 h2 h3
        rw [hvb, c4]; exact b1.inp n h1 h2 h3
      · intro n hn
        rw [hvb]; exact b1.con n hn
      · rw [c4, b2, a2]; exact hev
      · intro k hk hd n hn
        rw [hvb, b5 k hk hd n hn, a6 k hk hd n hn]
        exact hR.ps k hk hd n hn
      · intro hok
        simp only [Bool.and_eq_true] at hok
        exact ⟨hok.1, fun c => by rw [c5]; exact b4 hok.2 c⟩
      · rw [checks_spec H.exact (List.range p.nodes) u, b3, a3, c4]
        simp only [hvb, List.mem_range]

/-- The invariant after a phase. -/
theorem nextTime {Ok P} {evs : List (Event F)} {level} (A : Acyclic p level) (H : Hyp p den ρ Ok) (W : WFNet p) (C : Closed p den ρ Ok evs P)
    (E : EvOK p evs) (t : Int) (r r' : Run F) (hR : RI p den ρ Ok evs P t r) (h : timeStep p t r = some r') (hok : r'.ok = true) :
    RI p den ρ Ok evs P (t + 1) { r' with s := doPhase p r'.s } := by
  obtain ⟨a1, a2, a3, a4, _⟩ := timeStep_spec H W E t r r' hR h
  have hq := E.quiet t _ _ a2
  obtain ⟨b1, b2, _, _⟩ := doPhase_spec H W r'.s a1 hq
  refine ⟨b1, phase_P A H W C r'.s t _ a1 (a4 hok).2 a2 hq a3, ?_⟩
  show EvAt p.o evs (t + 1 - 1) (doPhase p r'.s).ev r'.evs
  rw [b2, Int.add_sub_cancel]
  exact a2

theorem mainLoop_add (m n : Nat) (t : Int) (r : Run F) :
    mainLoop p (m + n) t r = (mainLoop p m t r).bind (fun r1 => mainLoop p n (t + m) r1) := by
  induction m generalizing t r with
  | zero => simp [mainLoop]
  | succ m ih =>
    rw [show m + 1 + n = (m + n) + 1 by omega, mainLoop, mainLoop]
    cases timeStep p t r with
    | none => simp
    | some r1 =>
      simp only [Option.bind_eq_bind, Option.bind_some]
      rw [ih]
      congr 1
      funext r2
      rw [show t + 1 + (m : Int) = t + ((m + 1 : Nat) : Int) by omega]

theorem timeStep_ok (t : Int) (r r' : Run F) (h : timeStep p t r = some r') (hok : r'.ok = true) : r.ok = true := by
  unfold timeStep at h
  cases hp : process p.o t (r.s.ev, r.chg) r.evs with
  | none => rw [hp] at h; simp at h
  | some q =>
    rw [hp] at h
    simp only [Option.bind_eq_bind, Option.bind_some] at h
    cases hc : combinational p ((List.range p.nodes).foldl (touch p q.1.2) { r.s with ev := q.1.1 }) with
    | none => rw [hc] at h; simp at h
    | some q2 =>
      rw [hc] at h
      simp only [Option.bind_some, Option.some.injEq] at h
      subst h
      simp only [Bool.and_eq_true] at hok
      exact hok.1

theorem mainLoop_ok (n : Nat) (t : Int) (r r' : Run F) (h : mainLoop p n t r = some r') (hok : r'.ok = true) : r.ok = true := by
  induction n generalizing t r with
  | zero => simp only [mainLoop, Option.some.injEq] at h; rw [h]; exact hok
  | succ n ih =>
    rw [mainLoop] at h
    cases h1 : timeStep p t r with
    | none => rw [h1] at h; simp at h
    | some r1 =>
      rw [h1] at h
      simp only [Option.bind_eq_bind, Option.bind_some] at h
      exact timeStep_ok t r r1 h1 (ih (t + 1) { r1 with s := doPhase p r1.s } h)

theorem mainLoop_ri {Ok P} {evs : List (Event F)} {level} (A : Acyclic p level) (H : Hyp p den ρ Ok) (W : WFNet p) (C : Closed p den ρ Ok evs P)
    (E : EvOK p evs) (n : Nat) (t : Int) (r r' : Run F) (hR : RI p den ρ Ok evs P t r) (h : mainLoop p n t r = some r') (hok : r'.ok = true) :
    RI p den ρ Ok evs P (t + n) r' := by
  induction n generalizing t r with
  | zero => simp only [mainLoop, Option.some.injEq] at h; subst h; simpa using hR
  | succ n ih =>
    rw [mainLoop] at h
    cases h1 : timeStep p t r with
    | none => rw [h1] at h; simp at h
    | some r1 =>
      rw [h1] at h
      simp only [Option.bind_eq_bind, Option.bind_some] at h
      have := ih (t + 1) _ (nextTime A H W C E t r r1 hR h1 (mainLoop_ok n (t + 1) { r1 with s := doPhase p r1.s } r' h hok)) h
      rwa [show t + 1 + (n : Int) = t + ((n + 1 : Nat) : Int) by omega] at this

/-- The checks made so far hold in the end. -/
theorem mainLoop_check {Ok P} {evs : List (Event F)} {level} (A : Acyclic p level) (H : Hyp p den ρ Ok) (W : WFNet p) (C : Closed p den ρ Ok evs P)
    (E : EvOK p evs) (n : Nat) (t : Int) (r r' : Run F) (hR : RI p den ρ Ok evs P t r) (h : mainLoop p n t r = some r') (hok : r'.ok = true)
    (hc : den r'.s.check ρ = true) : den r.s.check ρ = true := by
  induction n generalizing t r with
  | zero => simp only [mainLoop, Option.some.injEq] at h; rw [h]; exact hc
  | succ n ih =>
    rw [mainLoop] at h
    cases h1 : timeStep p t r with
    | none => rw [h1] at h; simp at h
    | some r1 =>
      rw [h1] at h
      simp only [Option.bind_eq_bind, Option.bind_some] at h
      have hok1 := mainLoop_ok n (t + 1) { r1 with s := doPhase p r1.s } r' h hok
      have h2 := ih (t + 1) _ (nextTime A H W C E t r r1 hR h1 hok1) h
      obtain ⟨a1, a2, _, _, a5⟩ := timeStep_spec H W E t r r1 hR h1
      have hq := E.quiet t _ _ a2
      have h3 : (doPhase p r1.s).check = r1.s.check := (doPhase_spec H W r1.s a1 hq).2.2.1
      dsimp only at h2
      rw [h3] at h2
      exact (a5.1 h2).1

end Voss.Ste
