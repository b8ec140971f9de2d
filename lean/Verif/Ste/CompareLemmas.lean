import Verif.Ste.ValidLemmas
/-
Two runs of the same circuit: one with size limits and any ranks, one exact.
-/
namespace Voss.Ste
open Voss.Sim

variable {F Env : Type} {p : Par F} {den : F → Env → Bool} {ρ : Env}

/-! ### Pending phase events -/

theorem updates_todo (zs : List (Nat × DR F)) (s : St F) :
    s.todo ≤ (zs.foldl (fun s q => updateNode p s q.1 q.2) s).todo ∧ (zs.foldl (fun s q => updateNode p s q.1 q.2) s).hasPhase = s.hasPhase := by
  induction zs generalizing s with
  | nil => exact ⟨Nat.le_refl _, rfl⟩
  | cons z zs ih =>
    obtain ⟨a, b⟩ := ih (updateNode p s z.1 z.2)
    have h1 : s.todo ≤ (updateNode p s z.1 z.2).todo := by
      dsimp only [updateNode]
      split
      · rw [(addAll_fields (p := p) _ _).2.2.2.2.2.2.1]; simp
      · exact Nat.le_refl _
    exact ⟨Nat.le_trans h1 a, b.trans (updateNode_fields s z.1 z.2).2.2.1⟩

theorem stores_todo (zs : List (Nat × DR F)) (s : St F) :
    (zs.foldl storeNext s).todo = s.todo + zs.length := by
  induction zs generalizing s with
  | nil => rfl
  | cons z zs ih =>
    rw [List.foldl_cons, ih]
    simp [storeNext]; omega

theorem doOp_todo (s t : St F) (c : Nat) (h : doOp p s c = some t) :
    s.todo ≤ t.todo ∧ (t.todo = s.todo → t.hasPhase = s.hasPhase) := by
  unfold doOp at h
  cases hk : p.net[c]? with
  | none => rw [hk] at h; simp at h
  | some k =>
    rw [hk] at h
    simp only [Option.bind_eq_bind, Option.bind_some] at h
    cases hr : evalComp p s.steps k (k.inps.map s.cur) with
    | none => rw [hr] at h; simp at h
    | some raw =>
      rw [hr] at h
      simp only [Option.bind_some] at h
      split at h
      · simp at h
      · split at h
        · simp only [Option.some.injEq] at h
          have hs := stores_todo (k.outs.zip raw) { s with steps := s.steps + 1 }
          rw [h] at hs
          dsimp only at hs
          refine ⟨by omega, fun he => ?_⟩
          have hz : k.outs.zip raw = [] := List.length_eq_zero_iff.1 (by omega)
          rw [hz] at h
          rw [← h]; rfl
        · simp only [Option.some.injEq] at h
          obtain ⟨a, b⟩ := updates_todo (p := p) (k.outs.zip raw) { s with steps := s.steps + 1 }
          rw [h] at a b
          exact ⟨a, fun _ => b⟩

theorem pass_todo (f r : Nat) (s t : St F) (seen seen' : Bool) (h : pass p f r s seen = some (t, seen')) :
    s.todo ≤ t.todo ∧ (t.todo = s.todo → t.hasPhase = s.hasPhase) := by
  induction f generalizing r s seen with
  | zero => simp [pass] at h
  | succ f ih =>
    cases r with
    | zero =>
      simp only [pass, Option.some.injEq, Prod.mk.injEq] at h
      rw [← h.1]; exact ⟨Nat.le_refl _, fun _ => rfl⟩
    | succ r =>
      rw [pass] at h
      cases hw : s.wheel r with
      | nil => rw [hw] at h; exact ih r s seen h
      | cons c cs =>
        rw [hw] at h
        simp only at h
        cases hd : doOp p { s with wheel := upd s.wheel r cs, flag := upd s.flag c false } c with
        | none => rw [hd] at h; simp at h
        | some u =>
          rw [hd] at h
          simp only [Option.bind_eq_bind, Option.bind_some] at h
          obtain ⟨a, b⟩ := doOp_todo _ _ _ hd
          obtain ⟨c, d⟩ := ih _ _ _ h
          dsimp only at a b
          refine ⟨Nat.le_trans a c, fun he => ?_⟩
          rw [d (by omega), b (by omega)]

theorem relax_todo (n : Nat) (s t : St F) (ok : Bool) (h : relax p n s = some (t, ok)) :
    s.todo ≤ t.todo ∧ (t.todo = s.todo → t.hasPhase = s.hasPhase) := by
  induction n generalizing s with
  | zero =>
    simp only [relax, Option.some.injEq, Prod.mk.injEq] at h
    rw [← h.1]; exact ⟨Nat.le_refl _, fun _ => rfl⟩
  | succ n ih =>
    rw [relax] at h
    cases hp : pass p p.fuel p.top s false with
    | none => rw [hp] at h; simp at h
    | some q =>
      obtain ⟨u, seen⟩ := q
      rw [hp] at h
      simp only [Option.bind_eq_bind, Option.bind_some] at h
      obtain ⟨a, b⟩ := pass_todo _ _ _ _ _ _ hp
      cases seen with
      | true =>
        simp only [if_true] at h
        obtain ⟨c, d⟩ := ih u h
        exact ⟨Nat.le_trans a c, fun he => by rw [d (by omega), b (by omega)]⟩
      | false =>
        simp only [Bool.false_eq_true, if_false, Option.some.injEq, Prod.mk.injEq] at h
        rw [← h.1]; exact ⟨a, b⟩

/-- What initialisation leaves behind. -/
theorem init_facts {Ok} (H : Hyp p den ρ Ok) (W : WFNet p) (n : Nat) (s s' : St F) (hI : TI p den ρ Ok s) (he : s.ev = ev0 p.o)
    (hc : ∀ n ≤ 3, vb den ρ s n = constB n) (hh : ∀ n, s.hasPhase n = false) (h : initLoop p n s = some (s', true)) :
    TI p den ρ Ok s' ∧ s'.ev = ev0 p.o ∧ s'.check = s.check ∧ (∀ c, s'.flag c = false) ∧ (∀ n, s'.hasPhase n = false) ∧ ∀ n ≤ 3, vb den ρ s' n = constB n := by
  induction n generalizing s with
  | zero => simp [initLoop] at h
  | succ n ih =>
    rw [initLoop] at h
    cases hcb : combinational p s with
    | none => rw [hcb] at h; simp at h
    | some q =>
      obtain ⟨u, ok⟩ := q
      rw [hcb] at h
      simp only [Option.bind_eq_bind, Option.bind_some] at h
      obtain ⟨a1, a2, a3, a4, a5⟩ := comb_spec H W s u ok hI hcb
      have hcu : ∀ n ≤ 3, vb den ρ u n = constB n := by
        intro m hm
        have := (relax_spec H W p.limit { s with todo := 0 } u ok ⟨hI.inv.j, hI.inv.fw, hI.inv.hp⟩ hcb).2.1 m (by
          rintro ⟨k, hk, _, hn⟩
          have := (W.outs k hk m hn).1; omega)
        rw [← hc m hm]; unfold vb; rw [this]
      split at h
      · simp at h
      · rename_i hok
        have hok : ok = true := by simpa using hok
        split at h
        · have hq : Quiet p u.ev := by rw [a2, he]; exact quiet0 p.o
          obtain ⟨b1, b2, b3, _⟩ := doPhase_spec H W u a1 hq
          obtain ⟨d1, _, _, d2, d3, d4, _⟩ := phases_spec (p := p) (den := den) (ρ := ρ) H (List.range p.nodes) List.nodup_range u
          have hcp : ∀ n ≤ 3, vb den ρ (doPhase p u) n = constB n := by
            intro m hm
            rw [← hcu m hm]
            unfold vb doPhase
            rw [d1.out m]
            rintro ⟨_, h1 | h1⟩
            · omega
            · obtain ⟨k, hk, _, hn⟩ := a1.inv.hp m h1
              have := (W.outs k hk m hn).1; omega
          have hhp : ∀ n, (doPhase p u).hasPhase n = false := by
            intro m
            cases hm : (doPhase p u).hasPhase m with
            | false => rfl
            | true =>
              obtain ⟨k, hk, _, hn⟩ := b1.inv.hp m hm
              obtain ⟨c, hcc⟩ := List.getElem?_of_mem hk
              have := d3 m (List.mem_range.2 (W.outs k hk m hn).2) (by rw [driver_some W m c k hcc hn]; simp)
              unfold doPhase at hm
              rw [this] at hm; exact absurd hm (by simp)
          obtain ⟨c1, c2, c3, c4⟩ := ih (doPhase p u) b1 (by rw [b2, a2, he]) hcp hhp h
          exact ⟨c1, c2, by rw [c3, b3, a3], c4⟩
        · rename_i htd
          simp only [Option.some.injEq, Prod.mk.injEq, and_true] at h
          subst h
          refine ⟨a1, a2.trans he, a3, a4 hok, ?_, hcu⟩
          have := (relax_todo p.limit { s with todo := 0 } u ok hcb).2 (by dsimp only; omega)
          rw [this]; exact hh

/-! ### The states of a run -/

theorem timeStep_const {Ok P} {evs : List (Event F)} (H : Hyp p den ρ Ok) (W : WFNet p)
    (E : EvOK p evs) (t : Int) (r r' : Run F) (hR : RI p den ρ Ok evs P t r) (h : timeStep p t r = some r')
    (hev : ∀ e ∈ r.evs, e.kind.acts = true → 3 < e.node)
    (hc : ∀ n ≤ 3, r.chg n = false ∧ vb den ρ r.s n = constB n) :
    (∀ n ≤ 3, r'.chg n = false ∧ vb den ρ r'.s n = constB n) ∧ (∀ e ∈ r'.evs, e ∈ r.evs) := by
  unfold timeStep at h
  cases hp : process p.o t (r.s.ev, r.chg) r.evs with
  | none => rw [hp] at h; simp at h
  | some q =>
    obtain ⟨⟨v, chg⟩, rest⟩ := q
    rw [hp] at h
    simp only [Option.bind_eq_bind, Option.bind_some] at h
    obtain ⟨ds, b1, b2, _, _⟩ := process_split p.o t r.evs rest _ _ hp
    have hchg : ∀ n ≤ 3, chg n = false := by
      have key : ∀ (ds : List (Event F)) (v0 : Ev F) (c0 : Nat → Bool), (∀ e ∈ ds, e.kind.acts = true → 3 < e.node) → (∀ n ≤ 3, c0 n = false) →
          procAll p.o (v0, c0) ds = some (v, chg) → ∀ n ≤ 3, chg n = false := by
        intro ds
        induction ds with
        | nil =>
          intro v0 c0 _ h0 h
          simp only [procAll, Option.some.injEq, Prod.mk.injEq] at h
          rw [← h.2]; exact h0
        | cons x xs ih =>
          intro v0 c0 ha h0 h
          rw [procAll] at h
          cases h1 : process1 p.o (v0, c0) x with
          | none => rw [h1] at h; simp at h
          | some s =>
            obtain ⟨v1, c1⟩ := s
            rw [h1] at h
            simp only [Option.bind_some] at h
            refine ih v1 c1 (fun e he => ha e (List.mem_cons_of_mem _ he)) ?_ h
            rw [(process1_spec p.o v0 v1 c0 c1 x h1).2.2]
            intro n hn
            unfold upd
            split
            · rename_i e
              cases hx : x.kind.acts with
              | false => rfl
              | true => have := ha x (by simp) hx; omega
            · exact h0 n hn
      exact key ds r.s.ev r.chg (fun e he => hev e (by rw [b1]; simp [he])) (fun n hn => (hc n hn).1) b2
    have hev' : EvAt p.o evs t v rest := hR.ev.step (by omega) hp
    have hq := E.quiet t v rest hev'
    obtain ⟨a1, a2, _⟩ := touched_spec H W r.s hR.ti v chg hq (E.chg t r.s.ev v r.chg chg r.evs rest hR.ev hp)
    obtain ⟨t1, _⟩ := touch_spec (p := p) (den := den) (ρ := ρ) H chg (List.range p.nodes) List.nodup_range { r.s with ev := v }
    cases hcb : combinational p ((List.range p.nodes).foldl (touch p chg) { r.s with ev := v }) with
    | none => rw [hcb] at h; simp at h
    | some q =>
      obtain ⟨u, ok⟩ := q
      rw [hcb] at h
      simp only [Option.bind_some, Option.some.injEq] at h
      have hrel := relax_spec H W p.limit { ((List.range p.nodes).foldl (touch p chg) { r.s with ev := v }) with todo := 0 } u ok ⟨a1.inv.j, a1.inv.fw, a1.inv.hp⟩ hcb
      subst h
      refine ⟨?_, fun e he => by rw [b1]; simp [he]⟩
      intro n hn
      refine ⟨?_, ?_⟩
      · dsimp only; split
        · rfl
        · exact hchg n hn
      · dsimp only
        unfold vb
        rw [(checks_fields (p := p) (List.range p.nodes) u).1, hrel.2.1 n (by
          rintro ⟨k, hk, _, hm⟩
          have := (W.outs k hk n hm).1; omega)]
        have := t1.out n (by rintro ⟨_, h1, _⟩; rw [hchg n hn] at h1; exact absurd h1 (by simp))
        dsimp only at this ⊢
        rw [this]
        exact (hc n hn).2

/-- The states of a successful run. -/
theorem run_states {Ok} {evs : List (Event F)} (H : Hyp p den ρ Ok) (W : WFNet p) (E : EvOK p evs) (n : Nat) (t0 : Int) (r0 r : Run F)
    (h0 : RI p den ρ Ok evs (fun _ _ _ => True) t0 r0) (h : mainLoop p n t0 r0 = some r) (hok : r.ok = true)
    (hev : ∀ e ∈ r0.evs, e.kind.acts = true → 3 < e.node) (hc : ∀ n ≤ 3, r0.chg n = false ∧ vb den ρ r0.s n = constB n) :
    ∃ st : Int → St F,
      (∀ t, t0 ≤ t → t < t0 + n → stateAt p t0 r0 t = some (st t) ∧ TI p den ρ Ok (st t) ∧ (∃ rest, EvAt p.o evs t (st t).ev rest) ∧
        (∀ c, (st t).flag c = false) ∧ ∀ n ≤ 3, vb den ρ (st t) n = constB n) ∧
      (0 < n → ∀ k ∈ p.net, k.delay = true → ∀ m ∈ k.outs, vb den ρ (st t0) m = vb den ρ r0.s m) ∧
      (∀ t, t0 ≤ t → t + 1 < t0 + n → ∀ k ∈ p.net, k.delay = true → ∀ m ∈ k.outs,
        vb den ρ (st (t + 1)) m = if (st t).hasPhase m then ((st t).next m).at den ρ else vb den ρ (st t) m) ∧
      (den r.s.check ρ = true ↔ den r0.s.check ρ = true ∧ ∀ t, t0 ≤ t → t < t0 + n → ∀ m < p.nodes, (st t).ev.hasCons m = true →
        ((vb den ρ (st t) m).h = true → den ((st t).ev.cons m).h ρ = true) ∧ ((vb den ρ (st t) m).l = true → den ((st t).ev.cons m).l ρ = true)) := by
  induction n generalizing t0 r0 with
  | zero =>
    simp only [mainLoop, Option.some.injEq] at h
    subst h
    refine ⟨fun _ => r0.s, ?_, by omega, ?_, ?_⟩
    · intro t h1 h2; omega
    · intro t h1 h2; omega
    · constructor
      · intro h; exact ⟨h, fun t h1 h2 => by omega⟩
      · exact fun h => h.1
  | succ n ih =>
    have hml := h
    rw [mainLoop] at h
    cases h1 : timeStep p t0 r0 with
    | none => rw [h1] at h; simp at h
    | some r1 =>
      rw [h1] at h
      simp only [Option.bind_eq_bind, Option.bind_some] at h
      obtain ⟨a1, a2, a3, a4, a5⟩ := timeStep_spec H W E t0 r0 r1 h0 h1
      obtain ⟨b1, b2⟩ := timeStep_const H W E t0 r0 r1 h0 h1 hev hc
      have ok1 : r1.ok = true := mainLoop_ok n (t0 + 1) { r1 with s := doPhase p r1.s } r h hok
      have hq := E.quiet t0 _ _ a2
      obtain ⟨c1, c2, c3, c4⟩ := doPhase_spec H W r1.s a1 hq
      obtain ⟨d1, _⟩ := phases_spec (p := p) (den := den) (ρ := ρ) H (List.range p.nodes) List.nodup_range r1.s
      have hcp : ∀ n ≤ 3, r1.chg n = false ∧ vb den ρ (doPhase p r1.s) n = constB n := by
        intro m hm
        refine ⟨(b1 m hm).1, ?_⟩
        rw [← (b1 m hm).2]
        unfold vb doPhase
        rw [d1.out m]
        rintro ⟨_, h1 | h1⟩
        · omega
        · obtain ⟨k, hk, _, hn⟩ := a1.inv.hp m h1
          have := (W.outs k hk m hn).1; omega
      have hRI : RI p den ρ Ok evs (fun _ _ _ => True) (t0 + 1) { r1 with s := doPhase p r1.s } :=
        ⟨c1, fun _ _ _ _ _ => trivial, by
          show EvAt p.o evs (t0 + 1 - 1) (doPhase p r1.s).ev r1.evs
          rw [c2, Int.add_sub_cancel]; exact a2⟩
      obtain ⟨st, e1, e2, e3, e4⟩ := ih (t0 + 1) _ hRI h (fun e he => hev e (b2 e he)) hcp
      obtain ⟨g, hg0, hg1⟩ : ∃ g : Int → St F, g t0 = r1.s ∧ ∀ t, t ≠ t0 → g t = st t :=
        ⟨fun t => if t = t0 then r1.s else st t, by simp, fun t ht => by simp [ht]⟩
      refine ⟨g, ?_, ?_, ?_, ?_⟩
      · intro t g1 g2
        by_cases ht : t = t0
        · subst ht
          rw [hg0]
          refine ⟨?_, a1, ⟨r1.evs, a2⟩, (a4 ok1).2, fun n hn => (b1 n hn).2⟩
          unfold stateAt
          rw [Int.sub_self]
          simp [mainLoop, h1]
        · rw [hg1 t ht]
          obtain ⟨f1, f2⟩ := e1 t (by omega) (by omega)
          refine ⟨?_, f2⟩
          rw [← f1]
          unfold stateAt
          rw [show (t - t0).toNat = (t - (t0 + 1)).toNat + 1 by omega, mainLoop, h1]
          rfl
      · intro _ k hk hd m hm
        rw [hg0]
        -- outputs of delay components do not change within a time unit
        have hRP : RI p den ρ Ok evs (fun t n x => t = t0 → (∃ k ∈ p.net, k.delay = true ∧ n ∈ k.outs) → x = vb den ρ r0.s n) t0 r0 :=
          ⟨h0.ti, fun _ _ _ _ _ _ _ => rfl, h0.ev⟩
        exact (timeStep_spec H W E t0 r0 r1 hRP h1).2.2.1 k hk hd m hm rfl ⟨k, hk, hd, hm⟩
      · intro t g1 g2 k hk hd m hm
        by_cases ht : t = t0
        · subst ht
          rw [hg0, hg1 _ (by omega), e2 (by omega) k hk hd m hm]
          exact c4 k hk hd m hm
        · rw [hg1 t ht, hg1 _ (by omega)]
          exact e3 t (by omega) (by omega) k hk hd m hm
      · rw [e4]
        dsimp only
        rw [c3, a5]
        constructor
        · rintro ⟨⟨g1, g2⟩, g3⟩
          refine ⟨g1, fun t f1 f2 m hm => ?_⟩
          by_cases ht : t = t0
          · rw [ht, hg0]; exact g2 m hm
          · rw [hg1 t ht]; exact g3 t (by omega) (by omega) m hm
        · rintro ⟨g1, g2⟩
          refine ⟨⟨g1, fun m hm => ?_⟩, fun t f1 f2 m hm => ?_⟩
          · have := g2 t0 (by omega) (by omega) m hm
            rwa [hg0] at this
          · have := g2 t (by omega) (by omega) m hm
            rwa [hg1 t (by omega)] at this

/-! ### The exact run as a trajectory -/

variable (p den ρ) in
/-- Exact evaluation of a component. -/
def OkE (k : Comp) (i raw : List (DR Bool)) : Prop := k.prim.eval boolOps k.size i = some raw

theorem hypE (hE : Exact p.o den) (hn : ∀ a b, p.neq a b = false → ∀ ρ, den a ρ = den b ρ) (hl : ∀ k, p.lim k = none) :
    Hyp p den ρ OkE := by
  refine ⟨hE, fun a b h => hn a b h ρ, fun k c inps raw _ h => ?_⟩
  unfold evalComp at h
  rw [hl k] at h
  dsimp only at h
  unfold OkE
  rw [← eval_at p.o den hE, h]; rfl

/-- The state after constant propagation. -/
theorem start_facts {Ok} (H : Hyp p den ρ Ok) (W : WFNet p) (s : St F) (hs : initState p = some (s, true)) :
    TI p den ρ Ok s ∧ s.ev = ev0 p.o ∧ s.check = p.o.one ∧ (∀ c, s.flag c = false) ∧ (∀ n, s.hasPhase n = false) ∧ ∀ n ≤ 3, vb den ρ s n = constB n := by
  have hst := addAll_fields (p := p) (List.range p.net.length) (st0 p)
  obtain ⟨a1, a2, a3, a4, a5, a6⟩ := init_facts H W p.limit _ s (st0_ti H) hst.2.2.2.1 (by
      intro n hn
      unfold vb
      rw [hst.1]
      show (cur0 p.o n).at den ρ = constB n
      unfold cur0 constB
      by_cases h0 : n = 0
      · subst h0; simp [DR.at, H.exact.zero, H.exact.one]
      · by_cases h1 : n = 1
        · subst h1; simp [DR.at, H.exact.zero, H.exact.one]
        · by_cases h3 : n = 3
          · subst h3; simp [DR.at, H.exact.zero]
          · simp [h0, h1, h3, DR.at, H.exact.one]) (by intro n; rw [hst.2.2.1]; rfl) hs
  exact ⟨a1, a2, by rw [a3, hst.2.2.2.2.2.1]; rfl, a4, a5, a6⟩

/-- Every state checked by a run is settled. -/
theorem settled {evs : List (Event F)} {Ok} (H : Hyp p den ρ Ok) (W : WFNet p) (E : EvOK p evs) (e : Event F) (he : evs.head? = some e)
    (hev : ∀ e ∈ evs, e.kind.acts = true → 3 < e.node) (chg : Nat → Bool) (hchg : ∀ n ≤ 3, chg n = false)
    (s : St F) (hs : initState p = some (s, true)) (n : Nat) (r : Run F) (h : mainLoop p n e.time ⟨s, chg, evs, true⟩ = some r) (hok : r.ok = true)
    (t : Int) (h1 : e.time ≤ t) (h2 : t < e.time + n) :
    ∃ st, stateAt p e.time ⟨s, chg, evs, true⟩ t = some st ∧ TI p den ρ Ok st ∧ ∀ c, st.flag c = false := by
  obtain ⟨a1, a2, _, _, _, a6⟩ := start_facts H W s hs
  have h0 : RI p den ρ Ok evs (fun _ _ _ => True) e.time ⟨s, chg, evs, true⟩ :=
    ⟨a1, fun _ _ _ _ _ => trivial, by dsimp only; rw [a2]; exact evAt_before p.o evs e he _ (by omega)⟩
  obtain ⟨st, b1, _⟩ := run_states H W E n e.time _ r h0 h hok hev (fun n hn => ⟨hchg n hn, a6 n hn⟩)
  obtain ⟨c1, c2, _, c3, _⟩ := b1 t h1 h2
  exact ⟨st t, c1, c2, c3⟩

variable (p den ρ) in
/-- Node values over time that satisfy the equations of the circuit, up to time `te`. -/
structure Traj (evs : List (Event F)) (te : Int) (x : Int → Nat → DR Bool) : Prop where
  con : ∀ t ≤ te, ∀ n ≤ 3, x t n = constB n
  comb : ∀ t ≤ te, ∀ v rest, EvAt p.o evs t v rest → ∀ k ∈ p.net, k.delay = false →
    ∃ raw, OkE k (k.inps.map (x t)) raw ∧ raw.length = k.outs.length ∧ ∀ q ∈ k.outs.zip raw, x t q.1 = adjB den ρ v q.1 q.2
  del : ∀ t, t + 1 ≤ te → ∀ k ∈ p.net, k.delay = true →
    ∃ raw, OkE k (k.inps.map (x t)) raw ∧ raw.length = k.outs.length ∧ ∀ q ∈ k.outs.zip raw, x (t + 1) q.1 = q.2
  inp : ∀ t ≤ te, ∀ v rest, EvAt p.o evs t v rest → ∀ n, 3 < n → n < p.nodes → p.net.driver n = none → x t n = adjB den ρ v n ⟨true, true⟩

theorem traj_of_run {evs : List (Event F)} (H : Hyp p den ρ OkE) (W : WFNet p) (E : EvOK p evs) (e : Event F) (he : evs.head? = some e)
    (hev : ∀ e ∈ evs, e.kind.acts = true → 3 < e.node) (chg : Nat → Bool) (hchg : ∀ n ≤ 3, chg n = false)
    (s : St F) (hs : initState p = some (s, true)) (n : Nat) (hn : 0 < n) (r : Run F) (h : mainLoop p n e.time ⟨s, chg, evs, true⟩ = some r) (hok : r.ok = true) :
    ∃ x : Int → Nat → DR Bool, Traj p den ρ evs (e.time + n - 1) x ∧
      (∀ t, e.time ≤ t → t < e.time + n → ∃ st, stateAt p e.time ⟨s, chg, evs, true⟩ t = some st ∧ (∀ m, x t m = vb den ρ st m)) ∧
      (den r.s.check ρ = true ↔ ∀ t, e.time ≤ t → t < e.time + n → ∀ v rest, EvAt p.o evs t v rest → ∀ m < p.nodes, v.hasCons m = true →
        ((x t m).h = true → den (v.cons m).h ρ = true) ∧ ((x t m).l = true → den (v.cons m).l ρ = true)) := by
  obtain ⟨a1, a2, a3, a4, a5, a6⟩ := start_facts H W s hs
  have h0 : RI p den ρ OkE evs (fun _ _ _ => True) e.time ⟨s, chg, evs, true⟩ :=
    ⟨a1, fun _ _ _ _ _ => trivial, by dsimp only; rw [a2]; exact evAt_before p.o evs e he _ (by omega)⟩
  obtain ⟨st, b1, b2, b3, b4⟩ := run_states H W E n e.time _ r h0 h hok hev (fun n hn => ⟨hchg n hn, a6 n hn⟩)
  obtain ⟨x, hx0, hx1⟩ : ∃ x : Int → Nat → DR Bool, (∀ t, t < e.time → ∀ m, x t m = vb den ρ s m) ∧ ∀ t, e.time ≤ t → ∀ m, x t m = vb den ρ (st t) m :=
    ⟨fun t m => if t < e.time then vb den ρ s m else vb den ρ (st t) m, fun t ht m => by simp [ht], fun t ht m => by
      have : ¬ t < e.time := by omega
      simp [this]⟩
  have hck : den (⟨s, chg, evs, true⟩ : Run F).s.check ρ = true := by
    dsimp only; rw [a3]; exact H.exact.one ρ
  refine ⟨x, ⟨?_, ?_, ?_, ?_⟩, ?_, ?_⟩
  · intro t ht m hm
    by_cases hl : t < e.time
    · rw [hx0 t hl]; exact a6 m hm
    · rw [hx1 t (by omega)]; exact (b1 t (by omega) (by omega)).2.2.2.2 m hm
  · intro t ht v rest hv k hk hd
    obtain ⟨c, hc⟩ := List.getElem?_of_mem hk
    by_cases hl : t < e.time
    · obtain ⟨raw, g1, g2, g3⟩ := a1.inv.j c k hc (fun h => h) (a4 c)
      refine ⟨raw, by rw [List.map_congr_left fun m _ => hx0 t hl m]; exact g1, g2, fun q hq => ?_⟩
      have := g3 q hq
      rw [hd] at this
      simp only [Bool.false_eq_true, if_false] at this
      rw [hx0 t hl, this, a2, (hv.unique (evAt_before p.o evs e he t hl)).1]
    · obtain ⟨_, f2, ⟨rest', f3⟩, f4, _⟩ := b1 t (by omega) (by omega)
      obtain ⟨raw, g1, g2, g3⟩ := f2.inv.j c k hc (fun h => h) (f4 c)
      refine ⟨raw, by rw [List.map_congr_left fun m _ => hx1 t (by omega) m]; exact g1, g2, fun q hq => ?_⟩
      have := g3 q hq
      rw [hd] at this
      simp only [Bool.false_eq_true, if_false] at this
      rw [hx1 t (by omega), this, (hv.unique f3).1]
  · intro t ht k hk hd
    obtain ⟨c, hc⟩ := List.getElem?_of_mem hk
    by_cases hl : t < e.time
    · obtain ⟨raw, g1, g2, g3⟩ := a1.inv.j c k hc (fun h => h) (a4 c)
      refine ⟨raw, by rw [List.map_congr_left fun m _ => hx0 t hl m]; exact g1, g2, fun q hq => ?_⟩
      have := g3 q hq
      rw [hd, a5 q.1] at this
      simp only [if_true, Bool.false_eq_true, if_false] at this
      by_cases hl2 : t + 1 < e.time
      · rw [hx0 _ hl2, this]
      · have : t + 1 = e.time := by omega
        rw [hx1 _ (by omega), this, b2 hn k hk hd q.1 (zip_mem_fst hq)]
        assumption
    · obtain ⟨_, f2, _, f4, _⟩ := b1 t (by omega) (by omega)
      obtain ⟨raw, g1, g2, g3⟩ := f2.inv.j c k hc (fun h => h) (f4 c)
      refine ⟨raw, by rw [List.map_congr_left fun m _ => hx1 t (by omega) m]; exact g1, g2, fun q hq => ?_⟩
      have := g3 q hq
      rw [hd] at this
      simp only [if_true] at this
      rw [hx1 _ (by omega), b3 t (by omega) (by omega) k hk hd q.1 (zip_mem_fst hq)]
      exact this
  · intro t ht v rest hv m h1 h2 h3
    by_cases hl : t < e.time
    · rw [hx0 t hl, a1.inp m h1 h2 h3, a2, (hv.unique (evAt_before p.o evs e he t hl)).1]
    · obtain ⟨_, f2, ⟨rest', f3⟩, _⟩ := b1 t (by omega) (by omega)
      rw [hx1 t (by omega), f2.inp m h1 h2 h3, (hv.unique f3).1]
  · intro t h1 h2
    exact ⟨st t, (b1 t h1 h2).1, fun m => hx1 t h1 m⟩
  · rw [b4]
    constructor
    · rintro ⟨_, g⟩ t h1 h2 v rest hv m hm hcm
      obtain ⟨_, _, ⟨rest', f3⟩, _⟩ := b1 t h1 h2
      rw [(hv.unique f3).1] at hcm ⊢
      rw [hx1 t h1]
      exact g t h1 h2 m hm hcm
    · intro g
      refine ⟨hck, fun t h1 h2 m hm hcm => ?_⟩
      obtain ⟨_, _, ⟨rest', f3⟩, _⟩ := b1 t h1 h2
      have := g t h1 h2 _ rest' f3 m hm hcm
      rwa [hx1 t h1] at this

/-! ### Comparison -/

/-- Results weaker than those of exact evaluation on more defined inputs. -/
def OkW (k : Comp) (i raw : List (DR Bool)) : Prop :=
  ∀ j, WeakerW i j → ∀ raw', k.prim.eval boolOps k.size j = some raw' → WeakerW raw raw'

theorem hypW (hE : Exact p.o den) (hn : ∀ a b, p.neq a b = false → ∀ ρ, den a ρ = den b ρ) (hp : ∀ k ∈ p.net, k.prim ≠ .latLeq) :
    Hyp p den ρ OkW := by
  refine ⟨hE, fun a b h => hn a b h ρ, fun k c inps raw hc h j hj raw' hr => ?_⟩
  unfold evalComp at h
  have hB := exact_bool
  cases hlim : p.lim k with
  | none =>
    rw [hlim] at h
    have h1 : c.prim.eval boolOps c.size (inps.map (DR.at den ρ)) = some (raw.map (DR.at den ρ)) := by
      rw [← eval_at p.o den hE, h]; rfl
    have hid : ∀ l : List (DR Bool), l.map (DR.at (fun (b : Bool) (_ : Unit) => b) ()) = l := by
      intro l; conv => rhs; rw [← List.map_id l]
      rfl
    rcases c35_mono c.prim (hp c hc) boolOps _ hB c.size (inps.map (DR.at den ρ)) j () (by rw [hid, hid]; exact hj) with ⟨e1, _⟩ | ⟨vs, us, e1, e2, e3⟩
    · rw [h1] at e1; simp at e1
    · rw [h1] at e1
      rw [hr] at e2
      rw [hid, hid] at e3
      rw [Option.some.inj e1, Option.some.inj e2]; exact e3
  | some big =>
    rw [hlim] at h
    have h1 := eval_rel (rel_limited p.o den hE big ρ) c.prim (hp c hc) c.size ((rw_at_weaker den ρ inps _).2 hj)
    dsimp only at h
    rw [h, hr] at h1
    rcases h1 with ⟨e1, _⟩ | ⟨v, u, e1, e2, e3⟩
    · simp at e1
    · rw [Option.some.inj e1, Option.some.inj e2]
      exact (rw_at_weaker den ρ v _).1 e3

theorem adjB_mono (v : Ev F) (n : Nat) (x y : DR Bool) (h : Weaker x y) : Weaker (adjB den ρ v n x) (adjB den ρ v n y) := by
  have h1 : y.h = true → x.h = true := h true
  have h2 : y.l = true → x.l = true := h false
  have key : ∀ a b c d : Bool, (a = true → b = true) → ((a || c) && d) = true → ((b || c) && d) = true := by decide
  have key2 : ∀ a b d : Bool, (a = true → b = true) → (a && d) = true → (b && d) = true := by decide
  have key3 : ∀ a b c : Bool, (a = true → b = true) → (a || c) = true → (b || c) = true := by decide
  intro b
  unfold Admits adjB
  cases b <;> cases v.hasWeak n <;> cases v.hasAnt n <;> simp only [Bool.false_eq_true, if_false, if_true] <;>
    first | exact h1 | exact h2 | exact key _ _ _ _ h1 | exact key _ _ _ _ h2 | exact key2 _ _ _ h1 | exact key2 _ _ _ h2 | exact key3 _ _ _ h1 | exact key3 _ _ _ h2

theorem weakerW_map {x : Nat → DR Bool} {l : List Nat} {i : List (DR Bool)} {P : Nat → DR Bool → Prop} (h : List.Forall₂ P l i)
    (hP : ∀ n ∈ l, ∀ v, P n v → Weaker v (x n)) : WeakerW i (l.map x) := by
  induction h with
  | nil => exact .nil
  | cons h _ ih => exact .cons (hP _ (by simp) _ h) (ih fun n hn => hP n (List.mem_cons_of_mem _ hn))

theorem weaker_zip {raw raw' : List (DR Bool)} (h : List.Forall₂ Weaker raw raw') (l : List Nat) (q : Nat × DR Bool) (hq : q ∈ l.zip raw) :
    ∃ q' ∈ l.zip raw', q'.1 = q.1 ∧ Weaker q.2 q'.2 := by
  induction h generalizing l with
  | nil => simp at hq
  | @cons c d _ ds h _ ih =>
    cases l with
    | nil => simp at hq
    | cons a as =>
      rw [List.zip_cons_cons, List.mem_cons] at hq
      rcases hq with rfl | hq
      · exact ⟨(a, d), by simp, rfl, h⟩
      · obtain ⟨q', h1, h2⟩ := ih as hq
        exact ⟨q', by rw [List.zip_cons_cons]; exact List.mem_cons_of_mem _ h1, h2⟩

/-- A trajectory of the exact circuit bounds the run. -/
theorem closedW {p' : Par F} (ho : p'.o = p.o) (hN : SameNet p.net p'.net) (hnode : p'.nodes = p.nodes) (W : WFNet p)
    (hdr : ∀ n, p.net.driver n = none → p'.net.driver n = none)
    {evs : List (Event F)} (te : Int) (x : Int → Nat → DR Bool) (T : Traj p' den ρ evs te x) :
    Closed p den ρ OkW evs (fun t n v => t ≤ te → n < p.nodes → Weaker v (x t n)) where
  bot := by intro t n _ _ b _; cases b <;> rfl
  con := by
    intro t n hn ht _
    rw [T.con t ht n (by omega)]
    intro b h; exact h
  comb := by
    intro t v rest hev k hk hd i raw hi hok q hq ht hqn
    obtain ⟨k', hk', a1, a2, a3, a4, a5⟩ := hN k hk
    obtain ⟨raw', b1, b2, b3⟩ := T.comb t ht v rest (by rw [ho]; exact hev) k' hk' (by rw [a5]; exact hd)
    unfold OkE at b1
    rw [a1, a2, a3] at b1
    rw [a4] at b3
    have hw := hok _ (weakerW_map hi fun n hn v hv => hv ht (W.inps k hk n hn)) raw' b1
    obtain ⟨q', hq', c1, c2⟩ := weaker_zip hw k.outs q hq
    rw [← c1, b3 q' hq']
    exact adjB_mono v q'.1 _ _ c2
  del := by
    intro t k hk hd i raw hi hok q hq ht hqn
    obtain ⟨k', hk', a1, a2, a3, a4, a5⟩ := hN k hk
    obtain ⟨raw', b1, b2, b3⟩ := T.del t ht k' hk' (by rw [a5]; exact hd)
    unfold OkE at b1
    rw [a1, a2, a3] at b1
    rw [a4] at b3
    have hw := hok _ (weakerW_map hi fun n hn v hv => hv (by omega) (W.inps k hk n hn)) raw' b1
    obtain ⟨q', hq', c1, c2⟩ := weaker_zip hw k.outs q hq
    rw [← c1, b3 q' hq']
    exact c2
  inp := by
    intro t v rest hev n hn hdn ht hnn
    rw [T.inp t ht v rest (by rw [ho]; exact hev) n hn (by rw [hnode]; exact hnn) (hdr n hdn)]
    intro b h; exact h

theorem driver_none_iff (net : Net) (n : Nat) : net.driver n = none ↔ ∀ k ∈ net, n ∉ k.outs := by
  unfold Net.driver
  rw [List.getLast?_eq_none_iff, List.filter_eq_nil_iff]
  constructor
  · intro h k hk hn
    obtain ⟨c, hc⟩ := List.getElem?_of_mem hk
    have := h c (List.mem_range.2 (List.getElem?_eq_some_iff.1 hc).1)
    rw [hc] at this
    simp [hn] at this
  · intro h c hc
    rw [List.mem_range] at hc
    rw [List.getElem?_eq_getElem hc]
    simpa using h _ (List.getElem_mem hc)

theorem driver_same {a b : Net} (h : SameNet b a) (n : Nat) (hn : a.driver n = none) : b.driver n = none := by
  rw [driver_none_iff] at hn ⊢
  intro k hk hm
  obtain ⟨k', hk', _, _, _, h4, _⟩ := h k hk
  exact hn k' hk' (by rw [h4]; exact hm)

/-- Comparison of the values and checks of two runs of the same circuit, the second one exact. -/
theorem compare {p' : Par F} (ho : p'.o = p.o) (hN : SameNet p.net p'.net) (hN' : SameNet p'.net p.net) (hnode : p'.nodes = p.nodes)
    (W : WFNet p) (W' : WFNet p') {level} (A : Acyclic p level) (hE : Exact p.o den)
    (hn : ∀ a b, p.neq a b = false → ∀ ρ, den a ρ = den b ρ) (hn' : ∀ a b, p'.neq a b = false → ∀ ρ, den a ρ = den b ρ)
    (hl : ∀ k, p'.lim k = none) (hp : ∀ k ∈ p.net, k.prim ≠ .latLeq)
    (items : List (Item F)) (evs : List (Event F)) (hS : Sorted p.o items evs) (hF : Fair p items) (hF' : Fair p' items)
    (e : Event F) (he : evs.head? = some e) (chg chg' : Nat → Bool) (hchg : ∀ n ≤ 3, chg n = false ∧ chg' n = false)
    (s s' : St F) (hs : initState p = some (s, true)) (hs' : initState p' = some (s', true)) (n : Nat) (hn0 : 0 < n) (r r' : Run F)
    (h : mainLoop p n e.time ⟨s, chg, evs, true⟩ = some r) (h' : mainLoop p' n e.time ⟨s', chg', evs, true⟩ = some r')
    (hok : r.ok = true) (hok' : r'.ok = true) (ρ : Env) :
    (∀ t, e.time ≤ t → t < e.time + n → ∃ a b, stateAt p e.time ⟨s, chg, evs, true⟩ t = some a ∧
      stateAt p' e.time ⟨s', chg', evs, true⟩ t = some b ∧ ∀ m < p.nodes, m ≠ 3 → Weaker (vb den ρ a m) (vb den ρ b m)) ∧
    (den r.s.check ρ = true → den r'.s.check ρ = true) := by
  have hE' : Exact p'.o den := by rw [ho]; exact hE
  have hS' : Sorted p'.o items evs := by rw [ho]; exact hS
  have H' : Hyp p' den ρ OkE := hypE hE' hn' hl
  have H : Hyp p den ρ OkW := hypW hE hn hp
  have E := evOK hS hF
  have E' := evOK hS' hF'
  have hev : ∀ e ∈ evs, e.kind.acts = true → 3 < e.node := by
    intro x hx ha
    obtain ⟨i, hi, hi2⟩ := mem_create (hS.1.mem_iff.1 hx)
    obtain ⟨_, c2, c3, _⟩ := events_cases p.o _ i x hi2
    rw [c3]
    exact (hF.acts i (List.mem_of_getElem? hi) (by rw [← c2]; exact ha)).1
  obtain ⟨x, T, hx, hck⟩ := traj_of_run H' W' E' e he hev chg' (fun n hn => (hchg n hn).2) s' hs' n hn0 r' h' hok'
  have C := closedW (den := den) (ρ := ρ) ho hN hnode W (fun m hm => driver_same hN' m hm) (e.time + n - 1) x T
  have hRI := init_ri A H W C e he s hs chg
  have hrun := fun t h1 h2 => run_check A H W C E e.time _ r n hRI h hok t h1 h2
  refine ⟨?_, ?_⟩
  · intro t h1 h2
    obtain ⟨a, rest, g0, g1, g2, _⟩ := hrun t h1 h2
    obtain ⟨b, f1, f2⟩ := hx t h1 h2
    refine ⟨a, b, g0, f1, fun m hm h3 => ?_⟩
    rw [← f2 m]
    exact g2 m hm h3 (by omega) hm
  · intro hc
    rw [hck]
    intro t h1 h2 v rest hv m hm hcm
    obtain ⟨a, rest', g0, g1, g2, g3⟩ := hrun t h1 h2
    rw [ho] at hv
    rw [(hv.unique g1).1] at hcm ⊢
    rw [hnode] at hm
    obtain ⟨d1, d2⟩ := g3 hc m hm hcm
    have h3 : m ≠ 3 := by
      rintro rfl
      obtain ⟨d, q1, q2, _, _⟩ := evAt_inv hS t a.ev rest' g1
      obtain ⟨z, hz, z1, z2⟩ := q2.on .cons 3 (by simp) hcm
      obtain ⟨i, hi, hi2⟩ := mem_create (hS.1.mem_iff.1 (by rw [q1]; simp [hz] : z ∈ evs))
      have := (events_cases p.o _ i z hi2).2.2.1
      exact (hF.node i (List.mem_of_getElem? hi)).2 (this.symm.trans z2)
    have hw := g2 m hm h3 (by omega) hm
    exact ⟨fun h => d1 (hw true h), fun h => d2 (hw false h)⟩

/-! ### Whole runs -/

section
variable {p' : Par F} {items : List (Item F)} {evs : List (Event F)}

theorem weaker_antisymm {a b : DR Bool} (h : Weaker a b) (h' : Weaker b a) : a = b := by
  obtain ⟨x, y⟩ := a
  obtain ⟨z, w⟩ := b
  have h1 := h true
  have h2 := h false
  have h3 := h' true
  have h4 := h' false
  simp only [Admits] at h1 h2 h3 h4
  revert h1 h2 h3 h4
  cases x <;> cases y <;> cases z <;> cases w <;> simp

theorem acts_builtin (S : Setting p den items evs) : ∀ e ∈ evs, e.kind.acts = true → 3 < e.node := by
  intro x hx ha
  obtain ⟨i, hi, hi2⟩ := mem_create (S.sorted.1.mem_iff.1 hx)
  obtain ⟨_, c2, c3, _⟩ := events_cases p.o _ i x hi2
  rw [c3]
  exact (S.fair.acts i (List.mem_of_getElem? hi) (by rw [← c2]; exact ha)).1

/-- Two runs of the same circuit, the second one without size limits: values and checks. -/
theorem compare_runs (S : Setting p den items evs) (S' : Setting p' den items evs) (ho : p'.o = p.o) (hN : SameNet p.net p'.net)
    (hN' : SameNet p'.net p.net) (hnode : p'.nodes = p.nodes) {level} (A : Acyclic p level) (hp : ∀ k ∈ p.net, k.prim ≠ .latLeq)
    (hl : ∀ k, p'.lim k = none) (chg chg' : Nat → Bool) (hchg : ∀ n ≤ 3, chg n = false ∧ chg' n = false)
    (r r' : Result F) (h : ste p items evs chg = some (some r)) (h' : ste p' items evs chg' = some (some r'))
    (hok : r.ok = true) (hok' : r'.ok = true) (ρ : Env) :
    (∀ t, InRun evs t → ∃ s s', observed p evs chg t = some s ∧ observed p' evs chg' t = some s' ∧
      ∀ m < p.nodes, m ≠ 3 → Weaker (vb den ρ s m) (vb den ρ s' m)) ∧ (den r.checkOK ρ = true → den r'.checkOK ρ = true) := by
  obtain ⟨s, hs, ⟨hn, hr⟩ | ⟨e, l, q, he, hl1, hr, rfl⟩⟩ := ste_some items evs chg r h
  · obtain ⟨s', hs', ⟨hn', hr'⟩ | ⟨e, l, q, he, _⟩⟩ := ste_some items evs chg' r' h'
    · refine ⟨?_, fun _ => ?_⟩
      · rintro t ⟨e, l, he, _⟩
        rw [hn] at he; simp at he
      · have := (start_facts (hypE S'.exact S'.neq hl : Hyp p' den ρ OkE) S'.wf s' hs').2.2.1
        rw [hr']; dsimp only; rw [this]; exact S'.exact.one ρ
    · rw [hn] at he; simp at he
  · obtain ⟨s', hs', ⟨hn', hr'⟩ | ⟨e', l', q', he', hl', hr', rfl⟩⟩ := ste_some items evs chg' r' h'
    · rw [hn'] at he; simp at he
    · rw [he] at he'; rw [hl1] at hl'
      cases he'; cases hl'
      by_cases h0 : 0 < (l.time + 1 - e.time + 1).toNat
      · obtain ⟨c1, c2⟩ := compare ho hN hN' hnode S.wf S'.wf A S.exact S.neq S'.neq hl hp items evs S.sorted S.fair S'.fair e he chg chg' hchg
          s s' hs hs' _ h0 q q' hr hr' hok hok' ρ
        refine ⟨?_, c2⟩
        rintro t ⟨e', l', he', hl', h1, h2⟩
        rw [he] at he'; rw [hl1] at hl'
        cases he'; cases hl'
        obtain ⟨a, b, d1, d2, d3⟩ := c1 t h1 (by omega)
        exact ⟨a, b, by simp [observed, hs, he, d1], by simp [observed, hs', he, d2], d3⟩
      · refine ⟨?_, fun _ => ?_⟩
        · rintro t ⟨e', l', he', hl', h1, h2⟩
          rw [he] at he'; rw [hl1] at hl'
          cases he'; cases hl'
          omega
        · have hz : (l.time + 1 - e.time + 1).toNat = 0 := by omega
          rw [hz] at hr'
          simp only [mainLoop, Option.some.injEq] at hr'
          have := (start_facts (hypE S'.exact S'.neq hl : Hyp p' den ρ OkE) S'.wf s' hs').2.2.1
          rw [← hr']; dsimp only; rw [this]; exact S'.exact.one ρ

end

end Voss.Ste
