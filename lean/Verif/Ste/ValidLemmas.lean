import Verif.Ste.RunLemmas
/-
Lemmas about the order of evaluation: with right ranks every component is evaluated after the components it
depends on, so no intermediate value contradicts an antecedent, and one pass is enough.
-/
namespace Voss.Ste
open Voss.Sim

variable {F Env : Type} {p : Par F} {den : F → Env → Bool} {ρ : Env}

variable (p) in
/-- Entries of the wheel have the right rank, below `r`. -/
def WI (r : Nat) (s : St F) : Prop := ∀ r' c, c ∈ s.wheel r' → (∃ k, p.net[c]? = some k ∧ k.rank = r') ∧ r' < r

theorem addTodo_wi (r : Nat) (s : St F) (c : Nat) (hc : ∀ k, p.net[c]? = some k → k.rank < r) (h : WI p r s) : WI p r (addTodo p s c) := by
  unfold addTodo
  split
  · exact h
  · split
    · rename_i k hk
      intro r' d hd
      have hd' : d ∈ upd s.wheel k.rank (c :: s.wheel k.rank) r' := hd
      unfold upd at hd'
      split at hd'
      · rename_i e
        rcases List.mem_cons.1 hd' with rfl | hd'
        · exact ⟨⟨k, hk, e.symm⟩, by rw [e]; exact hc k hk⟩
        · rw [← e] at hd'; exact h r' d hd'
      · exact h r' d hd'
    · exact h

theorem addAll_wi (r : Nat) (fs : List Nat) (s : St F) (hc : ∀ c ∈ fs, ∀ k, p.net[c]? = some k → k.rank < r) (h : WI p r s) :
    WI p r (fs.foldl (addTodo p) s) := by
  induction fs generalizing s with
  | nil => exact h
  | cons c fs ih =>
    exact ih _ (fun c' hc' => hc c' (List.mem_cons_of_mem _ hc')) (addTodo_wi r s c (hc c (by simp)) h)

theorem of_mem_fanouts (net : Net) (n c : Nat) (k : Comp) (h : c ∈ net.fanouts n) (hk : net[c]? = some k) : n ∈ k.inps := by
  unfold Net.fanouts at h
  rw [List.mem_reverse, List.mem_filter, hk] at h
  simpa using h.2

theorem updateNode_wi (r : Nat) (s : St F) (n : Nat) (x : DR F) (hc : ∀ k ∈ p.net, n ∈ k.inps → k.rank < r) (h : WI p r s) :
    WI p r (updateNode p s n x) := by
  dsimp only [updateNode]
  split
  · apply addAll_wi
    · intro c hc' k hk
      exact hc k (List.mem_of_getElem? hk) (of_mem_fanouts p.net n c k hc' hk)
    · exact h
  · exact h

theorem updateNode_valid (hE : Exact p.o den) (s : St F) (n : Nat) (x : DR F)
    (hx : s.ev.hasAnt n = true → ((adjB den ρ s.ev n (x.at den ρ)).h || (adjB den ρ s.ev n (x.at den ρ)).l) = true)
    (h : den s.valid ρ = true) : den (updateNode p s n x).valid ρ = true := by
  rw [(updateNode_fields s n x).2.2.2.2.1]
  cases ha : s.ev.hasAnt n with
  | false => simpa using h
  | true =>
    have hx := hx ha
    rw [← adjust_at den ρ p.o hE] at hx
    simp only [if_true, hE.and, hE.or, h, Bool.true_and]
    exact hx

theorem updates_valid (hE : Exact p.o den) (r : Nat) (zs : List (Nat × DR F)) (s : St F)
    (hx : ∀ q ∈ zs, s.ev.hasAnt q.1 = true → ((adjB den ρ s.ev q.1 (q.2.at den ρ)).h || (adjB den ρ s.ev q.1 (q.2.at den ρ)).l) = true)
    (hc : ∀ q ∈ zs, ∀ k ∈ p.net, q.1 ∈ k.inps → k.rank < r)
    (hw : WI p r s) (h : den s.valid ρ = true) :
    WI p r (zs.foldl (fun s q => updateNode p s q.1 q.2) s) ∧ den (zs.foldl (fun s q => updateNode p s q.1 q.2) s).valid ρ = true := by
  induction zs generalizing s with
  | nil => exact ⟨hw, h⟩
  | cons z zs ih =>
    have hev : (updateNode p s z.1 z.2).ev = s.ev := (updateNode_fields s z.1 z.2).2.2.2.1
    refine ih _ ?_ ?_ ?_ ?_
    · intro q hq
      rw [hev]
      exact hx q (List.mem_cons_of_mem _ hq)
    · exact fun q hq => hc q (List.mem_cons_of_mem _ hq)
    · exact updateNode_wi r s z.1 z.2 (hc z (by simp)) hw
    · exact updateNode_valid hE s z.1 z.2 (hx z (by simp)) h

theorem storeNext_valid (zs : List (Nat × DR F)) (s : St F) :
    (zs.foldl storeNext s).wheel = s.wheel ∧ (zs.foldl storeNext s).valid = s.valid := by
  induction zs generalizing s with
  | nil => simp
  | cons z zs ih => exact ih (storeNext s z)

/-- The evaluation of one component in a pass. -/
theorem step_inv {Ok} (H : Hyp p den ρ Ok) (W : WFNet p) (s u : St F) (r c : Nat) (cs : List Nat) (hI : Inv p den ρ Ok s) (hw : s.wheel r = c :: cs)
    (hd : doOp p { s with wheel := upd s.wheel r cs, flag := upd s.flag c false } c = some u) :
    Inv p den ρ Ok u ∧ (∀ n, ¬ ZOut p n → u.cur n = s.cur n) ∧ u.ev = s.ev ∧ u.check = s.check := by
  have hJ : JX p den ρ Ok (fun d => d = c) { s with wheel := upd s.wheel r cs, flag := upd s.flag c false } := by
    intro d k hk hd' hf
    have : s.flag d = false := by
      have h' : upd s.flag c false d = false := hf
      rwa [upd_ne _ _ _ _ hd'] at h'
    exact hI.j d k hk (fun h => h) this
  have hFW : FW p { s with wheel := upd s.wheel r cs, flag := upd s.flag c false } := by
    intro d hf
    have hdc : d ≠ c := by
      rintro rfl
      have : upd s.flag d false d = true := hf
      rw [upd_same] at this
      exact absurd this (by simp)
    have hfd : s.flag d = true := by
      have h' : upd s.flag c false d = true := hf
      rwa [upd_ne _ _ _ _ hdc] at h'
    obtain ⟨k, hk, hm⟩ := hI.fw d hfd
    refine ⟨k, hk, ?_⟩
    show d ∈ upd s.wheel r cs k.rank
    unfold upd
    split
    · rename_i e
      rw [e, hw] at hm
      rcases List.mem_cons.1 hm with h' | h'
      · exact absurd h' hdc
      · exact h'
    · exact hm
  obtain ⟨a1, a2, a3, a4, a5, a6⟩ := doOp_spec H W _ u c hJ hd
  exact ⟨⟨a1, a2 hFW, a5 hI.hp⟩, a3, a4, a6⟩

/-- Changing only outputs of components without delay keeps the rest of the invariant. -/
theorem ti_of_inv {Ok P} (W : WFNet p) (s u : St F) (t : Int) (hI : TI p den ρ Ok s) (hps : PS p den ρ P s t) (h1 : Inv p den ρ Ok u)
    (h2 : ∀ n, ¬ ZOut p n → u.cur n = s.cur n) (h3 : u.ev = s.ev) : TI p den ρ Ok u ∧ PS p den ρ P u t := by
  have hnz : ∀ n, (∀ k ∈ p.net, k.delay = false → n ∉ k.outs) → vb den ρ u n = vb den ρ s n := by
    intro n hn
    unfold vb
    rw [h2 n]
    rintro ⟨k, hk, hd, hm⟩
    exact hn k hk hd hm
  refine ⟨⟨h1, ?_, ?_⟩, ?_⟩
  · intro n a b c
    rw [h3, hnz n]
    · exact hI.inp n a b c
    · intro k hk _ hm
      obtain ⟨d, hd⟩ := List.getElem?_of_mem hk
      rw [driver_some W n d k hd hm] at c
      exact absurd c (by simp)
  · intro n hn
    rw [hnz n]
    · exact hI.con n hn
    · intro k hk _ hm
      have := (W.outs k hk n hm).1
      omega
  · intro k hk hd n hn
    rw [hnz n]
    · exact hps k hk hd n hn
    · intro k' hk' hd' hm
      obtain ⟨c, hc⟩ := List.getElem?_of_mem hk
      obtain ⟨c', hc'⟩ := List.getElem?_of_mem hk'
      by_cases e : c = c'
      · subst e; rw [hc] at hc'; cases hc'; rw [hd] at hd'; exact absurd hd' (by simp)
      · exact W.disj c c' k k' hc hc' e n hn hm

/-- A pass over the ranks below `r`, when nothing waits at `r` or above. -/
theorem pass_valid {Ok P} {evs : List (Event F)} {level} (A : Acyclic p level) (H : Hyp p den ρ Ok) (W : WFNet p) (C : Closed p den ρ Ok evs P)
    (hR : RankOK p.net) (hne : ∀ t n x, P t n x → (x.h || x.l) = true) (t : Int) (rest : List (Event F))
    (f r : Nat) (s u : St F) (seen seen' : Bool) (hI : TI p den ρ Ok s) (hev : EvAt p.o evs t s.ev rest) (hps : PS p den ρ P s t)
    (hw : WI p r s) (hv : den s.valid ρ = true) (h : pass p f r s seen = some (u, seen')) :
    den u.valid ρ = true ∧ ∀ r', u.wheel r' = [] := by
  induction f generalizing r s seen with
  | zero => simp [pass] at h
  | succ f ih =>
    cases r with
    | zero =>
      simp only [pass, Option.some.injEq, Prod.mk.injEq] at h
      obtain ⟨rfl, rfl⟩ := h
      refine ⟨hv, fun r' => ?_⟩
      cases hx : s.wheel r' with
      | nil => rfl
      | cons c cs => have := (hw r' c (by rw [hx]; simp)).2; omega
    | succ r =>
      rw [pass] at h
      cases hx : s.wheel r with
      | nil =>
        rw [hx] at h
        refine ih r s seen hI hev hps ?_ hv h
        intro r' c hc
        obtain ⟨a, b⟩ := hw r' c hc
        refine ⟨a, ?_⟩
        have : r' ≠ r := by rintro rfl; rw [hx] at hc; simp at hc
        omega
      | cons c cs =>
        rw [hx] at h
        simp only at h
        cases hd : doOp p { s with wheel := upd s.wheel r cs, flag := upd s.flag c false } c with
        | none => rw [hd] at h; simp at h
        | some w =>
          rw [hd] at h
          simp only [Option.bind_eq_bind, Option.bind_some] at h
          obtain ⟨b1, b2, b3, _⟩ := step_inv H W s w r c cs hI.inv hx hd
          obtain ⟨c1, c2⟩ := ti_of_inv W s w t hI hps b1 b2 b3
          obtain ⟨⟨k, hk, hkr⟩, _⟩ := hw r c (by rw [hx]; simp)
          have hmem : k ∈ p.net := List.mem_of_getElem? hk
          -- the inputs of the component are settled
          have hgood : ∀ i ∈ k.inps, P t i (vb den ρ s i) := by
            intro i hi
            refine settled_P A W C s t rest hI hev hps (fun n => ∀ (d : Nat) (k' : Comp), p.net[d]? = some k' → n ∈ k'.outs → k'.delay = false → r < k'.rank)
              ?_ i ?_ (W.inps k hmem i hi) (fun e => A.top k hmem (e ▸ hi))
            · intro n hn d k' hk' hno hdel
              have hr := hn d k' hk' hno hdel
              constructor
              · cases hf : s.flag d with
                | false => rfl
                | true =>
                  obtain ⟨k2, hk2, hm⟩ := hI.inv.fw d hf
                  rw [hk'] at hk2
                  cases hk2
                  have := (hw _ d hm).2
                  omega
              · intro j hj e k2 hk2 hjo hdel2
                have := hR k2 (List.mem_of_getElem? hk2) hdel2 j hjo k' (List.mem_of_getElem? hk') hj
                omega
            · intro d k' hk' hno hdel
              have := hR k' (List.mem_of_getElem? hk') hdel i hno k hmem hi
              omega
          have hw' : WI p (r + 1) { s with wheel := upd s.wheel r cs, flag := upd s.flag c false } := by
            intro r' d hd
            have hd' : d ∈ upd s.wheel r cs r' := hd
            unfold upd at hd'
            split at hd'
            · rename_i e
              subst e
              exact hw r' d (by rw [hx]; exact List.mem_cons_of_mem _ hd')
            · exact hw r' d hd'
          have hdone : WI p (r + 1) w ∧ den w.valid ρ = true := by
            unfold doOp at hd
            rw [hk] at hd
            simp only [Option.bind_eq_bind, Option.bind_some] at hd
            cases hr : evalComp p s.steps k (k.inps.map s.cur) with
            | none => rw [hr] at hd; simp at hd
            | some raw =>
              rw [hr] at hd
              simp only [Option.bind_some] at hd
              split at hd
              · simp at hd
              · cases hdel : k.delay with
                | true =>
                  rw [hdel] at hd
                  simp only [if_true, Option.some.injEq] at hd
                  obtain ⟨g1, g2⟩ := storeNext_valid (k.outs.zip raw)
                    { s with wheel := upd s.wheel r cs, flag := upd s.flag c false, steps := s.steps + 1 }
                  rw [hd] at g1 g2
                  refine ⟨?_, by rw [g2]; exact hv⟩
                  intro r' d hd
                  rw [g1] at hd
                  exact hw' r' d hd
                | false =>
                  rw [hdel] at hd
                  simp only [Bool.false_eq_true, if_false, Option.some.injEq] at hd
                  rw [← hd]
                  apply updates_valid H.exact (r + 1) (k.outs.zip raw)
                  · intro q hq _
                    have hok : Ok k (k.inps.map (vb den ρ s)) (raw.map (DR.at den ρ)) := by
                      have := H.ok s.steps k _ raw hmem hr
                      rwa [List.map_map] at this
                    apply hne t q.1
                    refine C.comb t s.ev rest hev k hmem hdel _ _ (forall2_map _ _ hgood) hok (q.1, q.2.at den ρ) ?_
                    rw [List.zip_map_right, List.mem_map]
                    exact ⟨q, hq, rfl⟩
                  · intro q hq k' hk' hi
                    have := hR k hmem hdel q.1 (zip_mem_fst hq) k' hk' hi
                    omega
                  · exact hw'
                  · exact hv
          exact ih (r + 1) w true c1 (by rw [b3]; exact hev) c2 hdone.1 hdone.2 h

theorem pass_empty (f r : Nat) (s u : St F) (seen seen' : Bool) (he : ∀ r', s.wheel r' = []) (h : pass p f r s seen = some (u, seen')) :
    u = s ∧ seen' = seen := by
  induction f generalizing r seen with
  | zero => simp [pass] at h
  | succ f ih =>
    cases r with
    | zero =>
      simp only [pass, Option.some.injEq, Prod.mk.injEq] at h
      exact ⟨h.1.symm, h.2.symm⟩
    | succ r =>
      rw [pass, he r] at h
      exact ih r seen h

/-- A relaxation with right ranks: no contradiction appears, and two passes are enough. -/
theorem comb_valid {Ok P} {evs : List (Event F)} {level} (A : Acyclic p level) (H : Hyp p den ρ Ok) (W : WFNet p) (C : Closed p den ρ Ok evs P)
    (hR : RankOK p.net) (hne : ∀ t n x, P t n x → (x.h || x.l) = true) (t : Int) (rest : List (Event F))
    (s u : St F) (ok : Bool) (hI : TI p den ρ Ok s) (hev : EvAt p.o evs t s.ev rest) (hps : PS p den ρ P s t)
    (hw : WI p p.top s) (hv : den s.valid ρ = true) (h : combinational p s = some (u, ok)) :
    den u.valid ρ = true ∧ WI p p.top u ∧ (2 ≤ p.limit → ok = true) := by
  unfold combinational at h
  have key : ∀ (n : Nat) (s : St F), TI p den ρ Ok s → EvAt p.o evs t s.ev rest → PS p den ρ P s t → WI p p.top s → den s.valid ρ = true →
      relax p n s = some (u, ok) → den u.valid ρ = true ∧ WI p p.top u ∧ (2 ≤ n ∨ (1 ≤ n ∧ ∀ r', s.wheel r' = []) → ok = true) := by
    intro n
    induction n with
    | zero =>
      intro s _ _ _ hw hv h
      simp only [relax, Option.some.injEq, Prod.mk.injEq] at h
      obtain ⟨rfl, rfl⟩ := h
      exact ⟨hv, hw, by omega⟩
    | succ n ih =>
      intro s hI hev hps hw hv h
      rw [relax] at h
      cases hp : pass p p.fuel p.top s false with
      | none => rw [hp] at h; simp at h
      | some q =>
        obtain ⟨w, seen⟩ := q
        rw [hp] at h
        simp only [Option.bind_eq_bind, Option.bind_some] at h
        obtain ⟨a1, a2⟩ := pass_valid A H W C hR hne t rest p.fuel p.top s w false seen hI hev hps hw hv hp
        obtain ⟨b1, b2, b3, b4, b5⟩ := pass_spec H W _ _ _ _ _ _ hI.inv hp
        obtain ⟨c1, c2⟩ := ti_of_inv W s w t hI hps b1 b2 b3
        have hww : WI p p.top w := by intro r' c hc; rw [a2 r'] at hc; simp at hc
        cases hs : seen with
        | true =>
          rw [hs] at h
          simp only [if_true] at h
          obtain ⟨d1, d2, d3⟩ := ih w c1 (by rw [b3]; exact hev) c2 hww a1 h
          refine ⟨d1, d2, ?_⟩
          rintro (h2 | ⟨h2, h3⟩)
          · exact d3 (Or.inr ⟨by omega, a2⟩)
          · have := (pass_empty _ _ _ _ _ _ h3 hp).2
            rw [hs] at this; exact absurd this (by simp)
        | false =>
          rw [hs] at h
          simp only [Bool.false_eq_true, if_false, Option.some.injEq, Prod.mk.injEq] at h
          obtain ⟨rfl, rfl⟩ := h
          exact ⟨a1, hww, fun _ => rfl⟩
  obtain ⟨a, b, c⟩ := key p.limit { s with todo := 0 } ⟨⟨hI.inv.j, hI.inv.fw, hI.inv.hp⟩, hI.inp, hI.con⟩ hev hps hw hv h
  exact ⟨a, b, fun h => c (Or.inl h)⟩

theorem rank_top (W : WFNet p) : ∀ k ∈ p.net, ∀ n ∈ k.inps, k.rank < p.top := fun k hk _ _ => W.rank k hk

/-- A phase meets no contradiction. -/
theorem phase_valid {Ok P} {evs : List (Event F)} (H : Hyp p den ρ Ok) (W : WFNet p) (C : Closed p den ρ Ok evs P)
    (hne : ∀ t n x, P t n x → (x.h || x.l) = true) (t : Int) (rest : List (Event F))
    (s : St F) (hev : EvAt p.o evs t s.ev rest) (hq : Quiet p s.ev) (hp : HP p s)
    (hw : WI p p.top s) (hv : den s.valid ρ = true) : den (doPhase p s).valid ρ = true ∧ WI p p.top (doPhase p s) := by
  unfold doPhase
  have hlt : ∀ n ∈ List.range p.nodes, n < p.nodes := fun n hn => List.mem_range.1 hn
  revert hlt
  generalize List.range p.nodes = ns
  intro hlt
  induction ns generalizing s with
  | nil => exact ⟨hv, hw⟩
  | cons n ns ih =>
    rw [List.foldl_cons]
    have hstep : (phase1 p s n).ev = s.ev ∧ HP p (phase1 p s n) ∧ WI p p.top (phase1 p s n) ∧ den (phase1 p s n).valid ρ = true := by
      rcases phase1_cases (p := p) s n with ⟨h1, h2, h3⟩ | ⟨h1, h2, h3⟩ | ⟨_, _, h3⟩
      · rw [h3]
        have hf := updateNode_fields (p := p) s n (unknown p)
        refine ⟨hf.2.2.2.1, ?_, updateNode_wi _ _ _ _ (fun k hk _ => W.rank k hk) hw, ?_⟩
        · intro m hm; rw [hf.2.2.1] at hm; exact hp m hm
        · apply updateNode_valid H.exact
          · intro _
            apply hne t n
            have : (unknown p).at den ρ = ⟨true, true⟩ := by simp [unknown, DR.at, H.exact.one]
            rw [this]
            exact C.inp t s.ev rest hev n h1 h2
          · exact hv
      · rw [h3]
        have hf := updateNode_fields (p := p) { s with hasPhase := upd s.hasPhase n false } n (s.next n)
        refine ⟨hf.2.2.2.1, ?_, updateNode_wi _ _ _ _ (fun k hk _ => W.rank k hk) hw, ?_⟩
        · intro m hm
          rw [hf.2.2.1] at hm
          have hm' : upd s.hasPhase n false m = true := hm
          unfold upd at hm'
          split at hm'
          · simp at hm'
          · exact hp m hm'
        · apply updateNode_valid H.exact
          · intro ha
            obtain ⟨k, hk, hd, hn⟩ := hp n h2
            have := (hq.1 k hk hd n hn).2
            have ha' : s.ev.hasAnt n = true := ha
            rw [this] at ha'; exact absurd ha' (by simp)
          · exact hv
      · rw [h3]; exact ⟨rfl, hp, hw, hv⟩
    obtain ⟨a, b, c, d⟩ := hstep
    exact ih _ (by rw [a]; exact hev) (by rw [a]; exact hq) b c d (fun m hm => hlt m (List.mem_cons_of_mem _ hm))

/-- So does the treatment of changed nodes. -/
theorem touch_valid {Ok P} {evs : List (Event F)} (H : Hyp p den ρ Ok) (W : WFNet p) (C : Closed p den ρ Ok evs P)
    (hne : ∀ t n x, P t n x → (x.h || x.l) = true) (t : Int) (rest : List (Event F)) (chg : Nat → Bool)
    (s : St F) (hev : EvAt p.o evs t s.ev rest) (hq : Quiet p s.ev)
    (hw : WI p p.top s) (hv : den s.valid ρ = true) :
    den ((List.range p.nodes).foldl (touch p chg) s).valid ρ = true ∧ WI p p.top ((List.range p.nodes).foldl (touch p chg) s) := by
  have hlt : ∀ n ∈ List.range p.nodes, n < p.nodes := fun n hn => List.mem_range.1 hn
  revert hlt
  generalize List.range p.nodes = ns
  intro hlt
  induction ns generalizing s with
  | nil => exact ⟨hv, hw⟩
  | cons n ns ih =>
    rw [List.foldl_cons]
    have hstep : (touch p chg s n).ev = s.ev ∧ WI p p.top (touch p chg s n) ∧ den (touch p chg s n).valid ρ = true := by
      unfold touch
      split
      · cases hd : p.net.driver n with
        | some c =>
          dsimp only
          have hf := addTodo_fields (p := p) s c
          refine ⟨hf.2.2.2.1, addTodo_wi _ _ _ (fun k hk => W.rank k (List.mem_of_getElem? hk)) hw, ?_⟩
          rw [hf.2.2.2.2.1]; exact hv
        | none =>
          dsimp only
          have hf := updateNode_fields (p := p) s n (unknown p)
          refine ⟨hf.2.2.2.1, updateNode_wi _ _ _ _ (fun k hk _ => W.rank k hk) hw, ?_⟩
          apply updateNode_valid H.exact
          · intro ha
            have : (unknown p).at den ρ = ⟨true, true⟩ := by simp [unknown, DR.at, H.exact.one]
            rw [this]
            by_cases h3 : 3 < n
            · apply hne t n
              exact C.inp t s.ev rest hev n h3 hd
            · rw [(hq.2 n (by omega)).2] at ha; exact absurd ha (by simp)
          · exact hv
      · exact ⟨rfl, hw, hv⟩
    obtain ⟨a, b, c⟩ := hstep
    exact ih _ (by rw [a]; exact hev) (by rw [a]; exact hq) b c (fun m hm => hlt m (List.mem_cons_of_mem _ hm))

theorem checks_valid (ns : List Nat) (s : St F) : (ns.foldl (check1 p) s).wheel = s.wheel ∧ (ns.foldl (check1 p) s).valid = s.valid :=
  ⟨(checks_fields (p := p) ns s).2.2.2.2.2.1, (checks_fields (p := p) ns s).2.2.2.2.2.2⟩

theorem timeStep_valid {Ok P} {evs : List (Event F)} {level} (A : Acyclic p level) (H : Hyp p den ρ Ok) (W : WFNet p) (C : Closed p den ρ Ok evs P)
    (E : EvOK p evs) (hR : RankOK p.net) (hne : ∀ t n x, P t n x → (x.h || x.l) = true) (t : Int) (r r' : Run F) (hRI : RI p den ρ Ok evs P t r)
    (hw : WI p p.top r.s) (hv : den r.s.valid ρ = true) (h : timeStep p t r = some r') :
    den r'.s.valid ρ = true ∧ WI p p.top r'.s ∧ (2 ≤ p.limit → r.ok = true → r'.ok = true) := by
  unfold timeStep at h
  cases hp : process p.o t (r.s.ev, r.chg) r.evs with
  | none => rw [hp] at h; simp at h
  | some q =>
    obtain ⟨⟨v, chg⟩, rest⟩ := q
    rw [hp] at h
    simp only [Option.bind_eq_bind, Option.bind_some] at h
    have hev : EvAt p.o evs t v rest := hRI.ev.step (by omega) hp
    have hq := E.quiet t v rest hev
    obtain ⟨a1, a2, a3, a4, a5, a6⟩ := touched_spec H W r.s hRI.ti v chg hq (E.chg t r.s.ev v r.chg chg r.evs rest hRI.ev hp)
    obtain ⟨b1, b2⟩ := touch_valid H W C hne t rest chg { r.s with ev := v } hev hq hw hv
    cases hc : combinational p ((List.range p.nodes).foldl (touch p chg) { r.s with ev := v }) with
    | none => rw [hc] at h; simp at h
    | some q =>
      obtain ⟨u, ok⟩ := q
      rw [hc] at h
      simp only [Option.bind_some, Option.some.injEq] at h
      have hps : PS p den ρ P ((List.range p.nodes).foldl (touch p chg) { r.s with ev := v }) t := by
        intro k hk hd n hn
        rw [a6 k hk hd n hn]; exact hRI.ps k hk hd n hn
      obtain ⟨c1, c2, c3⟩ := comb_valid A H W C hR hne t rest _ u ok a1 (by rw [a2]; exact hev) hps b2 b1 hc
      obtain ⟨d1, d2⟩ := checks_valid (p := p) (List.range p.nodes) u
      subst h
      refine ⟨by dsimp only; rw [d2]; exact c1, ?_, ?_⟩
      · intro r' c hc
        dsimp only at hc
        rw [d1] at hc; exact c2 r' c hc
      · intro h2 h3
        dsimp only
        rw [h3, c3 h2]; rfl

theorem mainLoop_valid {Ok P} {evs : List (Event F)} {level} (A : Acyclic p level) (H : Hyp p den ρ Ok) (W : WFNet p) (C : Closed p den ρ Ok evs P)
    (E : EvOK p evs) (hR : RankOK p.net) (hne : ∀ t n x, P t n x → (x.h || x.l) = true) (n : Nat) (t : Int) (r r' : Run F) (hRI : RI p den ρ Ok evs P t r)
    (hw : WI p p.top r.s) (hv : den r.s.valid ρ = true) (h : mainLoop p n t r = some r') (hl : 2 ≤ p.limit) (hok : r.ok = true) :
    den r'.s.valid ρ = true ∧ r'.ok = true := by
  induction n generalizing t r with
  | zero => simp only [mainLoop, Option.some.injEq] at h; rw [← h]; exact ⟨hv, hok⟩
  | succ n ih =>
    rw [mainLoop] at h
    cases h1 : timeStep p t r with
    | none => rw [h1] at h; simp at h
    | some r1 =>
      rw [h1] at h
      simp only [Option.bind_eq_bind, Option.bind_some] at h
      obtain ⟨a, b, c⟩ := timeStep_valid A H W C E hR hne t r r1 hRI hw hv h1
      have hok1 := c hl hok
      obtain ⟨d1, d2, _⟩ := timeStep_spec H W E t r r1 hRI h1
      obtain ⟨e1, e2⟩ := phase_valid H W C hne t r1.evs r1.s d2 (E.quiet t _ _ d2) d1.inv.hp b a
      exact ih (t + 1) _ (nextTime A H W C E t r r1 hRI h1 hok1) e2 e1 h hok1

/-- Initialisation meets no antecedents. -/
theorem init_valid {Ok P} {evs : List (Event F)} {level} (A : Acyclic p level) (H : Hyp p den ρ Ok) (W : WFNet p) (C : Closed p den ρ Ok evs P)
    (hR : RankOK p.net) (hne : ∀ t n x, P t n x → (x.h || x.l) = true)
    (T : Int) (hT : ∀ t < T, ∃ rest, EvAt p.o evs t (ev0 p.o) rest)
    (n : Nat) (s s' : St F) (ok : Bool) (hI : TI p den ρ Ok s) (he : s.ev = ev0 p.o)
    (hall : ∀ t, t ≤ T → PS p den ρ P s t) (hw : WI p p.top s) (hv : den s.valid ρ = true)
    (h : initLoop p n s = some (s', ok)) :
    den s'.valid ρ = true ∧ WI p p.top s' := by
  induction n generalizing s with
  | zero =>
    simp only [initLoop, Option.some.injEq, Prod.mk.injEq] at h
    rw [← h.1]; exact ⟨hv, hw⟩
  | succ n ih =>
    rw [initLoop] at h
    cases hc : combinational p s with
    | none => rw [hc] at h; simp at h
    | some q =>
      obtain ⟨u, ok2⟩ := q
      rw [hc] at h
      simp only [Option.bind_eq_bind, Option.bind_some] at h
      obtain ⟨rest, hev⟩ := hT (T - 1) (by omega)
      obtain ⟨a1, a2, a3, a4, a5⟩ := comb_spec H W s u ok2 hI hc
      obtain ⟨b1, b2, _⟩ := comb_valid A H W C hR hne (T - 1) rest s u ok2 hI (by rw [he]; exact hev) (hall _ (by omega)) hw hv hc
      cases ok2 with
      | false =>
        simp only [if_true, Option.some.injEq, Prod.mk.injEq] at h
        rw [← h.1]; exact ⟨b1, b2⟩
      | true =>
        simp only [Bool.true_eq_false, if_false] at h
        split at h
        · have hq : Quiet p u.ev := by rw [a2, he]; exact quiet0 p.o
          have hall' : ∀ t, t ≤ T → PS p den ρ P u t := by
            intro t ht k hk hd n hn
            rw [a5 k hk hd n hn]; exact hall t ht k hk hd n hn
          obtain ⟨c1, c2, _, _⟩ := doPhase_spec H W u a1 hq
          obtain ⟨d1, d2⟩ := phase_valid H W C hne (T - 1) rest u (by rw [a2, he]; exact hev) hq a1.inv.hp b2 b1
          refine ih _ c1 (by rw [c2, a2, he]) ?_ d2 d1 h
          intro t ht
          obtain ⟨rest', hev'⟩ := hT (t - 1) (by omega)
          have := phase_P A H W C u (t - 1) rest' a1 (a4 rfl) (by rw [a2, he]; exact hev') hq (hall' (t - 1) (by omega))
          rwa [Int.sub_add_cancel] at this
        · simp only [Option.some.injEq, Prod.mk.injEq] at h
          rw [← h.1]; exact ⟨b1, b2⟩

theorem okOf_true (hE : Exact p.o den) (k : Kind) (items : List (Item F)) : den (okOf p.o k items) ρ = true := by
  unfold okOf
  generalize items.filter (fun i => decide (i.kind = k)) = l
  have key : ∀ (l : List (Item F)) (a : F), den a ρ = true →
      den (l.foldl (fun acc i => p.o.and acc (p.o.or (p.o.or (p.o.not i.cond) i.val) (p.o.or (p.o.not i.cond) (p.o.not i.val)))) a) ρ = true := by
    intro l
    induction l with
    | nil => intro a h; exact h
    | cons i l ih =>
      intro a h
      refine ih _ ?_
      simp only [hE.and, hE.or, hE.not, h]
      cases den i.cond ρ <;> cases den i.val ρ <;> rfl
  exact key l _ (hE.one ρ)

/-- If some execution meets the antecedents, a run with right ranks reports neither a contradiction nor a
failed relaxation. -/
theorem run_valid (hE : Exact p.o den) (hn : ∀ a b, p.neq a b = false → ∀ ρ, den a ρ = den b ρ) (hg : ∀ k ∈ p.net, GoodComp k)
    (W : WFNet p) {level} (A : Acyclic p level) (hR : RankOK p.net) (hl : 2 ≤ p.limit)
    (items : List (Item F)) (evs : List (Event F)) (chg : Nat → Bool) (hS : Sorted p.o items evs) (hF : Fair p items)
    (r : Result F) (h : ste p items evs chg = some (some r)) (ρ : Env)
    (σ : Int → Nat → Bool) (hσ : Execution p.net σ) (ha : Meets den ρ .ant items σ) : r.ok = true ∧ den r.trajOK ρ = true := by
  have H : Hyp p den ρ OkS := hypS hE hn hg
  have C := closedS hE hS hσ ha
  have E := evOK hS hF
  have hne : ∀ t n x, (fun t n x => Admits x (σ t n)) t n x → (x.h || x.l) = true := by
    intro t n x hx
    unfold Admits at hx
    cases hs : σ t n <;> rw [hs] at hx <;> simp at hx <;> simp [hx]
  obtain ⟨s, hs, hr⟩ := ste_some items evs chg r h
  have hst := addAll_fields (p := p) (List.range p.net.length) (st0 p)
  have hinit : ∀ (T : Int), (∀ t < T, ∃ rest, EvAt p.o evs t (ev0 p.o) rest) → den s.valid ρ = true ∧ WI p p.top s := by
    intro T hT
    refine init_valid A H W C hR hne T hT p.limit _ s true (st0_ti H) hst.2.2.2.1 (fun t _ => st0_ps hE W C.bot t) ?_ ?_ hs
    · apply addAll_wi
      · exact fun c _ k hk => W.rank k (List.mem_of_getElem? hk)
      · intro r' c hc; simp [st0] at hc
    · rw [hst.2.2.2.2.1]; exact hE.one ρ
  rcases hr with ⟨rfl, rfl⟩ | ⟨e, l, r', he, hl', hm, rfl⟩
  · exact ⟨rfl, (hinit 0 fun t _ => ⟨[], fun _ => false, rfl⟩).1⟩
  · obtain ⟨a, b⟩ := hinit e.time (fun t ht => ⟨evs, evAt_before p.o evs e he t ht⟩)
    have := mainLoop_valid A H W C E hR hne _ e.time _ r' (init_ri A H W C e he s hs chg) b a hm hl rfl
    exact ⟨this.2, this.1⟩

end Voss.Ste
