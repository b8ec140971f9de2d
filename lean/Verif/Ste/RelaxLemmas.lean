import Verif.Ste.Spec
/-
Lemmas about node updates and relaxation.  Everything is seen under one fixed assignment `ρ`.
-/
namespace Voss.Ste
open Voss.Sim

variable {F Env : Type}

/-- What is assumed of the values and operations, for the relation `Ok` between the inputs and the results of
a component. -/
structure Hyp (p : Par F) (den : F → Env → Bool) (ρ : Env) (Ok : Comp → List (DR Bool) → List (DR Bool) → Prop) : Prop where
  exact : Exact p.o den
  neq : ∀ a b, p.neq a b = false → den a ρ = den b ρ
  ok : ∀ k c inps raw, c ∈ p.net → evalComp p k c inps = some raw →
    Ok c (inps.map (DR.at den ρ)) (raw.map (DR.at den ρ))

section
variable (p : Par F) (den : F → Env → Bool) (ρ : Env)

theorem adjust_at (o : Ops F) (h : Exact o den) (v : Ev F) (n : Nat) (x : DR F) :
    (adjust o v n x).at den ρ = adjB den ρ v n (x.at den ρ) := by
  unfold adjust adjB
  cases v.hasWeak n <;> cases v.hasAnt n <;> simp [DR.at, h.and, h.or]

/-- Flags stand for entries of the wheel. -/
def FW (s : St F) : Prop := ∀ c, s.flag c = true → ∃ k, p.net[c]? = some k ∧ c ∈ s.wheel k.rank

/-- `t` arises from `s` by updating nodes among `N`. -/
structure Ext (N : Nat → Prop) (s t : St F) : Prop where
  mono : ∀ c, s.flag c = true → t.flag c = true
  ev : t.ev = s.ev
  pend : ∀ (c : Nat) (k : Comp), p.net[c]? = some k → t.flag c = false → ∀ n ∈ k.inps, vb den ρ t n = vb den ρ s n
  fw : FW p s → FW p t
  out : ∀ n, ¬ N n → t.cur n = s.cur n

variable {p den ρ}

theorem Ext.refl (N : Nat → Prop) (s : St F) : Ext p den ρ N s s :=
  ⟨fun _ h => h, rfl, fun _ _ _ _ _ _ => rfl, fun h => h, fun _ _ => rfl⟩

theorem Ext.trans {N : Nat → Prop} {s t u : St F} (h1 : Ext p den ρ N s t) (h2 : Ext p den ρ N t u) : Ext p den ρ N s u where
  mono := fun c h => h2.mono c (h1.mono c h)
  ev := h2.ev.trans h1.ev
  pend := by
    intro c k hk hf n hn
    have hf1 : t.flag c = false := by
      cases h : t.flag c
      · rfl
      · rw [h2.mono c h] at hf; exact hf
    rw [h2.pend c k hk hf n hn, h1.pend c k hk hf1 n hn]
  fw := fun h => h2.fw (h1.fw h)
  out := fun n hn => (h2.out n hn).trans (h1.out n hn)

theorem Ext.weaken {N M : Nat → Prop} {s t : St F} (h : Ext p den ρ N s t) (hs : ∀ n, N n → M n) : Ext p den ρ M s t :=
  ⟨h.mono, h.ev, h.pend, h.fw, fun n hn => h.out n (fun h' => hn (hs n h'))⟩

theorem upd_same (f : Nat → α) (i : Nat) (x : α) : upd f i x i = x := by simp [upd]
theorem upd_ne (f : Nat → α) (i j : Nat) (x : α) (h : j ≠ i) : upd f i x j = f j := by simp [upd, h]

/-! ### Fanouts -/

theorem mem_fanouts (net : Net) (n c : Nat) (k : Comp) (hk : net[c]? = some k) (hn : n ∈ k.inps) : c ∈ net.fanouts n := by
  unfold Net.fanouts
  rw [List.mem_reverse, List.mem_filter]
  refine ⟨?_, ?_⟩
  · rw [List.mem_range]
    exact (List.getElem?_eq_some_iff.1 hk).1
  · rw [hk]; simpa using hn

theorem addTodo_fields (s : St F) (c : Nat) :
    (addTodo p s c).cur = s.cur ∧ (addTodo p s c).next = s.next ∧ (addTodo p s c).hasPhase = s.hasPhase ∧
    (addTodo p s c).ev = s.ev ∧ (addTodo p s c).valid = s.valid ∧ (addTodo p s c).check = s.check ∧
    (addTodo p s c).todo = s.todo ∧ (addTodo p s c).steps = s.steps := by
  unfold addTodo
  split
  · simp
  · split <;> simp

theorem addTodo_mono (s : St F) (c d : Nat) (h : s.flag d = true) : (addTodo p s c).flag d = true := by
  unfold addTodo
  split
  · exact h
  · split
    · by_cases e : d = c
      · subst e; exact upd_same _ _ _
      · show upd s.flag c true d = true
        rw [upd_ne _ _ _ _ e, h]
    · exact h

theorem addTodo_flag (s : St F) (c : Nat) (k : Comp) (hk : p.net[c]? = some k) : (addTodo p s c).flag c = true := by
  unfold addTodo
  split
  · assumption
  · rw [hk]; exact upd_same _ _ _

theorem addTodo_fw (s : St F) (c : Nat) (h : FW p s) : FW p (addTodo p s c) := by
  unfold addTodo
  split
  · exact h
  · split
    · rename_i k hk
      intro d hd
      by_cases e : d = c
      · subst e
        exact ⟨k, hk, by simp [upd]⟩
      · have hd' : s.flag d = true := by
          have : upd s.flag c true d = true := hd
          rwa [upd_ne _ _ _ _ e] at this
        obtain ⟨k', hk', hm⟩ := h d hd'
        refine ⟨k', hk', ?_⟩
        show d ∈ upd s.wheel k.rank (c :: s.wheel k.rank) k'.rank
        unfold upd
        split
        · rename_i e2
          rw [← e2]; exact List.mem_cons_of_mem _ hm
        · exact hm
    · exact h

theorem addTodo_wheel (s : St F) (c d r : Nat) (h : d ∈ s.wheel r) : d ∈ (addTodo p s c).wheel r := by
  unfold addTodo
  split
  · exact h
  · split
    · show d ∈ upd s.wheel _ (c :: s.wheel _) r
      unfold upd
      split
      · rename_i e; subst e; exact List.mem_cons_of_mem _ h
      · exact h
    · exact h

theorem addAll_fields (fs : List Nat) (s : St F) :
    let t := fs.foldl (addTodo p) s
    t.cur = s.cur ∧ t.next = s.next ∧ t.hasPhase = s.hasPhase ∧ t.ev = s.ev ∧ t.valid = s.valid ∧ t.check = s.check ∧
    t.todo = s.todo ∧ t.steps = s.steps := by
  induction fs generalizing s with
  | nil => simp
  | cons c fs ih =>
    obtain ⟨a1, a2, a3, a4, a5, a6, a7, a8⟩ := addTodo_fields (p := p) s c
    obtain ⟨b1, b2, b3, b4, b5, b6, b7, b8⟩ := ih (addTodo p s c)
    exact ⟨b1.trans a1, b2.trans a2, b3.trans a3, b4.trans a4, b5.trans a5, b6.trans a6, b7.trans a7, b8.trans a8⟩

theorem addAll_mono (fs : List Nat) (s : St F) (d : Nat) (h : s.flag d = true) : (fs.foldl (addTodo p) s).flag d = true := by
  induction fs generalizing s with
  | nil => exact h
  | cons c fs ih => exact ih _ (addTodo_mono s c d h)

theorem addAll_flag (fs : List Nat) (s : St F) (c : Nat) (k : Comp) (hk : p.net[c]? = some k) (hc : c ∈ fs) :
    (fs.foldl (addTodo p) s).flag c = true := by
  induction fs generalizing s with
  | nil => simp at hc
  | cons d fs ih =>
    rcases List.mem_cons.1 hc with rfl | hc
    · exact addAll_mono fs _ c (addTodo_flag s c k hk)
    · exact ih _ hc

theorem addAll_fw (fs : List Nat) (s : St F) (h : FW p s) : FW p (fs.foldl (addTodo p) s) := by
  induction fs generalizing s with
  | nil => exact h
  | cons c fs ih => exact ih _ (addTodo_fw s c h)

/-! ### Node updates -/

theorem updateNode_fields (s : St F) (n : Nat) (x : DR F) :
    let t := updateNode p s n x
    t.cur = upd s.cur n (adjust p.o s.ev n x) ∧ t.next = s.next ∧ t.hasPhase = s.hasPhase ∧ t.ev = s.ev ∧
    t.valid = (if s.ev.hasAnt n then p.o.and s.valid (p.o.or (adjust p.o s.ev n x).h (adjust p.o s.ev n x).l) else s.valid) ∧
    t.check = s.check ∧ t.steps = s.steps := by
  dsimp only [updateNode]
  split
  · obtain ⟨a1, a2, a3, a4, a5, a6, a7, a8⟩ := addAll_fields (p := p) (p.net.fanouts n)
      { s with cur := upd s.cur n (adjust p.o s.ev n x), valid := if s.ev.hasAnt n then p.o.and s.valid (p.o.or (adjust p.o s.ev n x).h (adjust p.o s.ev n x).l) else s.valid, todo := s.todo + (p.net.fanouts n).length }
    exact ⟨a1, a2, a3, a4, a5, a6, a8⟩
  · simp

theorem updateNode_vb (h : Exact p.o den) (s : St F) (n : Nat) (x : DR F) :
    vb den ρ (updateNode p s n x) n = adjB den ρ s.ev n (x.at den ρ) := by
  unfold vb
  rw [(updateNode_fields s n x).1, upd_same, adjust_at den ρ p.o h]

theorem updateNode_ext {Ok} (H : Hyp p den ρ Ok) (s : St F) (n : Nat) (x : DR F) :
    Ext p den ρ (fun m => m = n) s (updateNode p s n x) := by
  have hf := updateNode_fields (p := p) s n x
  refine ⟨?_, hf.2.2.2.1, ?_, ?_, ?_⟩
  · intro c hc
    dsimp only [updateNode]
    split
    · exact addAll_mono _ _ _ hc
    · exact hc
  · intro c k hk hfl m hm
    by_cases e : m = n
    · subst e
      dsimp only [updateNode] at hfl
      split at hfl
      · rw [addAll_flag _ _ c k hk (mem_fanouts _ _ _ _ hk hm)] at hfl
        exact absurd hfl (by simp)
      · rename_i hne
        simp only [Bool.or_eq_true, not_or, Bool.not_eq_true] at hne
        unfold vb
        rw [hf.1, upd_same]
        simp only [DR.at]
        rw [H.neq _ _ hne.1, H.neq _ _ hne.2]
    · unfold vb
      rw [hf.1, upd_ne _ _ _ _ e]
  · intro h
    dsimp only [updateNode]
    split
    · exact addAll_fw _ _ h
    · exact h
  · intro m hm
    rw [hf.1, upd_ne _ _ _ _ hm]

/-- A sequence of updates of different nodes. -/
theorem updates_spec {Ok} (H : Hyp p den ρ Ok) (zs : List (Nat × DR F)) (hn : (zs.map Prod.fst).Nodup) (s : St F) :
    let t := zs.foldl (fun s q => updateNode p s q.1 q.2) s
    Ext p den ρ (fun m => m ∈ zs.map Prod.fst) s t ∧ t.next = s.next ∧ t.hasPhase = s.hasPhase ∧ t.check = s.check ∧ t.steps = s.steps ∧
    ∀ q ∈ zs, vb den ρ t q.1 = adjB den ρ s.ev q.1 (q.2.at den ρ) := by
  induction zs generalizing s with
  | nil => exact ⟨Ext.refl _ _, rfl, rfl, rfl, rfl, by simp⟩
  | cons z zs ih =>
    rw [List.map_cons, List.nodup_cons] at hn
    have h1 := updateNode_ext H s z.1 z.2
    have hf := updateNode_fields (p := p) s z.1 z.2
    obtain ⟨i1, i2, i3, i4, i5, i6⟩ := ih hn.2 (updateNode p s z.1 z.2)
    simp only [List.foldl_cons]
    refine ⟨?_, i2.trans hf.2.1, i3.trans hf.2.2.1, i4.trans hf.2.2.2.2.2.1, i5.trans hf.2.2.2.2.2.2, ?_⟩
    · exact (h1.weaken (fun m hm => by subst hm; simp)).trans (i1.weaken (fun m hm => by simp only [List.map_cons, List.mem_cons]; exact Or.inr hm))
    · intro q hq
      rcases List.mem_cons.1 hq with rfl | hq
      · show (_ : DR F).at den ρ = _
        rw [i1.out q.1 hn.1]
        exact updateNode_vb H.exact s q.1 q.2
      · rw [i6 q hq, hf.2.2.2.1]

/-! ### The invariant -/

variable (p den ρ) in
/-- The outputs of a component agree with its current inputs. -/
def Settled (Ok : Comp → List (DR Bool) → List (DR Bool) → Prop) (s : St F) (k : Comp) : Prop :=
  ∃ raw : List (DR Bool), Ok k (k.inps.map (vb den ρ s)) raw ∧ raw.length = k.outs.length ∧
    ∀ q ∈ k.outs.zip raw,
      if k.delay then (if s.hasPhase q.1 then (s.next q.1).at den ρ else vb den ρ s q.1) = q.2
      else vb den ρ s q.1 = adjB den ρ s.ev q.1 q.2

variable (p den ρ) in
/-- Every component that is not waiting is settled, except those in `X`. -/
def JX (Ok : Comp → List (DR Bool) → List (DR Bool) → Prop) (X : Nat → Prop) (s : St F) : Prop :=
  ∀ c k, p.net[c]? = some k → ¬ X c → s.flag c = false → Settled den ρ Ok s k

variable (p) in
/-- Zero-delay outputs: the nodes relaxation may change. -/
def ZOut (n : Nat) : Prop := ∃ k ∈ p.net, k.delay = false ∧ n ∈ k.outs

variable (p) in
/-- Pending phase events are on outputs of components with a delay. -/
def HP (s : St F) : Prop := ∀ n, s.hasPhase n = true → ∃ k ∈ p.net, k.delay = true ∧ n ∈ k.outs

theorem zip_mem_fst {as : List α} {bs : List β} {q : α × β} (h : q ∈ as.zip bs) : q.1 ∈ as :=
  (List.of_mem_zip (a := q.1) (b := q.2) h).1

theorem zip_map_at (outs : List Nat) (raw : List (DR F)) (q : Nat × DR Bool)
    (hq : q ∈ outs.zip (raw.map (DR.at den ρ))) : ∃ d, (q.1, d) ∈ outs.zip raw ∧ d.at den ρ = q.2 := by
  rw [List.zip_map_right, List.mem_map] at hq
  obtain ⟨⟨a, b⟩, h1, h2⟩ := hq
  exact ⟨b, by rw [← h2]; exact h1, by rw [← h2]; rfl⟩

theorem zip_fst_nodup {outs : List Nat} (raw : List β) (h : outs.Nodup) : ((outs.zip raw).map Prod.fst).Nodup := by
  refine h.sublist ?_
  clear h
  induction outs generalizing raw with
  | nil => simp
  | cons a as ih =>
    cases raw with
    | nil => simp
    | cons b bs => exact (ih bs).cons₂ a

/-- Storing results for the next phase. -/
theorem storeNext_spec (zs : List (Nat × DR F)) (hn : (zs.map Prod.fst).Nodup) (s : St F) :
    let t := zs.foldl storeNext s
    t.cur = s.cur ∧ t.ev = s.ev ∧ t.flag = s.flag ∧ t.wheel = s.wheel ∧ t.check = s.check ∧ t.valid = s.valid ∧
    (∀ q ∈ zs, t.hasPhase q.1 = true ∧ t.next q.1 = q.2) ∧
    (∀ n, n ∉ zs.map Prod.fst → t.hasPhase n = s.hasPhase n ∧ t.next n = s.next n) ∧
    t.steps = s.steps := by
  induction zs generalizing s with
  | nil => simp
  | cons z zs ih =>
    rw [List.map_cons, List.nodup_cons] at hn
    obtain ⟨i1, i2, i3, i4, i5, i5', i6, i7, i8⟩ := ih hn.2 (storeNext s z)
    simp only [List.foldl_cons]
    refine ⟨i1, i2, i3, i4, i5, i5', ?_, ?_, i8⟩
    · intro q hq
      rcases List.mem_cons.1 hq with rfl | hq
      · obtain ⟨j1, j2⟩ := i7 q.1 hn.1
        rw [j1, j2]
        simp [storeNext, upd]
      · exact i6 q hq
    · intro n hnn
      simp only [List.map_cons, List.mem_cons, not_or] at hnn
      obtain ⟨j1, j2⟩ := i7 n hnn.2
      rw [j1, j2]
      simp [storeNext, upd, hnn.1]

theorem settled_congr {Ok} {s t : St F} {k : Comp} (h : Settled den ρ Ok s k)
    (hi : ∀ n ∈ k.inps, vb den ρ t n = vb den ρ s n) (ho : ∀ n ∈ k.outs, vb den ρ t n = vb den ρ s n)
    (hp : ∀ n ∈ k.outs, t.hasPhase n = s.hasPhase n ∧ t.next n = s.next n) (he : t.ev = s.ev) : Settled den ρ Ok t k := by
  obtain ⟨raw, h1, h2, h3⟩ := h
  refine ⟨raw, ?_, h2, ?_⟩
  · rw [List.map_congr_left hi]; exact h1
  · intro q hq
    have hm := zip_mem_fst hq
    have := h3 q hq
    rw [(hp q.1 hm).1, (hp q.1 hm).2, ho q.1 hm, he]
    exact this

/-- One evaluation keeps the invariant. -/
theorem doOp_spec {Ok} (H : Hyp p den ρ Ok) (W : WFNet p) (s t : St F) (c : Nat) (hJ : JX p den ρ Ok (fun d => d = c) s)
    (h : doOp p s c = some t) :
    JX p den ρ Ok (fun _ => False) t ∧ (FW p s → FW p t) ∧ (∀ n, ¬ ZOut p n → t.cur n = s.cur n) ∧ t.ev = s.ev ∧
    (HP p s → HP p t) ∧ t.check = s.check := by
  unfold doOp at h
  cases hk : p.net[c]? with
  | none => rw [hk] at h; simp at h
  | some k =>
    have hmem : k ∈ p.net := List.mem_of_getElem? hk
    rw [hk] at h
    simp only [Option.bind_eq_bind, Option.bind_some] at h
    cases hr : evalComp p s.steps k (k.inps.map s.cur) with
    | none => rw [hr] at h; simp at h
    | some raw =>
      rw [hr] at h
      simp only [Option.bind_some] at h
      have hok : Ok k (k.inps.map (vb den ρ s)) (raw.map (DR.at den ρ)) := by
        have := H.ok s.steps k _ raw hmem hr
        rwa [List.map_map] at this
      split at h
      · simp at h
      · rename_i hlen
        have hlen : raw.length = k.outs.length := Decidable.of_not_not hlen
        cases hd : k.delay with
        | true =>
          rw [hd] at h
          simp only [if_true, Option.some.injEq] at h
          obtain ⟨a1, a2, a3, a4, a5, _, a6, a7, a8⟩ := storeNext_spec (k.outs.zip raw) (zip_fst_nodup raw (W.nodup k hmem)) { s with steps := s.steps + 1 }
          rw [h] at a1 a2 a3 a4 a5 a6 a7 a8
          have hv : ∀ n, vb den ρ t n = vb den ρ s n := by intro n; unfold vb; rw [a1]
          refine ⟨?_, ?_, fun n _ => by rw [a1], a2, ?_, a5⟩
          · intro d k' hk' _ hf
            by_cases e : d = c
            · subst e
              rw [hk] at hk'
              cases hk'
              refine ⟨raw.map (DR.at den ρ), ?_, by simpa using hlen, ?_⟩
              · rw [List.map_congr_left fun n _ => hv n]; exact hok
              · intro q hq
                obtain ⟨d, hq1, hq2⟩ := zip_map_at k.outs raw q hq
                obtain ⟨b1, b2⟩ := a6 _ hq1
                rw [hd]
                simp only [if_true]
                rw [b1, b2]
                simpa using hq2
            · have hs : Settled den ρ Ok s k' := hJ d k' hk' e (by rw [a3] at hf; exact hf)
              refine settled_congr hs (fun n _ => hv n) (fun n _ => hv n) ?_ a2
              intro n hn
              have : n ∉ k.outs := W.disj d c k' k hk' hk e n hn
              exact a7 n (fun hm => by
                obtain ⟨q, hq, rfl⟩ := List.mem_map.1 hm
                exact this (zip_mem_fst hq))
          · intro hfw d hfd
            rw [a3] at hfd
            obtain ⟨k', h1, h2⟩ := hfw d hfd
            exact ⟨k', h1, by rw [a4]; exact h2⟩
          · intro hp n hn
            by_cases hm : n ∈ (k.outs.zip raw).map Prod.fst
            · obtain ⟨q, hq, rfl⟩ := List.mem_map.1 hm
              exact ⟨k, hmem, hd, zip_mem_fst hq⟩
            · rw [(a7 n hm).1] at hn
              exact hp n hn
        | false =>
          rw [hd] at h
          simp only [Bool.false_eq_true, if_false, Option.some.injEq] at h
          obtain ⟨a1, a2, a3, a4, a5, a6⟩ := updates_spec (p := p) (den := den) (ρ := ρ) H (k.outs.zip raw) (zip_fst_nodup raw (W.nodup k hmem)) { s with steps := s.steps + 1 }
          rw [h] at a1 a2 a3 a4 a5 a6
          have hmf : ∀ n, n ∈ (k.outs.zip raw).map Prod.fst → n ∈ k.outs := by
            intro n hm
            obtain ⟨q, hq, rfl⟩ := List.mem_map.1 hm
            exact zip_mem_fst hq
          refine ⟨?_, fun hfw => a1.fw hfw, ?_, a1.ev, ?_, a4⟩
          · intro d k' hk' _ hf
            by_cases e : d = c
            · subst e
              rw [hk] at hk'
              cases hk'
              refine ⟨raw.map (DR.at den ρ), ?_, by simpa using hlen, ?_⟩
              · rw [List.map_congr_left (a1.pend d k hk hf)]; exact hok
              · intro q hq
                obtain ⟨d', hq1, hq2⟩ := zip_map_at k.outs raw q hq
                rw [hd]
                simp only [Bool.false_eq_true, if_false]
                rw [a6 _ hq1, a1.ev, hq2]
            · have hf0 : s.flag d = false := by
                cases h' : s.flag d
                · rfl
                · rw [a1.mono d h'] at hf; exact hf
              have hs : Settled den ρ Ok s k' := hJ d k' hk' e hf0
              refine settled_congr hs (fun n hn => a1.pend d k' hk' hf n hn) ?_ (fun n _ => by rw [a2, a3]; exact ⟨rfl, rfl⟩) a1.ev
              intro n hn
              have : n ∉ k.outs := W.disj d c k' k hk' hk e n hn
              unfold vb
              rw [a1.out n (fun hm => this (hmf n hm))]
          · intro n hn
            rw [a1.out n (fun hm => hn ⟨k, hmem, hd, hmf n hm⟩)]
          · intro hp n hn
            rw [a3] at hn
            exact hp n hn

variable (p den ρ) in
/-- The invariant of relaxation. -/
structure Inv (Ok : Comp → List (DR Bool) → List (DR Bool) → Prop) (s : St F) : Prop where
  j : JX p den ρ Ok (fun _ => False) s
  fw : FW p s
  hp : HP p s

theorem pass_spec {Ok} (H : Hyp p den ρ Ok) (W : WFNet p) (f r : Nat) (s t : St F) (seen seen' : Bool)
    (hI : Inv p den ρ Ok s) (h : pass p f r s seen = some (t, seen')) :
    Inv p den ρ Ok t ∧ (∀ n, ¬ ZOut p n → t.cur n = s.cur n) ∧ t.ev = s.ev ∧ t.check = s.check ∧
    (seen' = false → seen = false ∧ t = s ∧ ∀ r' < r, s.wheel r' = []) := by
  induction f generalizing r s seen with
  | zero => simp [pass] at h
  | succ f ih =>
    cases r with
    | zero =>
      simp only [pass, Option.some.injEq, Prod.mk.injEq] at h
      obtain ⟨rfl, rfl⟩ := h
      exact ⟨hI, fun _ _ => rfl, rfl, rfl, fun h => ⟨h, rfl, by omega⟩⟩
    | succ r =>
      rw [pass] at h
      cases hw : s.wheel r with
      | nil =>
        rw [hw] at h
        obtain ⟨i1, i2, i3, i3', i4⟩ := ih r s seen hI h
        refine ⟨i1, i2, i3, i3', fun hs => ?_⟩
        obtain ⟨j1, j2, j3⟩ := i4 hs
        refine ⟨j1, j2, fun r' hr' => ?_⟩
        rcases Nat.lt_or_ge r' r with h' | h'
        · exact j3 r' h'
        · have : r' = r := by omega
          subst this; exact hw
      | cons c cs =>
        rw [hw] at h
        simp only at h
        cases hd : doOp p { s with wheel := upd s.wheel r cs, flag := upd s.flag c false } c with
        | none => rw [hd] at h; simp at h
        | some u =>
          rw [hd] at h
          simp only [Option.bind_eq_bind, Option.bind_some] at h
          have hJ : JX p den ρ Ok (fun d => d = c) { s with wheel := upd s.wheel r cs, flag := upd s.flag c false } := by
            intro d k hk hd' hf
            have : s.flag d = false := by
              have h' : upd s.flag c false d = false := hf
              rwa [upd_ne _ _ _ _ hd'] at h'
            exact hI.j d k hk (fun h => h) this
          have hFW : FW p { s with wheel := upd s.wheel r cs, flag := upd s.flag c false } := by
            intro d hf
            have hdc : d ≠ c := by
              rintro rfl
              have : upd s.flag d false d = true := hf
              rw [upd_same] at this
              exact absurd this (by simp)
            have hfd : s.flag d = true := by
              have h' : upd s.flag c false d = true := hf
              rwa [upd_ne _ _ _ _ hdc] at h'
            obtain ⟨k, hk, hm⟩ := hI.fw d hfd
            refine ⟨k, hk, ?_⟩
            show d ∈ upd s.wheel r cs k.rank
            unfold upd
            split
            · rename_i e
              rw [e, hw] at hm
              rcases List.mem_cons.1 hm with h' | h'
              · exact absurd h' hdc
              · exact h'
            · exact hm
          obtain ⟨a1, a2, a3, a4, a5, a6⟩ := doOp_spec H W _ u c hJ hd
          obtain ⟨i1, i2, i3, i3', i4⟩ := ih (r + 1) u true ⟨a1, a2 hFW, a5 hI.hp⟩ h
          refine ⟨i1, fun n hn => (i2 n hn).trans (a3 n hn), i3.trans a4, i3'.trans a6, fun hs => ?_⟩
          exact absurd (i4 hs).1 (by simp)

/-- A successful relaxation leaves nothing waiting. -/
theorem relax_spec {Ok} (H : Hyp p den ρ Ok) (W : WFNet p) (n : Nat) (s t : St F) (ok : Bool)
    (hI : Inv p den ρ Ok s) (h : relax p n s = some (t, ok)) :
    Inv p den ρ Ok t ∧ (∀ n, ¬ ZOut p n → t.cur n = s.cur n) ∧ t.ev = s.ev ∧ t.check = s.check ∧ (ok = true → ∀ c, t.flag c = false) := by
  induction n generalizing s with
  | zero =>
    simp only [relax, Option.some.injEq, Prod.mk.injEq] at h
    obtain ⟨rfl, rfl⟩ := h
    exact ⟨hI, fun _ _ => rfl, rfl, rfl, by simp⟩
  | succ n ih =>
    rw [relax] at h
    cases hp : pass p p.fuel p.top s false with
    | none => rw [hp] at h; simp at h
    | some q =>
      obtain ⟨u, seen⟩ := q
      rw [hp] at h
      simp only [Option.bind_eq_bind, Option.bind_some] at h
      obtain ⟨a1, a2, a3, a4, a5⟩ := pass_spec H W _ _ _ _ _ _ hI hp
      cases seen with
      | true =>
        simp only [if_true] at h
        obtain ⟨b1, b2, b3, b4, b5⟩ := ih u a1 h
        exact ⟨b1, fun n hn => (b2 n hn).trans (a2 n hn), b3.trans a3, b4.trans a4, b5⟩
      | false =>
        simp only [Bool.false_eq_true, if_false, Option.some.injEq, Prod.mk.injEq] at h
        obtain ⟨rfl, rfl⟩ := h
        refine ⟨a1, a2, a3, a4, fun _ c => ?_⟩
        obtain ⟨_, rfl, he⟩ := a5 rfl
        cases hf : u.flag c with
        | false => rfl
        | true =>
          obtain ⟨k, hk, hm⟩ := hI.fw c hf
          rw [he k.rank (W.rank k (List.mem_of_getElem? hk))] at hm
          simp at hm

end
end Voss.Ste
