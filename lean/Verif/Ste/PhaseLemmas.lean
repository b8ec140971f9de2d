import Verif.Ste.RelaxLemmas
/-
Lemmas about phases, changed nodes and the state between time units.
-/
namespace Voss.Ste
open Voss.Sim

variable {F Env : Type} {p : Par F} {den : F → Env → Bool} {ρ : Env}

/-! ### Drivers -/

theorem driver_some (W : WFNet p) (n c : Nat) (k : Comp) (hk : p.net[c]? = some k) (hn : n ∈ k.outs) :
    p.net.driver n = some c := by
  have hfil : ∀ d, d ∈ ((List.range p.net.length).filter fun c => match p.net[c]? with
    | some k => k.outs.contains n
    | none => false) ↔ d = c := by
    intro d
    rw [List.mem_filter, List.mem_range]
    constructor
    · rintro ⟨h1, h2⟩
      obtain ⟨k', hk'⟩ : ∃ k', p.net[d]? = some k' := ⟨_, List.getElem?_eq_getElem h1⟩
      rw [hk'] at h2
      have h3 : n ∈ k'.outs := by simpa using h2
      apply Decidable.byContradiction
      intro hne
      exact W.disj d c k' k hk' hk hne n h3 hn
    · rintro rfl
      refine ⟨(List.getElem?_eq_some_iff.1 hk).1, ?_⟩
      rw [hk]; simpa using hn
  unfold Net.driver
  generalize ((List.range p.net.length).filter fun c => match p.net[c]? with
    | some k => k.outs.contains n
    | none => false) = l at hfil
  cases hl : l.getLast? with
  | none =>
    rw [List.getLast?_eq_none_iff] at hl
    subst hl
    exact absurd ((hfil c).2 rfl) (by simp)
  | some d =>
    rw [(hfil d).1 (List.mem_of_getLast? hl)]

theorem driver_spec (n c : Nat) (h : p.net.driver n = some c) : ∃ k, p.net[c]? = some k ∧ n ∈ k.outs := by
  unfold Net.driver at h
  have := List.mem_of_getLast? h
  rw [List.mem_filter] at this
  cases hk : p.net[c]? with
  | none => rw [hk] at this; simp at this
  | some k =>
    rw [hk] at this
    exact ⟨k, rfl, by simpa using this.2⟩

/-! ### Phases -/

theorem phase1_cases (s : St F) (n : Nat) :
    (3 < n ∧ p.net.driver n = none ∧ phase1 p s n = updateNode p s n (unknown p)) ∨
    (¬ (3 < n ∧ p.net.driver n = none) ∧ s.hasPhase n = true ∧
      phase1 p s n = updateNode p { s with hasPhase := upd s.hasPhase n false } n (s.next n)) ∨
    (¬ (3 < n ∧ p.net.driver n = none) ∧ s.hasPhase n = false ∧ phase1 p s n = s) := by
  unfold phase1
  split
  · rename_i h; exact Or.inl ⟨h.1, h.2, rfl⟩
  · rename_i h
    cases hp : s.hasPhase n
    · exact Or.inr (Or.inr ⟨h, rfl, by simp⟩)
    · exact Or.inr (Or.inl ⟨h, rfl, by simp⟩)

theorem unknown_at (h : Exact p.o den) : (unknown p).at den ρ = ⟨true, true⟩ := by
  simp [unknown, DR.at, h.one]

theorem hasPhase_ext {N : Nat → Prop} (s : St F) (hp : Nat → Bool) (t : St F)
    (h : Ext p den ρ N { s with hasPhase := hp } t) : Ext p den ρ N s t :=
  ⟨h.mono, h.ev, h.pend, h.fw, h.out⟩

theorem phases_spec {Ok} (H : Hyp p den ρ Ok) (ns : List Nat) (hn : ns.Nodup) (s : St F) :
    let t := ns.foldl (phase1 p) s
    Ext p den ρ (fun m => m ∈ ns ∧ ((3 < m ∧ p.net.driver m = none) ∨ s.hasPhase m = true)) s t ∧
    t.next = s.next ∧ t.check = s.check ∧
    (∀ n, n ∉ ns → t.hasPhase n = s.hasPhase n) ∧
    (∀ n ∈ ns, ¬ (3 < n ∧ p.net.driver n = none) → t.hasPhase n = false) ∧
    (∀ n, s.hasPhase n = false → t.hasPhase n = false) ∧
    (∀ n ∈ ns, 3 < n → p.net.driver n = none → vb den ρ t n = adjB den ρ s.ev n ⟨true, true⟩) ∧
    (∀ n ∈ ns, ¬ (3 < n ∧ p.net.driver n = none) → s.hasPhase n = true →
      vb den ρ t n = adjB den ρ s.ev n ((s.next n).at den ρ)) := by
  induction ns generalizing s with
  | nil => exact ⟨Ext.refl _ _, rfl, rfl, by simp, by simp, fun _ h => h, by simp, by simp⟩
  | cons m ns ih =>
    rw [List.nodup_cons] at hn
    have key : ∃ x hp, Ext p den ρ (fun a => a = m ∧ ((3 < m ∧ p.net.driver m = none) ∨ s.hasPhase m = true)) s (phase1 p s m) ∧
        (phase1 p s m).next = s.next ∧ (phase1 p s m).check = s.check ∧ (phase1 p s m).hasPhase = hp ∧
        (∀ n, n ≠ m → hp n = s.hasPhase n) ∧ (¬ (3 < m ∧ p.net.driver m = none) → hp m = false) ∧
        (s.hasPhase m = false → hp m = false) ∧
        vb den ρ (phase1 p s m) m = x ∧
        (3 < m → p.net.driver m = none → x = adjB den ρ s.ev m ⟨true, true⟩) ∧
        (¬ (3 < m ∧ p.net.driver m = none) → s.hasPhase m = true → x = adjB den ρ s.ev m ((s.next m).at den ρ)) := by
      rcases phase1_cases (p := p) s m with ⟨h1, h2, e⟩ | ⟨h1, h2, e⟩ | ⟨h1, h2, e⟩
      · have hf := updateNode_fields (p := p) s m (unknown p)
        rw [e]
        refine ⟨adjB den ρ s.ev m ⟨true, true⟩, s.hasPhase, ?_, hf.2.1, hf.2.2.2.2.2.1, hf.2.2.1, fun _ _ => rfl, ?_, fun h => h, ?_, fun _ _ => rfl, ?_⟩
        · exact (updateNode_ext H s m (unknown p)).weaken fun a ha => ⟨ha, Or.inl ⟨h1, h2⟩⟩
        · intro h; exact absurd ⟨h1, h2⟩ h
        · rw [updateNode_vb H.exact, unknown_at H.exact]
        · intro h; exact absurd ⟨h1, h2⟩ h
      · have hf := updateNode_fields (p := p) { s with hasPhase := upd s.hasPhase m false } m (s.next m)
        rw [e]
        refine ⟨adjB den ρ s.ev m ((s.next m).at den ρ), upd s.hasPhase m false, ?_, hf.2.1, hf.2.2.2.2.2.1, hf.2.2.1, fun n hn => upd_ne _ _ _ _ hn, fun _ => upd_same _ _ _, fun _ => upd_same _ _ _, ?_, ?_, fun _ _ => rfl⟩
        · exact hasPhase_ext s _ _ ((updateNode_ext H { s with hasPhase := upd s.hasPhase m false } m (s.next m)).weaken fun a ha => ⟨ha, Or.inr h2⟩)
        · rw [updateNode_vb H.exact]
        · intro a b; exact absurd ⟨a, b⟩ h1
      · rw [e]
        refine ⟨vb den ρ s m, s.hasPhase, Ext.refl _ _, rfl, rfl, rfl, fun _ _ => rfl, fun _ => h2, fun h => h, rfl, ?_, ?_⟩
        · intro a b; exact absurd ⟨a, b⟩ h1
        · intro _ h; rw [h2] at h; exact absurd h (by simp)
    obtain ⟨x, hp, k1, k2, k3, k4, k5, k6, k6', k7, k8, k9⟩ := key
    obtain ⟨i1, i2, i3, i4, i5, i5', i6, i7⟩ := ih hn.2 (phase1 p s m)
    simp only [List.foldl_cons]
    have hout : ∀ n, n ∉ ns → (ns.foldl (phase1 p) (phase1 p s m)).cur n = (phase1 p s m).cur n :=
      fun n h => i1.out n (fun h' => h h'.1)
    have hne : ∀ n ∈ ns, n ≠ m := fun n h e => hn.1 (e ▸ h)
    refine ⟨?_, i2.trans k2, i3.trans k3, ?_, ?_, ?_, ?_, ?_⟩
    · refine (k1.weaken ?_).trans (i1.weaken ?_)
      · rintro a ⟨rfl, h⟩; exact ⟨by simp, h⟩
      · rintro a ⟨h1, h2⟩
        refine ⟨List.mem_cons_of_mem _ h1, ?_⟩
        rw [k4, k5 a (hne a h1)] at h2
        exact h2
    · intro n h
      simp only [List.mem_cons, not_or] at h
      rw [i4 n h.2, k4, k5 n h.1]
    · intro n h hi
      rcases List.mem_cons.1 h with rfl | h
      · rw [i4 n hn.1, k4, k6 hi]
      · exact i5 n h hi
    · intro n h
      apply i5'
      rw [k4]
      by_cases e : n = m
      · subst e; exact k6' h
      · rw [k5 n e, h]
    · intro n h a b
      rcases List.mem_cons.1 h with rfl | h
      · show (_ : DR F).at den ρ = _
        rw [hout n hn.1]
        rw [← k8 a b, ← k7]; rfl
      · rw [i6 n h a b, k1.ev]
    · intro n h a b
      rcases List.mem_cons.1 h with rfl | h
      · show (_ : DR F).at den ρ = _
        rw [hout n hn.1]
        rw [← k9 a b, ← k7]; rfl
      · rw [i7 n h a (by rw [k4, k5 n (hne n h)]; exact b), k1.ev, k2]

variable (p) in
/-- No weakening or antecedent on the outputs of delay components or on the built-in constants. -/
def Quiet (v : Ev F) : Prop :=
  (∀ k ∈ p.net, k.delay = true → ∀ n ∈ k.outs, v.hasWeak n = false ∧ v.hasAnt n = false) ∧
  ∀ n ≤ 3, v.hasWeak n = false ∧ v.hasAnt n = false

theorem adjB_quiet (v : Ev F) (n : Nat) (x : DR Bool) (h : v.hasWeak n = false ∧ v.hasAnt n = false) : adjB den ρ v n x = x := by
  unfold adjB; simp [h.1, h.2]

/-- The built-in constants. -/
def constB (n : Nat) : DR Bool :=
  if n = 0 then ⟨false, true⟩ else if n = 1 then ⟨true, false⟩ else if n = 3 then ⟨false, false⟩ else ⟨true, true⟩

variable (p den ρ) in
/-- The invariant between the steps of a run. -/
structure TI (Ok : Comp → List (DR Bool) → List (DR Bool) → Prop) (s : St F) : Prop where
  inv : Inv p den ρ Ok s
  inp : ∀ n, 3 < n → n < p.nodes → p.net.driver n = none → vb den ρ s n = adjB den ρ s.ev n ⟨true, true⟩
  con : ∀ n ≤ 3, vb den ρ s n = constB n ∨ vb den ρ s n = ⟨true, true⟩

theorem hp_not_zero (W : WFNet p) (s : St F) (h : HP p s) (c : Nat) (k : Comp) (hk : p.net[c]? = some k) (hd : k.delay = false)
    (n : Nat) (hn : n ∈ k.outs) : s.hasPhase n = false := by
  cases hh : s.hasPhase n with
  | false => rfl
  | true =>
    obtain ⟨k', hk', hd', hn'⟩ := h n hh
    obtain ⟨c', hc'⟩ := List.getElem?_of_mem hk'
    by_cases e : c' = c
    · subst e; rw [hk] at hc'; cases hc'; rw [hd] at hd'; exact absurd hd' (by simp)
    · exact absurd hn (W.disj c' c k' k hc' hk e n hn')

/-- A phase: inputs become unknown, delayed results arrive. -/
theorem doPhase_spec {Ok} (H : Hyp p den ρ Ok) (W : WFNet p) (s : St F) (hI : TI p den ρ Ok s) (hq : Quiet p s.ev) :
    TI p den ρ Ok (doPhase p s) ∧ (doPhase p s).ev = s.ev ∧ (doPhase p s).check = s.check ∧
    (∀ k ∈ p.net, k.delay = true → ∀ n ∈ k.outs,
      vb den ρ (doPhase p s) n = if s.hasPhase n then (s.next n).at den ρ else vb den ρ s n) := by
  obtain ⟨a1, a2, a3, a4, a5, a5', a6, a7⟩ := phases_spec (p := p) (den := den) (ρ := ρ) H (List.range p.nodes) List.nodup_range s
  have ht : (List.range p.nodes).foldl (phase1 p) s = doPhase p s := rfl
  rw [ht] at a1 a2 a3 a4 a5 a5' a6 a7
  have hdel : ∀ k ∈ p.net, k.delay = true → ∀ n ∈ k.outs,
      vb den ρ (doPhase p s) n = if s.hasPhase n then (s.next n).at den ρ else vb den ρ s n := by
    intro k hk hd n hn
    obtain ⟨c, hc⟩ := List.getElem?_of_mem hk
    have hdr := driver_some W n c k hc hn
    have hni : ¬ (3 < n ∧ p.net.driver n = none) := by rw [hdr]; simp
    cases hh : s.hasPhase n with
    | true =>
      rw [a7 n (List.mem_range.2 (W.outs k hk n hn).2) hni hh]
      simp only [if_true]
      exact adjB_quiet _ _ _ (hq.1 k hk hd n hn)
    | false =>
      simp only [Bool.false_eq_true, if_false]
      unfold vb
      rw [a1.out n]
      rintro ⟨_, h | h⟩
      · exact hni h
      · rw [hh] at h; exact absurd h (by simp)
  refine ⟨⟨⟨?_, a1.fw hI.inv.fw, ?_⟩, ?_, ?_⟩, a1.ev, a3, hdel⟩
  · intro c k hk _ hf
    have hmem := List.mem_of_getElem? hk
    have hf0 : s.flag c = false := by
      cases h' : s.flag c
      · rfl
      · rw [a1.mono c h'] at hf; exact hf
    obtain ⟨raw, h1, h2, h3⟩ := hI.inv.j c k hk (fun h => h) hf0
    refine ⟨raw, ?_, h2, ?_⟩
    · rw [List.map_congr_left (a1.pend c k hk hf)]; exact h1
    · intro q hqz
      have hm := zip_mem_fst hqz
      have hdr := driver_some W q.1 c k hk hm
      have hni : ¬ (3 < q.1 ∧ p.net.driver q.1 = none) := by rw [hdr]; simp
      have := h3 q hqz
      cases hd : k.delay with
      | true =>
        rw [hd] at this
        simp only [if_true] at this ⊢
        rw [a5 q.1 (List.mem_range.2 (W.outs k hmem q.1 hm).2) hni]
        simp only [Bool.false_eq_true, if_false]
        rw [hdel k hmem hd q.1 hm]
        exact this
      | false =>
        rw [hd] at this
        simp only [Bool.false_eq_true, if_false] at this ⊢
        have hph := hp_not_zero W s hI.inv.hp c k hk hd q.1 hm
        unfold vb at this ⊢
        rw [a1.ev, a1.out q.1, this]
        rintro ⟨_, h | h⟩
        · exact hni h
        · rw [hph] at h; exact absurd h (by simp)
  · intro n hn
    apply hI.inv.hp n
    cases hh : s.hasPhase n with
    | true => rfl
    | false => rw [a5' n hh] at hn; exact hn
  · intro n h1 h2 h3
    rw [a6 n (List.mem_range.2 h2) h1 h3, a1.ev]
  · intro n hn
    have : (doPhase p s).cur n = s.cur n := by
      apply a1.out
      rintro ⟨_, h | h⟩
      · omega
      · obtain ⟨k, hk, _, hk2⟩ := hI.inv.hp n h
        have := (W.outs k hk n hk2).1
        omega
    unfold vb
    rw [this]
    exact hI.con n hn

/-! ### Changed nodes -/

theorem touch_spec {Ok} (H : Hyp p den ρ Ok) (chg : Nat → Bool) (ns : List Nat) (hn : ns.Nodup) (s : St F) :
    let t := ns.foldl (touch p chg) s
    Ext p den ρ (fun m => m ∈ ns ∧ chg m = true ∧ p.net.driver m = none) s t ∧ t.next = s.next ∧ t.hasPhase = s.hasPhase ∧ t.check = s.check ∧
    (∀ n ∈ ns, chg n = true → p.net.driver n = none → vb den ρ t n = adjB den ρ s.ev n ⟨true, true⟩) ∧
    (∀ n ∈ ns, chg n = true → ∀ c, p.net.driver n = some c → t.flag c = true) := by
  induction ns generalizing s with
  | nil => exact ⟨Ext.refl _ _, rfl, rfl, rfl, by simp, by simp⟩
  | cons m ns ih =>
    rw [List.nodup_cons] at hn
    obtain ⟨i1, i2, i3, i4, i5, i6⟩ := ih hn.2 (touch p chg s m)
    simp only [List.foldl_cons]
    have hlift : ∀ N : Nat → Prop, (∀ a, (a ∈ ns ∧ chg a = true ∧ p.net.driver a = none) → N a) → Ext p den ρ N (touch p chg s m) (ns.foldl (touch p chg) (touch p chg s m)) :=
      fun N h => i1.weaken h
    have hsub : ∀ a, (a ∈ ns ∧ chg a = true ∧ p.net.driver a = none) → (a ∈ m :: ns ∧ chg a = true ∧ p.net.driver a = none) :=
      fun a h => ⟨List.mem_cons_of_mem _ h.1, h.2⟩
    have hout : (ns.foldl (touch p chg) (touch p chg s m)).cur m = (touch p chg s m).cur m := i1.out m (fun h => hn.1 h.1)
    cases hc : chg m with
    | false =>
      have e : touch p chg s m = s := by unfold touch; simp [hc]
      rw [e] at i1 i2 i3 i4 i5 i6 hout ⊢
      refine ⟨i1.weaken hsub, i2, i3, i4, ?_, ?_⟩
      · intro n h a b
        rcases List.mem_cons.1 h with rfl | h
        · rw [hc] at a; exact absurd a (by simp)
        · exact i5 n h a b
      · intro n h a
        rcases List.mem_cons.1 h with rfl | h
        · rw [hc] at a; exact absurd a (by simp)
        · exact i6 n h a
    | true =>
      cases hd : p.net.driver m with
      | some c =>
        have e : touch p chg s m = addTodo p s c := by unfold touch; simp [hc, hd]
        obtain ⟨b1, b2, b3, b4, b5, b6, b7, b8⟩ := addTodo_fields (p := p) s c
        have hext : ∀ N, Ext p den ρ N s (addTodo p s c) := fun N =>
          ⟨fun d h => addTodo_mono s c d h, b4, fun d k _ _ n _ => by unfold vb; rw [b1], addTodo_fw s c, fun n _ => by rw [b1]⟩
        rw [e] at i1 i2 i3 i4 i5 i6 hout ⊢
        refine ⟨(hext _).trans (i1.weaken hsub), i2.trans b2, i3.trans b3, i4.trans b6, ?_, ?_⟩
        · intro n h a b
          rcases List.mem_cons.1 h with rfl | h
          · rw [hd] at b; exact absurd b (by simp)
          · rw [i5 n h a b, b4]
        · intro n h a d hdd
          rcases List.mem_cons.1 h with rfl | h
          · rw [hd] at hdd
            cases hdd
            obtain ⟨k, hk, _⟩ := driver_spec _ _ hd
            exact i1.mono c (addTodo_flag s c k hk)
          · exact i6 n h a d hdd
      | none =>
        have e : touch p chg s m = updateNode p s m (unknown p) := by unfold touch; simp [hc, hd]
        have hf := updateNode_fields (p := p) s m (unknown p)
        have hext := updateNode_ext H s m (unknown p)
        rw [e] at i1 i2 i3 i4 i5 i6 hout ⊢
        refine ⟨(hext.weaken ?_).trans (i1.weaken hsub), i2.trans hf.2.1, i3.trans hf.2.2.1, i4.trans hf.2.2.2.2.2.1, ?_, ?_⟩
        · rintro a rfl; exact ⟨by simp, hc, hd⟩
        · intro n h a b
          rcases List.mem_cons.1 h with rfl | h
          · show (_ : DR F).at den ρ = _
            rw [hout]
            have := updateNode_vb (ρ := ρ) H.exact s n (unknown p)
            rw [unknown_at H.exact] at this
            exact this
          · rw [i5 n h a b, hf.2.2.2.1]
        · intro n h a d hdd
          rcases List.mem_cons.1 h with rfl | h
          · rw [hd] at hdd; exact absurd hdd (by simp)
          · exact i6 n h a d hdd

/-- Weakening and antecedent of a node are the same in two event states. -/
def SameAdj (v w : Ev F) (n : Nat) : Prop :=
  v.hasWeak n = w.hasWeak n ∧ v.weak n = w.weak n ∧ v.hasAnt n = w.hasAnt n ∧ v.ant n = w.ant n

theorem adjB_congr (v w : Ev F) (n : Nat) (x : DR Bool) (h : SameAdj v w n) : adjB den ρ v n x = adjB den ρ w n x := by
  unfold adjB
  rw [h.1, h.2.1, h.2.2.1, h.2.2.2]

/-- After the changed nodes have been seen to, the invariant holds for the new event state. -/
theorem touched_spec {Ok} (H : Hyp p den ρ Ok) (W : WFNet p) (s : St F) (hI : TI p den ρ Ok s) (v : Ev F) (chg : Nat → Bool)
    (hq : Quiet p v) (hc : ∀ n, chg n = true ∨ SameAdj s.ev v n) :
    let t := (List.range p.nodes).foldl (touch p chg) { s with ev := v }
    TI p den ρ Ok t ∧ t.ev = v ∧ t.check = s.check ∧ t.hasPhase = s.hasPhase ∧ t.next = s.next ∧
    (∀ k ∈ p.net, k.delay = true → ∀ n ∈ k.outs, vb den ρ t n = vb den ρ s n) := by
  obtain ⟨a1, a2, a3, a4, a5, a6⟩ := touch_spec (p := p) (den := den) (ρ := ρ) H chg (List.range p.nodes) List.nodup_range { s with ev := v }
  generalize (List.range p.nodes).foldl (touch p chg) { s with ev := v } = t at a1 a2 a3 a4 a5 a6
  have hdr : ∀ (c : Nat) (k : Comp), p.net[c]? = some k → ∀ n ∈ k.outs, t.cur n = s.cur n := by
    intro c k hk n hn
    rw [a1.out n]
    rintro ⟨_, _, h⟩
    rw [driver_some W n c k hk hn] at h
    exact absurd h (by simp)
  refine ⟨⟨⟨?_, ?_, ?_⟩, ?_, ?_⟩, a1.ev, a4, a3, a2, ?_⟩
  · intro c k hk _ hf
    have hmem := List.mem_of_getElem? hk
    have hf0 : s.flag c = false := by
      cases h' : s.flag c
      · rfl
      · have := a1.mono c h'; rw [this] at hf; exact hf
    obtain ⟨raw, h1, h2, h3⟩ := hI.inv.j c k hk (fun h => h) hf0
    refine ⟨raw, ?_, h2, ?_⟩
    · rw [List.map_congr_left (a1.pend c k hk hf)]; exact h1
    · intro q hqz
      have hm := zip_mem_fst hqz
      have hcur : vb den ρ t q.1 = vb den ρ s q.1 := by unfold vb; rw [hdr c k hk q.1 hm]
      have := h3 q hqz
      rw [a3, a2, hcur]
      cases hd : k.delay with
      | true => rw [hd] at this; exact this
      | false =>
        rw [hd] at this
        simp only [Bool.false_eq_true, if_false] at this ⊢
        rw [this, a1.ev]
        rcases hc q.1 with h | h
        · have := a6 q.1 (List.mem_range.2 (W.outs k hmem q.1 hm).2) h c (driver_some W q.1 c k hk hm)
          rw [this] at hf
          exact absurd hf (by simp)
        · exact adjB_congr _ _ _ _ h
  · exact a1.fw hI.inv.fw
  · intro n hn
    rw [a3] at hn
    exact hI.inv.hp n hn
  · intro n h1 h2 h3
    rw [a1.ev]
    rcases hc n with h | h
    · exact a5 n (List.mem_range.2 h2) h h3
    · by_cases hch : chg n = true
      · exact a5 n (List.mem_range.2 h2) hch h3
      · have : t.cur n = s.cur n := a1.out n (fun h' => hch h'.2.1)
        have h4 := hI.inp n h1 h2 h3
        unfold vb at h4 ⊢
        rw [this, h4]
        exact adjB_congr _ _ _ _ h
  · intro n hn
    by_cases hch : n ∈ List.range p.nodes ∧ chg n = true ∧ p.net.driver n = none
    · right
      have := a5 n hch.1 hch.2.1 hch.2.2
      rw [adjB_quiet _ _ _ (hq.2 n hn)] at this
      exact this
    · have : t.cur n = s.cur n := a1.out n hch
      unfold vb
      rw [this]
      exact hI.con n hn
  · intro k hk _ n hn
    obtain ⟨c, hc⟩ := List.getElem?_of_mem hk
    unfold vb
    rw [hdr c k hc n hn]

/-- Relaxation keeps the invariant of the run. -/
theorem comb_spec {Ok} (H : Hyp p den ρ Ok) (W : WFNet p) (s t : St F) (ok : Bool) (hI : TI p den ρ Ok s)
    (h : combinational p s = some (t, ok)) :
    TI p den ρ Ok t ∧ t.ev = s.ev ∧ t.check = s.check ∧ (ok = true → ∀ c, t.flag c = false) ∧
    (∀ k ∈ p.net, k.delay = true → ∀ n ∈ k.outs, vb den ρ t n = vb den ρ s n) := by
  obtain ⟨a1, a2, a3, a4, a5⟩ := relax_spec H W p.limit { s with todo := 0 } t ok
    ⟨hI.inv.j, hI.inv.fw, hI.inv.hp⟩ h
  have hnz : ∀ n, (∀ k ∈ p.net, k.delay = false → n ∉ k.outs) → vb den ρ t n = vb den ρ s n := by
    intro n hn
    unfold vb
    rw [a2 n]
    rintro ⟨k, hk, hd, hm⟩
    exact hn k hk hd hm
  refine ⟨⟨a1, ?_, ?_⟩, a3, a4, a5, ?_⟩
  · intro n h1 h2 h3
    rw [a3, hnz n]
    · exact hI.inp n h1 h2 h3
    · intro k hk _ hm
      obtain ⟨c, hc⟩ := List.getElem?_of_mem hk
      rw [driver_some W n c k hc hm] at h3
      exact absurd h3 (by simp)
  · intro n hn
    rw [hnz n]
    · exact hI.con n hn
    · intro k hk _ hm
      have := (W.outs k hk n hm).1
      omega
  · intro k hk hd n hn
    apply hnz
    intro k' hk' hd' hm
    obtain ⟨c, hc⟩ := List.getElem?_of_mem hk
    obtain ⟨c', hc'⟩ := List.getElem?_of_mem hk'
    by_cases e : c = c'
    · subst e; rw [hc] at hc'; cases hc'; rw [hd] at hd'; exact absurd hd' (by simp)
    · exact W.disj c c' k k' hc hc' e n hn hm

end Voss.Ste
