import Verif.Ste.ValidLemmas
/-
Lemmas towards termination: with right ranks one pass evaluates every component at most once, and with
non-empty intervals every end of an item finds its start.
-/
namespace Voss.Ste
open Voss.Sim

variable {F : Type} {p : Par F}

/-! ### Evaluation -/

theorem evalComp_total (k : Comp) (hg : GoodComp k) (hf : Fits k) (i : Nat) (inps : List (DR F)) (hi : inps.length = k.inps.length) :
    ∃ raw, evalComp p i k inps = some raw ∧ raw.length = k.outs.length := by
  unfold evalComp
  suffices h : ∀ o : Ops F, ∃ raw, k.prim.eval o k.size inps = some raw ∧ raw.length = k.outs.length from h _
  intro o
  have H : RelOps (fun (_ : F) (_ : Bool) => True) o boolOps := ⟨trivial, trivial, fun _ _ => trivial, fun _ _ => trivial⟩
  have hw : RW (fun (_ : F) (_ : Bool) => True) inps (encW (List.replicate k.inps.length false)) := by
    have key : ∀ (l : List (DR F)) (m : List (DR Bool)), l.length = m.length → RW (fun (_ : F) (_ : Bool) => True) l m := by
      intro l
      induction l with
      | nil => intro m h; cases m with
        | nil => exact .nil
        | cons => simp at h
      | cons a l ih => intro m h; cases m with
        | nil => simp at h
        | cons b m => exact .cons ⟨trivial, trivial⟩ (ih m (by simpa using h))
    apply key
    rw [encW_length, List.length_replicate, hi]
  have he := eval_enc k.prim k.size (List.replicate k.inps.length false) (by rw [List.length_replicate]; exact hg.inps) hg.wf hg.size
  rcases eval_rel H k.prim hg.prim k.size hw with ⟨e1, e2⟩ | ⟨v, w, e1, e2, e3⟩
  · rw [he] at e2; exact absurd e2 (by simp)
  · refine ⟨v, e1, ?_⟩
    rw [he] at e2
    rw [e3.length_eq, ← Option.some.inj e2, hf]
    simp [encTW]

/-! ### The wheel -/

/-- Entries of the wheel are flagged and occur once. -/
def WQ (s : St F) : Prop := ∀ r, (s.wheel r).Nodup ∧ ∀ c ∈ s.wheel r, s.flag c = true

theorem addTodo_wq (s : St F) (c : Nat) (h : WQ s) : WQ (addTodo p s c) := by
  unfold addTodo
  split
  · exact h
  · rename_i hf
    split
    · rename_i k hk
      intro r
      have hn : ∀ r', c ∉ s.wheel r' := fun r' hc => hf ((h r').2 c hc)
      have hfl : ∀ d, s.flag d = true → upd s.flag c true d = true := by
        intro d hd; unfold upd; split <;> simp [hd]
      show (upd s.wheel k.rank (c :: s.wheel k.rank) r).Nodup ∧ ∀ d ∈ upd s.wheel k.rank (c :: s.wheel k.rank) r, upd s.flag c true d = true
      unfold upd
      split
      · refine ⟨List.nodup_cons.2 ⟨hn _, (h _).1⟩, fun d hd => ?_⟩
        rcases List.mem_cons.1 hd with rfl | hd
        · simp
        · exact hfl d ((h _).2 d hd)
      · exact ⟨(h r).1, fun d hd => hfl d ((h r).2 d hd)⟩
    · exact h

theorem addAll_wq (fs : List Nat) (s : St F) (h : WQ s) : WQ (fs.foldl (addTodo p) s) := by
  induction fs generalizing s with
  | nil => exact h
  | cons c fs ih => exact ih _ (addTodo_wq s c h)

theorem updateNode_wq (s : St F) (n : Nat) (x : DR F) (h : WQ s) : WQ (updateNode p s n x) := by
  dsimp only [updateNode]
  split
  · exact addAll_wq _ _ h
  · exact h

theorem addTodo_wheel_ne (r : Nat) (s : St F) (c : Nat) (hc : ∀ k, p.net[c]? = some k → k.rank ≠ r) : (addTodo p s c).wheel r = s.wheel r := by
  unfold addTodo
  split
  · rfl
  · split
    · rename_i k hk
      show upd s.wheel k.rank _ r = _
      unfold upd
      rw [if_neg (fun e => hc k hk e.symm)]
    · rfl

theorem addAll_wheel_ne (r : Nat) (fs : List Nat) (s : St F) (hc : ∀ c ∈ fs, ∀ k, p.net[c]? = some k → k.rank ≠ r) :
    (fs.foldl (addTodo p) s).wheel r = s.wheel r := by
  induction fs generalizing s with
  | nil => rfl
  | cons c fs ih =>
    rw [List.foldl_cons, ih _ (fun c' hc' => hc c' (List.mem_cons_of_mem _ hc')), addTodo_wheel_ne r s c (hc c (by simp))]

theorem updateNode_wheel_ne (r : Nat) (s : St F) (n : Nat) (x : DR F) (hc : ∀ k ∈ p.net, n ∈ k.inps → k.rank ≠ r) :
    (updateNode p s n x).wheel r = s.wheel r := by
  dsimp only [updateNode]
  split
  · rw [addAll_wheel_ne]
    intro c hc' k hk
    exact hc k (List.mem_of_getElem? hk) (of_mem_fanouts p.net n c k hc' hk)
  · rfl

/-- One evaluation. -/
theorem doOp_total (R : Ready p) (s : St F) (r c : Nat) (k : Comp) (hk : p.net[c]? = some k) (hr : k.rank = r) (hw : WI p (r + 1) s) (hq : WQ s) :
    ∃ u, doOp p s c = some u ∧ WI p (r + 1) u ∧ WQ u ∧ u.wheel r = s.wheel r ∧ u.ev = s.ev := by
  have hm := List.mem_of_getElem? hk
  obtain ⟨raw, e1, e2⟩ := evalComp_total (p := p) k (R.good k hm) (R.fits k hm) s.steps (k.inps.map s.cur) (by simp)
  unfold doOp
  rw [hk]
  simp only [Option.bind_eq_bind, Option.bind_some, e1, e2, ne_eq, not_true, if_false]
  cases hd : k.delay with
  | true =>
    refine ⟨_, rfl, ?_⟩
    have key : ∀ (zs : List (Nat × DR F)) (s : St F), (zs.foldl storeNext s).wheel = s.wheel ∧ (zs.foldl storeNext s).flag = s.flag ∧
        (zs.foldl storeNext s).ev = s.ev := by
      intro zs
      induction zs with
      | nil => intro s; exact ⟨rfl, rfl, rfl⟩
      | cons z zs ih => intro s; exact ih (storeNext s z)
    obtain ⟨g1, g2, g3⟩ := key (k.outs.zip raw) { s with steps := s.steps + 1 }
    refine ⟨?_, ?_, by rw [g1], g3⟩
    · intro r' d hd'; rw [g1] at hd'; exact hw r' d hd'
    · intro r'; rw [g1, g2]; exact hq r'
  | false =>
    refine ⟨_, rfl, ?_⟩
    have key : ∀ (zs : List (Nat × DR F)) (s : St F), (∀ q ∈ zs, ∀ k' ∈ p.net, q.1 ∈ k'.inps → k'.rank < r) → WI p (r + 1) s → WQ s →
        WI p (r + 1) (zs.foldl (fun s q => updateNode p s q.1 q.2) s) ∧ WQ (zs.foldl (fun s q => updateNode p s q.1 q.2) s) ∧
        (zs.foldl (fun s q => updateNode p s q.1 q.2) s).wheel r = s.wheel r ∧ (zs.foldl (fun s q => updateNode p s q.1 q.2) s).ev = s.ev := by
      intro zs
      induction zs with
      | nil => intro s _ h1 h2; exact ⟨h1, h2, rfl, rfl⟩
      | cons z zs ih =>
        intro s hz h1 h2
        have hz0 := hz z (by simp)
        obtain ⟨b1, b2, b3, b4⟩ := ih (updateNode p s z.1 z.2) (fun q hq => hz q (List.mem_cons_of_mem _ hq))
          (updateNode_wi _ s z.1 z.2 (fun k' hk' hi => by have := hz0 k' hk' hi; omega) h1) (updateNode_wq s z.1 z.2 h2)
        refine ⟨b1, b2, ?_, ?_⟩
        · show (zs.foldl _ (updateNode p s z.1 z.2)).wheel r = _
          rw [b3, updateNode_wheel_ne r s z.1 z.2 (fun k' hk' hi => by have := hz0 k' hk' hi; omega)]
        · show (zs.foldl _ (updateNode p s z.1 z.2)).ev = _
          rw [b4, (updateNode_fields s z.1 z.2).2.2.2.1]
    exact key (k.outs.zip raw) { s with steps := s.steps + 1 } (fun q hq' k' hk' hi => by
      have := R.rank k hm hd q.1 (zip_mem_fst hq') k' hk' hi; omega) hw hq

variable (p) in
/-- Number of components of rank below `r`. -/
def below (r : Nat) : Nat := ((List.range p.net.length).filter fun c => match p.net[c]? with
  | some k => decide (k.rank < r)
  | none => false).length

theorem below_le (r : Nat) : below p r ≤ p.net.length := by
  unfold below
  refine Nat.le_trans (List.length_filter_le _ _) ?_
  simp

theorem nodup_sub_length {l m : List Nat} (h : l.Nodup) (hs : ∀ x ∈ l, x ∈ m) : l.length ≤ m.length := by
  induction l generalizing m with
  | nil => simp
  | cons x xs ih =>
    rw [List.nodup_cons] at h
    have hx := hs x (by simp)
    have := ih (m := m.erase x) h.2 (fun y hy => (List.mem_erase_of_ne (by rintro rfl; exact h.1 hy)).2 (hs y (List.mem_cons_of_mem _ hy)))
    rw [List.length_erase_of_mem hx] at this
    have : 0 < m.length := List.length_pos_of_mem hx
    simp only [List.length_cons]
    omega

theorem wheel_below (r : Nat) (s : St F) (b : Nat) (hw : WI p b s) (hq : WQ s) : (s.wheel r).length + below p r ≤ below p (r + 1) := by
  have hn : (s.wheel r ++ (List.range p.net.length).filter fun c => match p.net[c]? with
      | some k => decide (k.rank < r)
      | none => false).Nodup := by
    rw [List.nodup_append]
    refine ⟨(hq r).1, List.nodup_range.filter _, ?_⟩
    intro a ha c hc e
    subst e
    obtain ⟨⟨k, hk, hkr⟩, _⟩ := hw r a ha
    rw [List.mem_filter, hk] at hc
    have := hc.2
    simp only [decide_eq_true_eq] at this
    omega
  have := nodup_sub_length (m := (List.range p.net.length).filter fun c => match p.net[c]? with
      | some k => decide (k.rank < r + 1)
      | none => false) hn (by
    intro x hx
    rw [List.mem_append] at hx
    rw [List.mem_filter]
    rcases hx with hx | hx
    · obtain ⟨⟨k, hk, hkr⟩, _⟩ := hw r x hx
      rw [hk]
      refine ⟨List.mem_range.2 (List.getElem?_eq_some_iff.1 hk).1, ?_⟩
      simp only [decide_eq_true_eq]; omega
    · rw [List.mem_filter] at hx
      refine ⟨hx.1, ?_⟩
      cases hk : p.net[x]? with
      | none => rw [hk] at hx; simp at hx
      | some k =>
        rw [hk] at hx
        have := hx.2
        simp only [decide_eq_true_eq] at this ⊢
        omega)
  rw [List.length_append] at this
  exact this

/-- The fuel one pass needs. -/
def need (p : Par F) (s : St F) : Nat → Nat
  | 0 => 0
  | r + 1 => (s.wheel r).length + (r + below p r) + 1

theorem pass_total (R : Ready p) (f r : Nat) (s : St F) (seen : Bool) (hw : WI p r s) (hq : WQ s) (hf : need p s r < f) :
    ∃ u b, pass p f r s seen = some (u, b) ∧ (∀ r', u.wheel r' = []) ∧ u.ev = s.ev := by
  induction f generalizing r s seen with
  | zero => omega
  | succ f ih =>
    cases r with
    | zero =>
      refine ⟨s, seen, rfl, fun r' => ?_, rfl⟩
      cases hx : s.wheel r' with
      | nil => rfl
      | cons c cs => have := (hw r' c (by rw [hx]; simp)).2; omega
    | succ r =>
      rw [pass]
      cases hx : s.wheel r with
      | nil =>
        simp only
        refine ih r s seen ?_ hq ?_
        · intro r' c hc
          obtain ⟨a, b⟩ := hw r' c hc
          refine ⟨a, ?_⟩
          have : r' ≠ r := by rintro rfl; rw [hx] at hc; simp at hc
          omega
        · simp only [need] at hf
          rw [hx] at hf
          cases r with
          | zero => simp only [need]; omega
          | succ r =>
            have := wheel_below r s _ hw hq
            simp only [List.length_nil] at hf
            simp only [need]
            omega
      | cons c cs =>
        simp only
        obtain ⟨⟨k, hk, hkr⟩, _⟩ := hw r c (by rw [hx]; simp)
        have hqr := hq r
        rw [hx, List.nodup_cons] at hqr
        have hw' : WI p (r + 1) { s with wheel := upd s.wheel r cs, flag := upd s.flag c false } := by
          intro r' d hd
          have hd' : d ∈ upd s.wheel r cs r' := hd
          unfold upd at hd'
          split at hd'
          · rename_i e
            subst e
            exact hw r' d (by rw [hx]; exact List.mem_cons_of_mem _ hd')
          · exact hw r' d hd'
        have hq' : WQ { s with wheel := upd s.wheel r cs, flag := upd s.flag c false } := by
          intro r'
          show (upd s.wheel r cs r').Nodup ∧ ∀ d ∈ upd s.wheel r cs r', upd s.flag c false d = true
          unfold upd
          split
          · refine ⟨hqr.1.2, fun d hd => ?_⟩
            have : d ≠ c := by rintro rfl; exact hqr.1.1 hd
            rw [if_neg this]
            exact hqr.2 d (List.mem_cons_of_mem _ hd)
          · rename_i hne
            refine ⟨(hq r').1, fun d hd => ?_⟩
            have : d ≠ c := by
              rintro rfl
              obtain ⟨⟨k', hk', hkr'⟩, _⟩ := hw r' d hd
              rw [hk] at hk'; cases hk'
              omega
            rw [if_neg this]
            exact (hq r').2 d hd
        obtain ⟨u, e1, e2, e3, e4, e5⟩ := doOp_total R _ r c k hk hkr hw' hq'
        rw [e1]
        simp only [Option.bind_eq_bind, Option.bind_some]
        obtain ⟨v, b, g1, g2, g3⟩ := ih (r + 1) u true e2 e3 (by
          simp only [need] at hf ⊢
          rw [e4]
          show (upd s.wheel r cs r).length + _ + 1 < f
          rw [upd_same]
          rw [hx, List.length_cons] at hf
          omega)
        exact ⟨v, b, g1, g2, by rw [g3, e5]⟩

theorem need_le (s : St F) (hw : WI p p.top s) (hq : WQ s) : need p s p.top ≤ p.net.length + p.top := by
  cases h : p.top with
  | zero => simp [need]
  | succ r =>
    have := wheel_below r s _ hw hq
    have := below_le (p := p) (r + 1)
    simp only [need]
    omega

/-- A relaxation ends, with an empty wheel. -/
theorem comb_total (R : Ready p) (hfuel : p.net.length + p.top < p.fuel) (s : St F) (hw : WI p p.top s) (hq : WQ s) :
    ∃ u ok, combinational p s = some (u, ok) ∧ WI p p.top u ∧ WQ u ∧ u.ev = s.ev := by
  unfold combinational
  have key : ∀ (n : Nat) (s : St F), WI p p.top s → WQ s → ∃ u ok, relax p n s = some (u, ok) ∧ WI p p.top u ∧ WQ u ∧ u.ev = s.ev := by
    intro n
    induction n with
    | zero => intro s h1 h2; exact ⟨s, false, rfl, h1, h2, rfl⟩
    | succ n ih =>
      intro s h1 h2
      rw [relax]
      have := need_le s h1 h2
      obtain ⟨u, b, e1, e2, e3⟩ := pass_total R p.fuel p.top s false h1 h2 (by omega)
      rw [e1]
      simp only [Option.bind_eq_bind, Option.bind_some]
      have hw : WI p p.top u := by intro r' c hc; rw [e2 r'] at hc; simp at hc
      have hq : WQ u := by intro r'; rw [e2 r']; exact ⟨by simp, by simp⟩
      cases b with
      | true =>
        obtain ⟨v, ok, g1, g2, g3, g4⟩ := ih u hw hq
        exact ⟨v, ok, by simpa using g1, g2, g3, by rw [g4, e3]⟩
      | false => exact ⟨u, true, by simp, hw, hq, e3⟩
  exact key p.limit { s with todo := 0 } hw hq

/-! ### Phases and nodes -/

theorem updateNode_keep (W : WFNet p) (s : St F) (n : Nat) (x : DR F) (hw : WI p p.top s) (hq : WQ s) :
    WI p p.top (updateNode p s n x) ∧ WQ (updateNode p s n x) ∧ (updateNode p s n x).ev = s.ev :=
  ⟨updateNode_wi _ s n x (fun k hk _ => W.rank k hk) hw, updateNode_wq s n x hq, (updateNode_fields s n x).2.2.2.1⟩

theorem doPhase_keep (W : WFNet p) (s : St F) (hw : WI p p.top s) (hq : WQ s) :
    WI p p.top (doPhase p s) ∧ WQ (doPhase p s) ∧ (doPhase p s).ev = s.ev := by
  unfold doPhase
  generalize List.range p.nodes = l
  induction l generalizing s with
  | nil => exact ⟨hw, hq, rfl⟩
  | cons n l ih =>
    have h1 : WI p p.top (phase1 p s n) ∧ WQ (phase1 p s n) ∧ (phase1 p s n).ev = s.ev := by
      unfold phase1
      split
      · exact updateNode_keep W s n _ hw hq
      · split
        · exact updateNode_keep W { s with hasPhase := upd s.hasPhase n false } n _ hw hq
        · exact ⟨hw, hq, rfl⟩
    obtain ⟨a, b, c⟩ := ih _ h1.1 h1.2.1
    exact ⟨a, b, c.trans h1.2.2⟩

theorem touch_keep (W : WFNet p) (chg : Nat → Bool) (l : List Nat) (s : St F) (hw : WI p p.top s) (hq : WQ s) :
    WI p p.top (l.foldl (touch p chg) s) ∧ WQ (l.foldl (touch p chg) s) ∧ (l.foldl (touch p chg) s).ev = s.ev := by
  induction l generalizing s with
  | nil => exact ⟨hw, hq, rfl⟩
  | cons n l ih =>
    have h1 : WI p p.top (touch p chg s n) ∧ WQ (touch p chg s n) ∧ (touch p chg s n).ev = s.ev := by
      unfold touch
      split
      · split
        · refine ⟨addTodo_wi _ s _ (fun k hk => W.rank k (List.mem_of_getElem? hk)) hw, addTodo_wq s _ hq, ?_⟩
          unfold addTodo
          split
          · rfl
          · split <;> rfl
        · exact updateNode_keep W s n _ hw hq
      · exact ⟨hw, hq, rfl⟩
    obtain ⟨a, b, c⟩ := ih _ h1.1 h1.2.1
    exact ⟨a, b, c.trans h1.2.2⟩

/-- Constant propagation ends. -/
theorem init_total (R : Ready p) (hfuel : p.net.length + p.top < p.fuel) :
    ∃ s ok, initState p = some (s, ok) ∧ WI p p.top s ∧ WQ s ∧ s.ev = ev0 p.o := by
  unfold initState
  have key : ∀ (n : Nat) (s : St F), WI p p.top s → WQ s → s.ev = ev0 p.o → ∃ u ok, initLoop p n s = some (u, ok) ∧ WI p p.top u ∧ WQ u ∧ u.ev = ev0 p.o := by
    intro n
    induction n with
    | zero => intro s h1 h2 h3; exact ⟨s, false, rfl, h1, h2, h3⟩
    | succ n ih =>
      intro s h1 h2 h3
      rw [initLoop]
      obtain ⟨u, ok, e1, e2, e3, e4⟩ := comb_total R hfuel s h1 h2
      rw [e1]
      simp only [Option.bind_eq_bind, Option.bind_some]
      split
      · exact ⟨u, false, rfl, e2, e3, e4.trans h3⟩
      · split
        · obtain ⟨a, b, c⟩ := doPhase_keep R.wf u e2 e3
          exact ih _ a b (c.trans (e4.trans h3))
        · exact ⟨u, true, rfl, e2, e3, e4.trans h3⟩
  refine key p.limit _ ?_ ?_ ?_
  · apply addAll_wi
    · intro c _ k hk; exact R.wf.rank k (List.mem_of_getElem? hk)
    · intro r' c hc; exact absurd hc (by simp [st0])
  · apply addAll_wq
    intro r'; exact ⟨by simp [st0], by simp [st0]⟩
  · rw [(addAll_fields (p := p) (List.range p.net.length) (st0 p)).2.2.2.1]; rfl

/-! ### Events -/

theorem deleteActive_total (id : Nat) (es : List (Event F)) (h : ∃ e ∈ es, e.id = id) : ∃ es', deleteActive id es = some es' := by
  induction es with
  | nil => obtain ⟨e, he, _⟩ := h; simp at he
  | cons x xs ih =>
    rw [deleteActive]
    split
    · exact ⟨_, rfl⟩
    · rename_i hx
      obtain ⟨e, he, h1⟩ := h
      rcases List.mem_cons.1 he with rfl | he
      · exact absurd h1 hx
      · obtain ⟨es', h2⟩ := ih ⟨e, he, h1⟩
        exact ⟨x :: es', by rw [h2]; rfl⟩

theorem process1_total (o : Ops F) (v : Ev F) (chg : Nat → Bool) (e : Event F)
    (h : e.kind ≠ .trace → e.start = false → ∃ x ∈ v.act e.kind e.node, x.id = e.id) : ∃ s, process1 o (v, chg) e = some s := by
  unfold process1
  have key : ∀ (act : Nat → List (Event F)), (e.start = false → ∃ x ∈ act e.node, x.id = e.id) → ∃ a, active act e = some a := by
    intro act ha
    unfold active
    cases hs : e.start with
    | true => exact ⟨_, rfl⟩
    | false => simpa using deleteActive_total e.id _ (ha hs)
  cases hk : e.kind <;> rw [hk] at h <;> simp only
  · obtain ⟨a, ha⟩ := key v.actW (h (by simp)); rw [ha]; exact ⟨_, rfl⟩
  · obtain ⟨a, ha⟩ := key v.actA (h (by simp)); rw [ha]; exact ⟨_, rfl⟩
  · obtain ⟨a, ha⟩ := key v.actC (h (by simp)); rw [ha]; exact ⟨_, rfl⟩
  · exact ⟨_, rfl⟩

/-- The events done so far, and the state they lead to. -/
def Done (o : Ops F) (evs : List (Event F)) (v : Ev F) (rest : List (Event F)) : Prop := ∃ d, evs = d ++ rest ∧ EvInv o d v

theorem process_total {o : Ops F} {items : List (Item F)} {evs : List (Event F)} (hS : Sorted o items evs) (hi : ∀ i ∈ items, i.frm < i.til)
    (t : Int) (v : Ev F) (chg : Nat → Bool) (es : List (Event F)) (hd : Done o evs v es) :
    ∃ v' c' rest, process o t (v, chg) es = some ((v', c'), rest) ∧ Done o evs v' rest := by
  induction es generalizing v chg with
  | nil => exact ⟨v, chg, [], rfl, hd⟩
  | cons e es ih =>
    rw [process]
    split
    · exact ⟨v, chg, e :: es, rfl, hd⟩
    · obtain ⟨d, h1, h2⟩ := hd
      have hB := sorted_before hS
      have hT := tidy_of_sorted hS
      have hstep : ∃ s, process1 o (v, chg) e = some s := by
        apply process1_total
        intro hk hs
        have hmem : e ∈ evs := by rw [h1]; simp
        obtain ⟨i, hi1, hi2⟩ := mem_create (hS.1.mem_iff.1 hmem)
        obtain ⟨_, c2, c3, c4⟩ := events_cases o _ i e hi2
        -- the start of the same item
        obtain ⟨x, hx1, hx2, hx3, hx4⟩ : ∃ x ∈ createEvents o items, x.id = e.id ∧ x.start = true ∧ x.time = i.frm := by
          obtain ⟨x, hx, hxs⟩ := events_start o e.id i true
          obtain ⟨d1, _, _, d4⟩ := events_cases o _ i x hx
          exact ⟨x, create_mem hi1 x hx, d1, hxs, by rw [d4, hxs]; rfl⟩
        have hx : x ∈ evs := hS.1.mem_iff.2 hx1
        have het : e.time = i.til := by rw [c4, hs]; rfl
        have hlt : x.time < e.time := by rw [hx4, het]; exact hi i (List.mem_of_getElem? hi1)
        have hxd : x ∈ d := by
          rw [h1] at hx hB
          rcases List.mem_append.1 hx with h | h
          · exact h
          · rcases List.mem_cons.1 h with rfl | h
            · omega
            · have := (List.pairwise_cons.1 (List.pairwise_append.1 hB).2.1).1 x h
              rcases this with h | ⟨h, _⟩ <;> omega
        obtain ⟨k1, k2⟩ := hT.1 x hx e hmem hx2
        rcases h2.complete x hxd hx3 (by rw [k1]; exact hk) with h | ⟨e', he', h3, h4⟩
        · exact ⟨x, by rw [← k1, ← k2]; exact h, hx2⟩
        · have := hT.2
          rw [h1] at this
          rcases (List.pairwise_append.1 this).2.2 e' he' e (by simp) with h5 | h5
          · exact absurd (h4.trans hx2) h5
          · exact absurd (h3.trans hs.symm) h5
      obtain ⟨⟨v1, c1⟩, hs⟩ := hstep
      rw [hs]
      simp only [Option.bind_eq_bind, Option.bind_some]
      apply ih
      refine ⟨d ++ [e], by rw [h1]; simp, ?_⟩
      have h1' : evs = (d ++ [e]) ++ es := by rw [h1]; simp
      refine evInv_step o d v v1 chg c1 e ?_ ?_ h2 hs
      · rw [h1'] at hT; exact hT.sub
      · rw [h1'] at hB; exact (List.pairwise_append.1 hB).1

/-! ### Runs -/

theorem checks_keep (l : List Nat) (s : St F) : (l.foldl (check1 p) s).wheel = s.wheel ∧ (l.foldl (check1 p) s).flag = s.flag ∧
    (l.foldl (check1 p) s).ev = s.ev := by
  induction l generalizing s with
  | nil => exact ⟨rfl, rfl, rfl⟩
  | cons n l ih =>
    obtain ⟨a, b, c⟩ := ih (check1 p s n)
    have : (check1 p s n).wheel = s.wheel ∧ (check1 p s n).flag = s.flag ∧ (check1 p s n).ev = s.ev := by
      unfold check1; split <;> exact ⟨rfl, rfl, rfl⟩
    exact ⟨a.trans this.1, b.trans this.2.1, c.trans this.2.2⟩

theorem mainLoop_total (R : Ready p) (hfuel : p.net.length + p.top < p.fuel) {items : List (Item F)} {evs : List (Event F)}
    (hS : Sorted p.o items evs) (hi : ∀ i ∈ items, i.frm < i.til) (n : Nat) (t : Int) (r : Run F) (hw : WI p p.top r.s) (hq : WQ r.s)
    (hd : Done p.o evs r.s.ev r.evs) : ∃ r', mainLoop p n t r = some r' := by
  induction n generalizing t r with
  | zero => exact ⟨r, rfl⟩
  | succ n ih =>
    rw [mainLoop]
    obtain ⟨v', c', rest, e1, e2⟩ := process_total hS hi t r.s.ev r.chg r.evs hd
    obtain ⟨f1, f2, f3⟩ := touch_keep R.wf c' (List.range p.nodes) { r.s with ev := v' } hw hq
    obtain ⟨u, ok, g1, g2, g3, g4⟩ := comb_total R hfuel _ f1 f2
    obtain ⟨h1, h2, h3⟩ := checks_keep (p := p) (List.range p.nodes) u
    unfold timeStep
    rw [e1]
    simp only [Option.bind_eq_bind, Option.bind_some, g1]
    obtain ⟨k1, k2, k3⟩ := doPhase_keep R.wf ((List.range p.nodes).foldl (check1 p) u)
      (by intro r' c hc; rw [h1] at hc; exact g2 r' c hc) (by intro r'; rw [h1, h2]; exact g3 r')
    refine ih _ _ k1 k2 ?_
    dsimp only
    rw [k3, h3, g4, f3]
    exact e2

/-- A run ends without undefined behaviour. -/
theorem ste_total (R : Ready p) (hfuel : p.net.length + p.top < p.fuel) (items : List (Item F)) (evs : List (Event F)) (chg : Nat → Bool)
    (hS : Sorted p.o items evs) (hi : ∀ i ∈ items, i.frm < i.til) : ∃ r, ste p items evs chg = some r := by
  unfold ste
  obtain ⟨s, ok, e1, e2, e3, e4⟩ := init_total R hfuel
  rw [e1]
  simp only [Option.bind_eq_bind, Option.bind_some]
  split
  · exact ⟨_, rfl⟩
  · split
    · rename_i e l he hl
      obtain ⟨r', h⟩ := mainLoop_total R hfuel hS hi (l.time + 1 - e.time + 1).toNat e.time ⟨s, chg, evs, true⟩ e2 e3
        ⟨[], rfl, by dsimp only; rw [e4]; exact evInv_nil p.o⟩
      rw [h]
      exact ⟨_, rfl⟩
    · exact ⟨_, rfl⟩

end Voss.Ste
