import Verif.Ste.TrajLemmas
/-
Lemmas about the processing of events.
-/
namespace Voss.Ste
open Voss.Sim

variable {F Env : Type} {p : Par F} {den : F → Env → Bool} {ρ : Env}

/-! ### Order -/

/-- The order of processing. -/
def Before (a b : Event F) : Prop :=
  a.time < b.time ∨ (a.time = b.time ∧ (a.node < b.node ∨ (a.node = b.node ∧ b.code ≤ a.code)))

theorem before_of_cmp (a b : Event F) (h : eventCmp b a ≤ 0) : Before a b := by
  unfold eventCmp at h
  unfold Before
  split at h
  · split at h
    · right; refine ⟨by omega, ?_⟩; right; omega
    · right; refine ⟨by omega, ?_⟩; left; omega
  · left; omega

theorem sorted_before {o : Ops F} {items : List (Item F)} {evs : List (Event F)} (h : Sorted o items evs) : evs.Pairwise Before := by
  have := h.2
  rw [List.pairwise_reverse] at this
  exact this.imp fun h => before_of_cmp _ _ h

/-! ### The events of the items -/

theorem mem_create {o : Ops F} {items : List (Item F)} {e : Event F} (h : e ∈ createEvents o items) :
    ∃ i, items[e.id]? = some i ∧ e ∈ i.events o e.id := by
  unfold createEvents at h
  rw [List.mem_flatten] at h
  obtain ⟨l, hl, he⟩ := h
  rw [List.mem_map] at hl
  obtain ⟨⟨i, n⟩, hi, rfl⟩ := hl
  have hn : e.id = n := by
    unfold Item.events at he
    cases hk : i.kind <;> rw [hk] at he <;> simp at he <;> rcases he with rfl | rfl <;> rfl
  refine ⟨i, ?_, hn ▸ he⟩
  rw [hn]
  have := List.mem_zipIdx_iff_getElem?.1 hi
  simpa using this

theorem create_mem {o : Ops F} {items : List (Item F)} {n : Nat} {i : Item F} (h : items[n]? = some i) (e : Event F)
    (he : e ∈ i.events o n) : e ∈ createEvents o items := by
  unfold createEvents
  rw [List.mem_flatten]
  refine ⟨i.events o n, ?_, he⟩
  rw [List.mem_map]
  exact ⟨(i, n), List.mem_zipIdx_iff_getElem?.2 (by simpa using h), rfl⟩

/-- The start and the end event of an item. -/
theorem events_cases (o : Ops F) (n : Nat) (i : Item F) (e : Event F) (h : e ∈ i.events o n) :
    e.id = n ∧ e.kind = i.kind ∧ e.node = i.node ∧ e.time = (if e.start then i.frm else i.til) := by
  unfold Item.events at h
  cases hk : i.kind <;> rw [hk] at h <;> simp at h <;> rcases h with rfl | rfl <;> simp

theorem events_start (o : Ops F) (n : Nat) (i : Item F) (b : Bool) : ∃ e ∈ i.events o n, e.start = b := by
  unfold Item.events
  cases hk : i.kind <;> cases b <;> simp

theorem events_values (o : Ops F) (n : Nat) (i : Item F) (e : Event F) (h : e ∈ i.events o n) (hs : e.start = true)
    (hk : i.kind = .ant ∨ i.kind = .cons) : e.H = o.or (o.not i.cond) i.val ∧ e.L = o.or (o.not i.cond) (o.not i.val) := by
  unfold Item.events at h
  rcases hk with hk | hk <;> rw [hk] at h <;> simp at h <;> rcases h with rfl | rfl <;> simp_all

/-! ### Prefixes -/

/-- Processing a list of events one after the other. -/
def procAll (o : Ops F) (s : Ev F × (Nat → Bool)) : List (Event F) → Option (Ev F × (Nat → Bool))
  | [] => some s
  | e :: es => (process1 o s e).bind fun s => procAll o s es

theorem procAll_append (o : Ops F) (s : Ev F × (Nat → Bool)) (a b : List (Event F)) :
    procAll o s (a ++ b) = (procAll o s a).bind fun s => procAll o s b := by
  induction a generalizing s with
  | nil => rfl
  | cons e es ih =>
    simp only [List.cons_append, procAll]
    cases process1 o s e with
    | none => rfl
    | some s => simp [ih]

theorem process_split (o : Ops F) (t : Int) (es rest : List (Event F)) (s s' : Ev F × (Nat → Bool))
    (h : process o t s es = some (s', rest)) :
    ∃ d, es = d ++ rest ∧ procAll o s d = some s' ∧ (∀ e ∈ d, e.time ≤ t) ∧ (∀ e, rest.head? = some e → t < e.time) := by
  induction es generalizing s with
  | nil =>
    simp only [process, Option.some.injEq, Prod.mk.injEq] at h
    exact ⟨[], by simp [← h.2], by simp [procAll, h.1], by simp, by rw [← h.2]; simp⟩
  | cons e es ih =>
    rw [process] at h
    split at h
    · simp only [Option.some.injEq, Prod.mk.injEq] at h
      refine ⟨[], by simp [← h.2], by simp [procAll, h.1], by simp, ?_⟩
      rw [← h.2]
      intro e' he'
      simp only [List.head?_cons, Option.some.injEq] at he'
      rw [← he']; assumption
    · cases h1 : process1 o s e with
      | none => rw [h1] at h; simp at h
      | some s1 =>
        rw [h1] at h
        simp only [Option.bind_eq_bind, Option.bind_some] at h
        obtain ⟨d, a1, a2, a3, a4⟩ := ih s1 h
        refine ⟨e :: d, by rw [a1]; rfl, by simp [procAll, h1, a2], ?_, a4⟩
        intro x hx
        rcases List.mem_cons.1 hx with rfl | hx
        · omega
        · exact a3 x hx

theorem rest_later {evs : List (Event F)} (hs : evs.Pairwise Before) (t : Int) (h : ∀ e, evs.head? = some e → t < e.time) :
    ∀ e ∈ evs, t < e.time := by
  cases evs with
  | nil => simp
  | cons x xs =>
    intro e he
    have hx := h x rfl
    rcases List.mem_cons.1 he with rfl | he
    · exact hx
    · have := (List.pairwise_cons.1 hs).1 e he
      rcases this with h | ⟨h, _⟩ <;> omega

/-! ### One event -/

theorem deleteActive_spec (id : Nat) (es es' : List (Event F)) (h : deleteActive id es = some es')
    (hn : (es.map (·.id)).Nodup) :
    (∃ e ∈ es, e.id = id) ∧ (∀ e, e ∈ es' ↔ e ∈ es ∧ e.id ≠ id) ∧ (es'.map (·.id)).Nodup := by
  induction es generalizing es' with
  | nil => simp [deleteActive] at h
  | cons x xs ih =>
    rw [List.map_cons, List.nodup_cons] at hn
    rw [deleteActive] at h
    split at h
    · rename_i hx
      simp only [Option.some.injEq] at h
      subst h
      refine ⟨⟨x, by simp, hx⟩, ?_, hn.2⟩
      intro e
      constructor
      · intro he
        refine ⟨List.mem_cons_of_mem _ he, ?_⟩
        intro h2
        exact hn.1 (List.mem_map.2 ⟨e, he, by rw [h2, hx]⟩)
      · rintro ⟨he, h2⟩
        rcases List.mem_cons.1 he with rfl | he
        · exact absurd hx h2
        · exact he
    · rename_i hx
      cases h1 : deleteActive id xs with
      | none => rw [h1] at h; simp at h
      | some ys =>
        rw [h1] at h
        simp only [Option.bind_eq_bind, Option.bind_some, Option.some.injEq] at h
        subst h
        obtain ⟨⟨e, he, h2⟩, h3, h4⟩ := ih ys h1 hn.2
        refine ⟨⟨e, List.mem_cons_of_mem _ he, h2⟩, ?_, ?_⟩
        · intro e
          rw [List.mem_cons, List.mem_cons, h3]
          constructor
          · rintro (rfl | ⟨h5, h6⟩)
            · exact ⟨Or.inl rfl, hx⟩
            · exact ⟨Or.inr h5, h6⟩
          · rintro ⟨rfl | h5, h6⟩
            · exact Or.inl rfl
            · exact Or.inr ⟨h5, h6⟩
        · rw [List.map_cons, List.nodup_cons]
          refine ⟨?_, h4⟩
          intro h5
          obtain ⟨y, hy, h6⟩ := List.mem_map.1 h5
          exact hn.1 (List.mem_map.2 ⟨y, ((h3 y).1 hy).1, h6⟩)

/-- The table of active events of a kind. -/
def Ev.act (v : Ev F) : Kind → Nat → List (Event F)
  | .weak => v.actW
  | .ant => v.actA
  | .cons => v.actC
  | .trace => fun _ => []
def Ev.has (v : Ev F) : Kind → Nat → Bool
  | .weak => v.hasWeak
  | .ant => v.hasAnt
  | .cons => v.hasCons
  | .trace => fun _ => false
def Ev.buf (v : Ev F) : Kind → Nat → DR F
  | .weak => v.weak
  | .ant => v.ant
  | .cons => v.cons
  | .trace => fun _ => v.cons 0

/-- What one event does. -/
theorem process1_spec (o : Ops F) (v v' : Ev F) (chg chg' : Nat → Bool) (e : Event F) (h : process1 o (v, chg) e = some (v', chg')) :
    (∀ (k : Kind) (n : Nat), k ≠ .trace → (k ≠ e.kind ∨ n ≠ e.node) → v'.act k n = v.act k n ∧ v'.has k n = v.has k n ∧ v'.buf k n = v.buf k n) ∧
    (e.kind ≠ .trace → active (v.act e.kind) e = some (v'.act e.kind e.node) ∧ v'.has e.kind e.node = e.start ∧
      v'.buf e.kind e.node = meet o (v'.act e.kind e.node)) ∧
    chg' = upd chg e.node e.kind.acts := by
  unfold process1 at h
  cases hk : e.kind <;> rw [hk] at h <;> simp only at h
  · cases ha : active v.actW e with
    | none => rw [ha] at h; simp at h
    | some a =>
      rw [ha] at h
      simp only [Option.bind_eq_bind, Option.bind_some, Option.some.injEq, Prod.mk.injEq] at h
      obtain ⟨rfl, rfl⟩ := h
      refine ⟨?_, ?_, by simp [Kind.acts]⟩
      · intro k n _ hkn
        cases k <;> simp [Ev.act, Ev.has, Ev.buf]
        simp at hkn
        simp [upd, hkn]
      · intro _
        simp [Ev.act, Ev.has, Ev.buf, upd, ha]
  · cases ha : active v.actA e with
    | none => rw [ha] at h; simp at h
    | some a =>
      rw [ha] at h
      simp only [Option.bind_eq_bind, Option.bind_some, Option.some.injEq, Prod.mk.injEq] at h
      obtain ⟨rfl, rfl⟩ := h
      refine ⟨?_, ?_, by simp [Kind.acts]⟩
      · intro k n _ hkn
        cases k <;> simp [Ev.act, Ev.has, Ev.buf]
        simp at hkn
        simp [upd, hkn]
      · intro _
        simp [Ev.act, Ev.has, Ev.buf, upd, ha]
  · cases ha : active v.actC e with
    | none => rw [ha] at h; simp at h
    | some a =>
      rw [ha] at h
      simp only [Option.bind_eq_bind, Option.bind_some, Option.some.injEq, Prod.mk.injEq] at h
      obtain ⟨rfl, rfl⟩ := h
      refine ⟨?_, ?_, by simp [Kind.acts]⟩
      · intro k n hk2 hkn
        cases k <;> simp [Ev.act, Ev.has, Ev.buf] at hk2 ⊢
        simp at hkn
        simp [upd, hkn]
      · intro _
        simp [Ev.act, Ev.has, Ev.buf, upd, ha]
  · simp only [Option.some.injEq, Prod.mk.injEq] at h
    obtain ⟨rfl, rfl⟩ := h
    exact ⟨fun _ _ _ _ => ⟨rfl, rfl, rfl⟩, fun h => absurd rfl h, by simp [Kind.acts]⟩

/-! ### The event state after a prefix -/

/-- The event state after the events `d`. -/
structure EvInv (o : Ops F) (d : List (Event F)) (v : Ev F) : Prop where
  nodup : ∀ (k : Kind) (n : Nat), k ≠ .trace → ((v.act k n).map (·.id)).Nodup
  /-- active events have started and not ended -/
  sound : ∀ (k : Kind) (n : Nat), k ≠ .trace → ∀ e ∈ v.act k n, e ∈ d ∧ e.start = true ∧ e.kind = k ∧ e.node = n ∧
    ∀ e' ∈ d, e'.start = false → e'.id ≠ e.id
  /-- every start is active or ended -/
  complete : ∀ e ∈ d, e.start = true → e.kind ≠ .trace → e ∈ v.act e.kind e.node ∨ ∃ e' ∈ d, e'.start = false ∧ e'.id = e.id
  /-- ends follow starts -/
  ends : ∀ e ∈ d, e.start = false → e.kind ≠ .trace → ∃ e' ∈ d, e'.start = true ∧ e'.id = e.id
  /-- a flag that is off: every start was followed by an end on the same node -/
  off : ∀ (k : Kind) (n : Nat), k ≠ .trace → v.has k n = false → ∀ e ∈ d, e.start = true → e.kind = k → e.node = n →
    ∃ e' ∈ d, e'.start = false ∧ e'.kind = k ∧ e'.node = n ∧ Before e e'
  on : ∀ (k : Kind) (n : Nat), k ≠ .trace → v.has k n = true → ∃ e ∈ d, e.kind = k ∧ e.node = n
  buf : ∀ (k : Kind) (n : Nat), k ≠ .trace → v.has k n = true → v.buf k n = meet o (v.act k n)

theorem evInv_nil (o : Ops F) : EvInv o [] (ev0 o) where
  nodup := by intro k n _; cases k <;> simp [Ev.act, ev0]
  sound := by intro k n _ e he; cases k <;> simp [Ev.act, ev0] at he
  complete := by simp
  ends := by simp
  off := by simp
  on := by intro k n _ h; cases k <;> simp [Ev.has, ev0] at h
  buf := by intro k n _ h; cases k <;> simp [Ev.has, ev0] at h

/-- Events of one item: same number means same kind and node, and start and end differ. -/
def Tidy (evs : List (Event F)) : Prop :=
  (∀ a ∈ evs, ∀ b ∈ evs, a.id = b.id → a.kind = b.kind ∧ a.node = b.node) ∧
  evs.Pairwise (fun a b => a.id ≠ b.id ∨ a.start ≠ b.start)

theorem evInv_step (o : Ops F) (d : List (Event F)) (v v' : Ev F) (chg chg' : Nat → Bool) (x : Event F)
    (hT : Tidy (d ++ [x])) (hB : (d ++ [x]).Pairwise Before) (hI : EvInv o d v) (h : process1 o (v, chg) x = some (v', chg')) :
    EvInv o (d ++ [x]) v' := by
  obtain ⟨hsame, hself, _⟩ := process1_spec o v v' chg chg' x h
  have hpast : ∀ e ∈ d, Before e x := fun e he => (List.pairwise_append.1 hB).2.2 e he x (by simp)
  have hdiff : ∀ e ∈ d, e.id ≠ x.id ∨ e.start ≠ x.start := fun e he => (List.pairwise_append.1 hT.2).2.2 e he x (by simp)
  have hkin : ∀ e ∈ d, e.id = x.id → e.kind = x.kind ∧ e.node = x.node := fun e he => hT.1 e (by simp [he]) x (by simp)
  -- a start whose end has been seen does not occur
  have hnoend : x.start = true → x.kind ≠ .trace → ∀ e' ∈ d, e'.start = false → e'.id ≠ x.id := by
    intro hs hk e' he' h1 h2
    obtain ⟨e2, he2, h3, h4⟩ := hI.ends e' he' h1 (by rw [(hkin e' he' h2).1]; exact hk)
    rcases hdiff e2 he2 with h5 | h5
    · exact h5 (h4.trans h2)
    · exact h5 (h3.trans hs.symm)
  -- the list of active events
  have hact : x.kind ≠ .trace → (((v'.act x.kind x.node).map (·.id)).Nodup ∧
      ((x.start = true ∧ v'.act x.kind x.node = x :: v.act x.kind x.node) ∨
       (x.start = false ∧ (∃ e ∈ v.act x.kind x.node, e.id = x.id) ∧ ∀ e, e ∈ v'.act x.kind x.node ↔ e ∈ v.act x.kind x.node ∧ e.id ≠ x.id))) := by
    intro hk
    have h1 := (hself hk).1
    unfold active at h1
    cases hs : x.start
    · rw [hs] at h1
      simp only [Bool.false_eq_true, if_false] at h1
      obtain ⟨a1, a2, a3⟩ := deleteActive_spec _ _ _ h1 (hI.nodup _ _ hk)
      exact ⟨a3, Or.inr ⟨rfl, a1, a2⟩⟩
    · rw [hs] at h1
      simp only [if_true, Option.some.injEq] at h1
      refine ⟨?_, Or.inl ⟨rfl, h1.symm⟩⟩
      rw [← h1, List.map_cons, List.nodup_cons]
      refine ⟨?_, hI.nodup _ _ hk⟩
      intro h2
      obtain ⟨e, he, h3⟩ := List.mem_map.1 h2
      obtain ⟨b1, b2, _⟩ := hI.sound _ _ hk e he
      rcases hdiff e b1 with h5 | h5
      · exact h5 h3
      · exact h5 (b2.trans hs.symm)
  have hold : ∀ (k : Kind) (n : Nat), k ≠ .trace → (k = x.kind ∧ n = x.node) ∨
      (v'.act k n = v.act k n ∧ v'.has k n = v.has k n ∧ v'.buf k n = v.buf k n ∧ (k ≠ x.kind ∨ n ≠ x.node)) := by
    intro k n hk
    by_cases hkn : k = x.kind ∧ n = x.node
    · exact Or.inl hkn
    · right
      have h2 : k ≠ x.kind ∨ n ≠ x.node := by
        by_cases h3 : k = x.kind
        · exact Or.inr fun h4 => hkn ⟨h3, h4⟩
        · exact Or.inl h3
      obtain ⟨a, b, c⟩ := hsame k n hk h2
      exact ⟨a, b, c, h2⟩
  refine ⟨?_, ?_, ?_, ?_, ?_, ?_, ?_⟩
  · intro k n hk
    rcases hold k n hk with ⟨rfl, rfl⟩ | ⟨a, _⟩
    · exact (hact hk).1
    · rw [a]; exact hI.nodup k n hk
  · intro k n hk e he
    rcases hold k n hk with ⟨rfl, rfl⟩ | ⟨a, _, _, hne⟩
    · rcases (hact hk).2 with ⟨hs, hl⟩ | ⟨hs, _, hl⟩
      · rw [hl] at he
        rcases List.mem_cons.1 he with rfl | he
        · refine ⟨by simp, hs, rfl, rfl, ?_⟩
          intro e' he' h1
          rcases List.mem_append.1 he' with he' | he'
          · exact hnoend hs hk e' he' h1
          · simp only [List.mem_singleton] at he'
            rw [he', hs] at h1; exact absurd h1 (by simp)
        · obtain ⟨b1, b2, b3, b4, b5⟩ := hI.sound _ _ hk e he
          refine ⟨by simp [b1], b2, b3, b4, ?_⟩
          intro e' he' h1
          rcases List.mem_append.1 he' with he' | he'
          · exact b5 e' he' h1
          · simp only [List.mem_singleton] at he'
            rw [he', hs] at h1; exact absurd h1 (by simp)
      · obtain ⟨he, hne⟩ := (hl e).1 he
        obtain ⟨b1, b2, b3, b4, b5⟩ := hI.sound _ _ hk e he
        refine ⟨by simp [b1], b2, b3, b4, ?_⟩
        intro e' he' h1
        rcases List.mem_append.1 he' with he' | he'
        · exact b5 e' he' h1
        · simp only [List.mem_singleton] at he'
          rw [he']; exact fun h => hne h.symm
    · rw [a] at he
      obtain ⟨b1, b2, b3, b4, b5⟩ := hI.sound _ _ hk e he
      refine ⟨by simp [b1], b2, b3, b4, ?_⟩
      intro e' he' h1
      rcases List.mem_append.1 he' with he' | he'
      · exact b5 e' he' h1
      · simp only [List.mem_singleton] at he'
        rw [he']
        intro h2
        obtain ⟨c1, c2⟩ := hkin e b1 h2.symm
        rcases hne with h3 | h3
        · exact h3 (b3.symm.trans c1)
        · exact h3 (b4.symm.trans c2)
  · intro e he hs hk
    rcases List.mem_append.1 he with he | he
    · rcases hI.complete e he hs hk with h1 | ⟨e', he', h1⟩
      · rcases hold e.kind e.node hk with ⟨h2, h3⟩ | ⟨a, _⟩
        · rw [h2] at hk
          rw [h2, h3] at h1 ⊢
          rcases (hact hk).2 with ⟨_, hl⟩ | ⟨hs', _, hl⟩
          · left; rw [hl]; exact List.mem_cons_of_mem _ h1
          · by_cases h4 : e.id = x.id
            · right; exact ⟨x, by simp, hs', h4.symm⟩
            · left; exact (hl e).2 ⟨h1, h4⟩
        · left; rw [a]; exact h1
      · right; exact ⟨e', by simp [he'], h1⟩
    · simp only [List.mem_singleton] at he
      subst he
      left
      rcases (hact hk).2 with ⟨_, hl⟩ | ⟨hs', _⟩
      · rw [hl]; simp
      · rw [hs] at hs'; exact absurd hs' (by simp)
  · intro e he hs hk
    rcases List.mem_append.1 he with he | he
    · obtain ⟨e', he', h1⟩ := hI.ends e he hs hk
      exact ⟨e', by simp [he'], h1⟩
    · simp only [List.mem_singleton] at he
      subst he
      rcases (hact hk).2 with ⟨hs', _⟩ | ⟨_, ⟨e', he', h1⟩, _⟩
      · rw [hs] at hs'; exact absurd hs' (by simp)
      · obtain ⟨b1, b2, _⟩ := hI.sound _ _ hk e' he'
        exact ⟨e', by simp [b1], b2, h1⟩
  · intro k n hk hoff e he hs hek hen
    rcases hold k n hk with ⟨rfl, rfl⟩ | ⟨_, b, _, hne⟩
    · rw [(hself hk).2.1] at hoff
      rcases List.mem_append.1 he with he | he
      · exact ⟨x, by simp, hoff, rfl, rfl, hpast e he⟩
      · simp only [List.mem_singleton] at he
        subst he
        rw [hs] at hoff; exact absurd hoff (by simp)
    · rw [b] at hoff
      rcases List.mem_append.1 he with he | he
      · obtain ⟨e', he', h1⟩ := hI.off k n hk hoff e he hs hek hen
        exact ⟨e', by simp [he'], h1⟩
      · simp only [List.mem_singleton] at he
        subst he
        rcases hne with h3 | h3
        · exact absurd hek.symm h3
        · exact absurd hen.symm h3
  · intro k n hk hon
    rcases hold k n hk with ⟨rfl, rfl⟩ | ⟨_, b, _⟩
    · exact ⟨x, by simp, rfl, rfl⟩
    · rw [b] at hon
      obtain ⟨e, he, h1⟩ := hI.on k n hk hon
      exact ⟨e, by simp [he], h1⟩
  · intro k n hk hon
    rcases hold k n hk with ⟨rfl, rfl⟩ | ⟨a, b, c, _⟩
    · exact (hself hk).2.2
    · rw [b] at hon
      rw [a, c]; exact hI.buf k n hk hon

theorem Tidy.sub {a b : List (Event F)} (h : Tidy (a ++ b)) : Tidy a :=
  ⟨fun x hx y hy => h.1 x (by simp [hx]) y (by simp [hy]), (List.pairwise_append.1 h.2).1⟩

theorem evInv_all (o : Ops F) (d0 d : List (Event F)) (v v' : Ev F) (chg chg' : Nat → Bool)
    (hT : Tidy (d0 ++ d)) (hB : (d0 ++ d).Pairwise Before) (hI : EvInv o d0 v) (h : procAll o (v, chg) d = some (v', chg')) :
    EvInv o (d0 ++ d) v' := by
  induction d generalizing d0 v chg with
  | nil =>
    simp only [procAll, Option.some.injEq, Prod.mk.injEq] at h
    rw [← h.1, List.append_nil]; exact hI
  | cons x xs ih =>
    rw [procAll] at h
    cases h1 : process1 o (v, chg) x with
    | none => rw [h1] at h; simp at h
    | some s =>
      obtain ⟨v1, c1⟩ := s
      rw [h1] at h
      simp only [Option.bind_some] at h
      have e1 : d0 ++ x :: xs = d0 ++ [x] ++ xs := by simp
      rw [e1] at hT hB ⊢
      exact ih (d0 ++ [x]) v1 c1 hT hB (evInv_step o d0 v v1 chg c1 x hT.sub (List.pairwise_append.1 hB).1 hI h1) h

theorem tidy_of_sorted {o : Ops F} {items : List (Item F)} {evs : List (Event F)} (h : Sorted o items evs) : Tidy evs := by
  refine ⟨?_, ?_⟩
  · intro a ha b hb hab
    obtain ⟨i, hi, hi2⟩ := mem_create (h.1.mem_iff.1 ha)
    obtain ⟨j, hj, hj2⟩ := mem_create (h.1.mem_iff.1 hb)
    rw [hab, hj] at hi
    obtain ⟨_, a1, a2, _⟩ := events_cases o _ i a hi2
    obtain ⟨_, b1, b2, _⟩ := events_cases o _ j b hj2
    rw [Option.some.inj hi] at b1 b2
    exact ⟨a1.trans b1.symm, a2.trans b2.symm⟩
  · rw [h.1.pairwise_iff (R := fun a b : Event F => a.id ≠ b.id ∨ a.start ≠ b.start)
      (by rintro a b (h | h); exact Or.inl (Ne.symm h); exact Or.inr (Ne.symm h))]
    unfold createEvents
    rw [List.pairwise_flatten]
    constructor
    · intro l hl
      rw [List.mem_map] at hl
      obtain ⟨⟨i, n⟩, _, rfl⟩ := hl
      unfold Item.events
      cases i.kind <;> simp
    · rw [List.pairwise_map]
      have := List.pairwise_lt_range (n := items.length)
      have hz : (items.zipIdx.map Prod.snd).Pairwise (· < ·) := by
        rw [List.zipIdx_map_snd, ← List.range_eq_range']
        exact this
      rw [List.pairwise_map] at hz
      refine hz.imp ?_
      intro a b hab x hx y hy
      left
      rw [(events_cases o _ _ x hx).1, (events_cases o _ _ y hy).1]
      omega

/-- The event state at a time. -/
theorem evAt_inv {o : Ops F} {items : List (Item F)} {evs : List (Event F)} (hS : Sorted o items evs) (t : Int) (v : Ev F) (rest : List (Event F))
    (h : EvAt o evs t v rest) :
    ∃ d, evs = d ++ rest ∧ EvInv o d v ∧ (∀ e ∈ evs, e ∈ d ↔ e.time ≤ t) ∧ ∀ e ∈ rest, t < e.time := by
  obtain ⟨c, h⟩ := h
  obtain ⟨d, a1, a2, a3, a4⟩ := process_split o t evs rest _ _ h
  have hB := sorted_before hS
  have hT := tidy_of_sorted hS
  have hl : ∀ e ∈ rest, t < e.time := by
    apply rest_later _ t a4
    rw [a1] at hB
    exact (List.pairwise_append.1 hB).2.1
  refine ⟨d, a1, ?_, ?_, hl⟩
  · rw [a1] at hT hB
    have := evInv_all o [] d (ev0 o) v _ c hT.sub (List.pairwise_append.1 hB).1 (evInv_nil o) a2
    simpa using this
  · intro e he
    constructor
    · exact a3 e
    · intro ht
      rw [a1] at he
      rcases List.mem_append.1 he with he | he
      · exact he
      · have := hl e he; omega

/-! ### Consequences -/

theorem meet_spec (hE : Exact p.o den) (es : List (Event F)) :
    (den (meet p.o es).h ρ = true ↔ ∀ e ∈ es, den e.H ρ = true) ∧ (den (meet p.o es).l ρ = true ↔ ∀ e ∈ es, den e.L ρ = true) := by
  unfold meet
  have key : ∀ (es : List (Event F)) (v : DR F), 
      (den (es.foldl (fun v e => (⟨p.o.and v.h e.H, p.o.and v.l e.L⟩ : DR F)) v).h ρ = true ↔ den v.h ρ = true ∧ ∀ e ∈ es, den e.H ρ = true) ∧
      (den (es.foldl (fun v e => (⟨p.o.and v.h e.H, p.o.and v.l e.L⟩ : DR F)) v).l ρ = true ↔ den v.l ρ = true ∧ ∀ e ∈ es, den e.L ρ = true) := by
    intro es
    induction es with
    | nil => simp
    | cons e es ih =>
      intro v
      obtain ⟨a, b⟩ := ih ⟨p.o.and v.h e.H, p.o.and v.l e.L⟩
      rw [List.foldl_cons, a, b]
      simp only [hE.and, Bool.and_eq_true, List.mem_cons, forall_eq_or_imp, and_assoc, iff_self, and_self]
  have := key es ⟨p.o.one, p.o.one⟩
  simpa [hE.one] using this

/-- An active event belongs to an item whose interval contains the time. -/
theorem active_item {o : Ops F} {items : List (Item F)} {evs : List (Event F)} (hS : Sorted o items evs) (t : Int) (v : Ev F) (rest : List (Event F))
    (h : EvAt o evs t v rest) (k : Kind) (hk : k ≠ .trace) (n : Nat) (e : Event F) (he : e ∈ v.act k n) :
    ∃ i ∈ items, i.kind = k ∧ i.node = n ∧ i.frm ≤ t ∧ t < i.til ∧ e ∈ i.events o e.id ∧ e.start = true := by
  obtain ⟨d, a1, a2, a3, a4⟩ := evAt_inv hS t v rest h
  obtain ⟨b1, b2, b3, b4, b5⟩ := a2.sound k n hk e he
  have hev : e ∈ evs := by rw [a1]; simp [b1]
  obtain ⟨i, hi, hi2⟩ := mem_create (hS.1.mem_iff.1 hev)
  obtain ⟨_, c2, c3, c4⟩ := events_cases o _ i e hi2
  rw [b2, if_pos rfl] at c4
  refine ⟨i, List.mem_of_getElem? hi, c2.symm.trans b3, c3.symm.trans b4, ?_, ?_, hi2, b2⟩
  · rw [← c4]; exact (a3 e hev).1 b1
  · obtain ⟨e', he', hs'⟩ := events_start o e.id i false
    obtain ⟨f1, f2, f3, f4⟩ := events_cases o _ i e' he'
    rw [hs'] at f4
    simp only [Bool.false_eq_true, if_false] at f4
    have hm : e' ∈ evs := hS.1.mem_iff.2 (create_mem hi e' he')
    rw [← f4]
    apply Decidable.byContradiction
    intro hle
    exact b5 e' ((a3 e' hm).2 (by omega)) hs' f1

/-- A consequent in force is checked. -/
theorem cons_active {items : List (Item F)} {evs : List (Event F)} (hS : Sorted p.o items evs) (hF : Fair p items)
    (t : Int) (v : Ev F) (rest : List (Event F))
    (h : EvAt p.o evs t v rest) (i : Item F) (hi : i ∈ items) (hk : i.kind = .cons) (h1 : i.frm ≤ t) (h2 : t < i.til) :
    v.hasCons i.node = true ∧ v.cons i.node = meet p.o (v.actC i.node) ∧
    ∃ e ∈ v.actC i.node, e.H = p.o.or (p.o.not i.cond) i.val ∧ e.L = p.o.or (p.o.not i.cond) (p.o.not i.val) := by
  obtain ⟨d, a1, a2, a3, a4⟩ := evAt_inv hS t v rest h
  obtain ⟨n, hn⟩ := List.getElem?_of_mem hi
  obtain ⟨e, he, hs⟩ := events_start p.o n i true
  obtain ⟨f1, f2, f3, f4⟩ := events_cases p.o _ i e he
  rw [hs, if_pos rfl] at f4
  have hm : e ∈ evs := hS.1.mem_iff.2 (create_mem hn e he)
  have hd : e ∈ d := (a3 e hm).2 (by omega)
  have hon : v.hasCons i.node = true := by
    cases hc : v.hasCons i.node with
    | true => rfl
    | false =>
      exfalso
      obtain ⟨e', g1, g2, g3, g4, g5⟩ := a2.off .cons i.node (by simp) hc e hd hs (f2.trans hk) f3
      have hm' : e' ∈ evs := by rw [a1]; simp [g1]
      obtain ⟨j, hj, hj2⟩ := mem_create (hS.1.mem_iff.1 hm')
      obtain ⟨_, l2, l3, l4⟩ := events_cases p.o _ j e' hj2
      rw [g2] at l4
      simp only [Bool.false_eq_true, if_false] at l4
      have ht' := (a3 e' hm').1 g1
      have hlt : e.time < e'.time := by
        rcases g5 with g5 | ⟨g5, g6 | ⟨_, g6⟩⟩
        · exact g5
        · rw [f3, g4] at g6; omega
        · unfold Event.code at g6
          rw [f2, hk, g3, hs, g2] at g6
          simp at g6
      -- the start of `j` is processed, so its interval is not empty
      obtain ⟨e2, m1, m2, m3⟩ := a2.ends e' g1 g2 (by rw [g3]; simp)
      have hm2 : e2 ∈ evs := by rw [a1]; simp [m1]
      have htime : j.frm ≤ t := by
        obtain ⟨j', hj', hj2'⟩ := mem_create (hS.1.mem_iff.1 hm2)
        rw [m3, hj] at hj'
        obtain ⟨_, _, _, n4⟩ := events_cases p.o _ j' e2 hj2'
        rw [m2, if_pos rfl, ← Option.some.inj hj'] at n4
        rw [← n4]; exact (a3 e2 hm2).1 m1
      have := hF.cons i hi j (List.mem_of_getElem? hj) hk (l2.symm.trans g3) (g4.symm.trans l3) (by omega) (by omega)
      omega
  refine ⟨hon, a2.buf .cons i.node (by simp) hon, e, ?_, ?_⟩
  · rcases a2.complete e hd hs (by rw [f2, hk]; simp) with g | ⟨e', g1, g2, g3⟩
    · rw [f2, hk, f3] at g; exact g
    · exfalso
      have hm' : e' ∈ evs := by rw [a1]; simp [g1]
      obtain ⟨j, hj, hj2⟩ := mem_create (hS.1.mem_iff.1 hm')
      rw [g3, f1, hn] at hj
      obtain ⟨_, _, _, l4⟩ := events_cases p.o _ j e' hj2
      rw [g2, ← Option.some.inj hj] at l4
      simp only [Bool.false_eq_true, if_false] at l4
      have := (a3 e' hm').1 g1
      omega
  · exact events_values p.o n i e he hs (Or.inr hk)

/-- Quiet nodes and noticed changes. -/
theorem evOK {items : List (Item F)} {evs : List (Event F)} (hS : Sorted p.o items evs) (hF : Fair p items) : EvOK p evs where
  quiet := by
    intro t v rest h
    obtain ⟨d, a1, a2, _, _⟩ := evAt_inv hS t v rest h
    have key : ∀ (k : Kind) (n : Nat), k.acts = true → v.has k n = true → ∃ i ∈ items, i.kind.acts = true ∧ i.node = n := by
      intro k n hk hv
      obtain ⟨e, he, h1, h2⟩ := a2.on k n (by rintro rfl; simp [Kind.acts] at hk) hv
      obtain ⟨i, hi, hi2⟩ := mem_create (hS.1.mem_iff.1 (by rw [a1]; simp [he] : e ∈ evs))
      obtain ⟨_, b2, b3, _⟩ := events_cases p.o _ i e hi2
      exact ⟨i, List.mem_of_getElem? hi, by rw [← b2, h1]; exact hk, b3.symm.trans h2⟩
    have no : ∀ n, (∀ i ∈ items, i.kind.acts = true → i.node ≠ n) → v.hasWeak n = false ∧ v.hasAnt n = false := by
      intro n hn
      constructor
      · cases hv : v.hasWeak n with
        | false => rfl
        | true => obtain ⟨i, hi, h1, h2⟩ := key .weak n (by simp [Kind.acts]) hv; exact absurd h2 (hn i hi h1)
      · cases hv : v.hasAnt n with
        | false => rfl
        | true => obtain ⟨i, hi, h1, h2⟩ := key .ant n (by simp [Kind.acts]) hv; exact absurd h2 (hn i hi h1)
    refine ⟨?_, ?_⟩
    · intro k hk hd n hn
      exact no n fun i hi h1 h2 => (hF.acts i hi h1).2 k hk hd (h2 ▸ hn)
    · intro n hn
      exact no n fun i hi h1 h2 => by have := (hF.acts i hi h1).1; omega
  chg := by
    intro t v v' chg chg' rest rest' h hp n
    obtain ⟨d, a1, a2, a3, a4⟩ := evAt_inv hS (t - 1) v rest h
    obtain ⟨ds, b1, b2, b3, b4⟩ := process_split p.o t rest rest' _ _ hp
    have hB := sorted_before hS
    have hall : ∀ e ∈ ds, e ∈ evs ∧ e.time = t := by
      intro e he
      have h1 := a4 e (by rw [b1]; simp [he])
      have h2 := b3 e he
      exact ⟨by rw [a1, b1]; simp [he], by omega⟩
    have hds : ∀ e ∈ evs, e.time = t → e ∈ ds := by
      intro e he ht
      have h1 : e ∉ d := fun h => by have := (a3 e he).1 h; omega
      rw [a1] at he
      rcases List.mem_append.1 he with he | he
      · exact absurd he h1
      · have hl : ∀ e ∈ rest', t < e.time := by
          apply rest_later _ t b4
          rw [a1, b1] at hB
          exact (List.pairwise_append.1 (List.pairwise_append.1 hB).2.1).2.1
        rw [b1] at he
        rcases List.mem_append.1 he with he | he
        · exact he
        · have := hl e he; omega
    have hBd : ds.Pairwise Before := by
      rw [a1, b1] at hB
      exact (List.pairwise_append.1 (List.pairwise_append.1 hB).2.1).1
    have hBi : ∀ (es1 es2 : List (Event F)) (x : Event F), ds = es1 ++ x :: es2 → ∀ e ∈ es1, Before e x := by
      intro es1 es2 x hsp e he
      rw [hsp] at hBd
      exact (List.pairwise_append.1 hBd).2.2 e he x (by simp)
    have hitem : ∀ e ∈ ds, ∃ i ∈ items, i.kind = e.kind ∧ i.node = e.node ∧ (if e.start then i.frm else i.til) = t := by
      intro e he
      obtain ⟨i, hi, hi2⟩ := mem_create (hS.1.mem_iff.1 (hall e he).1)
      obtain ⟨_, c2, c3, c4⟩ := events_cases p.o _ i e hi2
      exact ⟨i, List.mem_of_getElem? hi, c2.symm, c3.symm, by rw [← c4]; exact (hall e he).2⟩
    have hcode : ∀ e : Event F, (e.kind.acts = true → e.code ≤ (if e.start then 1 else 5)) ∧ (e.kind.acts = false → (if e.start then 2 else 6) ≤ e.code) := by
      intro e
      unfold Event.code
      cases e.kind <;> cases e.start <;> simp [Kind.acts]
    -- the invariant
    have key : ∀ (es2 es1 : List (Event F)) (w : Ev F) (c : Nat → Bool), ds = es1 ++ es2 →
        ((∀ e ∈ es1, e.node = n → e.kind.acts = false) → SameAdj v w n) →
        (c n = true ∨ (∀ e ∈ es1, e.node = n → e.kind.acts = false) ∨ ∃ e ∈ es2, e.node = n ∧ e.kind.acts = true ∧ e.start = true) →
        procAll p.o (w, c) es2 = some (v', chg') → chg' n = true ∨ SameAdj v v' n := by
      intro es2
      induction es2 with
      | nil =>
        intro es1 w c _ hsame hinv hp
        simp only [procAll, Option.some.injEq, Prod.mk.injEq] at hp
        rw [← hp.1, ← hp.2]
        rcases hinv with h | h | ⟨e, he, _⟩
        · exact Or.inl h
        · exact Or.inr (hsame h)
        · simp at he
      | cons x xs ih =>
        intro es1 w c hsp hsa hinv hp
        rw [procAll] at hp
        cases h1 : process1 p.o (w, c) x with
        | none => rw [h1] at hp; simp at hp
        | some s =>
          obtain ⟨w1, c1⟩ := s
          rw [h1] at hp
          simp only [Option.bind_some] at hp
          obtain ⟨hsame, _, hc⟩ := process1_spec p.o w w1 c c1 x h1
          refine ih (es1 ++ [x]) w1 c1 (by rw [hsp]; simp) ?_ ?_ hp
          · intro hno
            have h := hsa fun e he => hno e (by simp [he])
            have hx : x.node ≠ n ∨ x.kind.acts = false := by
              by_cases hx : x.node = n
              · exact Or.inr (hno x (by simp) hx)
              · exact Or.inl hx
            have hw := hsame .weak n (by simp) (by
              rcases hx with hx | hx
              · exact Or.inr (Ne.symm hx)
              · left; intro h; rw [← h] at hx; simp [Kind.acts] at hx)
            have ha := hsame .ant n (by simp) (by
              rcases hx with hx | hx
              · exact Or.inr (Ne.symm hx)
              · left; intro h; rw [← h] at hx; simp [Kind.acts] at hx)
            simp only [Ev.act, Ev.has, Ev.buf] at hw ha
            unfold SameAdj at h ⊢
            rw [hw.2.1, hw.2.2, ha.2.1, ha.2.2]
            exact h
          · by_cases hx : x.node = n
            · cases hact : x.kind.acts with
              | true => left; rw [hc, hact, ← hx]; simp [upd]
              | false =>
                right
                by_cases hne : ∀ e ∈ es1, e.node = n → e.kind.acts = false
                · left
                  intro e he hen
                  rcases List.mem_append.1 he with he | he
                  · exact hne e he hen
                  · simp only [List.mem_singleton] at he
                    rw [he]; exact hact
                · right
                  obtain ⟨y, hy, hyn, hya⟩ : ∃ y ∈ es1, y.node = n ∧ y.kind.acts = true := by
                    apply Decidable.byContradiction
                    intro hno
                    apply hne
                    intro e he hen
                    cases h : e.kind.acts with
                    | false => rfl
                    | true => exact absurd ⟨e, he, hen, h⟩ hno
                  have hyd : y ∈ ds := by rw [hsp]; simp [hy]
                  have hxd : x ∈ ds := by rw [hsp]; simp
                  have hcmp : x.code ≤ y.code := by
                    rcases hBi es1 xs x hsp y hy with h | ⟨_, h | ⟨_, h⟩⟩
                    · have := (hall y hyd).2; have := (hall x hxd).2; omega
                    · omega
                    · exact h
                  have hy1 := (hcode y).1 hya
                  have hx1 := (hcode x).2 hact
                  have hys : y.start = false := by
                    cases h : y.start with
                    | false => rfl
                    | true => rw [h] at hy1; simp only [if_true] at hy1; split at hx1 <;> omega
                  have hxs : x.start = true := by
                    cases h : x.start with
                    | true => rfl
                    | false => rw [h] at hx1; rw [hys] at hy1; simp at hx1 hy1; omega
                  obtain ⟨i, hi, i1, i2, i3⟩ := hitem y hyd
                  obtain ⟨j, hj, j1, j2, j3⟩ := hitem x hxd
                  rw [hys] at i3
                  rw [hxs] at j3
                  simp only [Bool.false_eq_true, if_false, if_true] at i3 j3
                  obtain ⟨l, hl, l1, l2, l3⟩ := hF.change i hi j hj (by rw [i1]; exact hya) (by rw [j1]; exact hact)
                    (by rw [i2, j2, hyn, hx]) (by rw [i3, j3])
                  obtain ⟨m, hm⟩ := List.getElem?_of_mem hl
                  obtain ⟨z, hz, hzs⟩ := events_start p.o m l true
                  obtain ⟨_, z2, z3, z4⟩ := events_cases p.o _ l z hz
                  rw [hzs, if_pos rfl] at z4
                  have hzd : z ∈ ds := hds z (hS.1.mem_iff.2 (create_mem hm z hz)) (by rw [z4, l3, i3])
                  have hzn : z.node = n := by rw [z3, l2, i2, hyn]
                  have hza : z.kind.acts = true := by rw [z2]; exact l1
                  rw [hsp] at hzd
                  rcases List.mem_append.1 hzd with hzd | hzd
                  · exfalso
                    have hz1 := (hcode z).1 hza
                    rw [hzs] at hz1
                    rw [hxs] at hx1
                    simp only [if_true] at hz1 hx1
                    have hzd' : z ∈ ds := by rw [hsp]; simp [hzd]
                    rcases hBi es1 xs x hsp z hzd with h | ⟨_, h | ⟨_, h⟩⟩
                    · have := (hall z hzd').2; have := (hall x hxd).2; omega
                    · omega
                    · omega
                  · rcases List.mem_cons.1 hzd with rfl | hzd
                    · rw [hact] at hza; exact absurd hza (by simp)
                    · exact ⟨z, hzd, hzn, hza, hzs⟩
            · rcases hinv with h | h | ⟨e, he, g1, g2, g3⟩
              · left; rw [hc]; simp [upd, Ne.symm hx, h]
              · right; left
                intro e he hen
                rcases List.mem_append.1 he with he | he
                · exact h e he hen
                · simp only [List.mem_singleton] at he
                  rw [he] at hen; exact absurd hen hx
              · right; right
                rcases List.mem_cons.1 he with rfl | he
                · exact absurd g1 hx
                · exact ⟨e, he, g1, g2, g3⟩
    exact key ds [] v chg rfl (fun _ => ⟨rfl, rfl, rfl, rfl⟩) (Or.inr (Or.inl (by simp))) b2

end Voss.Ste
