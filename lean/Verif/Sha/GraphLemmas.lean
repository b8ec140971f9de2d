import Verif.Sha.LineLemmas
import Mathlib.Data.List.Nodup

/- Invariants of the traversal. -/
namespace Voss.Sha

/-- The line of the node `x` with number `k`, when the table is `tbl`. -/
def LineOf (h : Heap) (tbl : List (Addr × Nat)) (x : Addr) (k : Nat) (p : Text) : Prop :=
  ∃ ns, List.Forall₂ (fun c n => (c, n) ∈ tbl) (h x).kids ns ∧ p = line k ((h x).shape ns)

/-- A state of the traversal of nodes with the property `P`. -/
structure Inv (h : Heap) (P : Addr → Prop) (st : St) : Prop where
  keys : (st.tbl.map Prod.fst).Nodup
  vals : (st.tbl.map Prod.snd).Nodup
  low : ∀ x k, (x, k) ∈ st.tbl → k < st.cnt
  prop : ∀ x k, (x, k) ∈ st.tbl → P x
  lines : ∀ p ∈ st.out, ∃ x k, (x, k) ∈ st.tbl ∧ LineOf h st.tbl x k p

/-- What a visit does to the state. -/
structure Step (h : Heap) (st st' : St) : Prop where
  tbl : ∀ e ∈ st.tbl, e ∈ st'.tbl
  out : ∀ p ∈ st.out, p ∈ st'.out
  done : ∀ x k, (x, k) ∈ st'.tbl → (x, k) ∈ st.tbl ∨ ∃ p ∈ st'.out, LineOf h st'.tbl x k p

theorem LineOf.mono {h : Heap} {t t' : List (Addr × Nat)} {x k p} (hs : ∀ e ∈ t, e ∈ t') (hl : LineOf h t x k p) :
    LineOf h t' x k p := by
  obtain ⟨ns, h1, h2⟩ := hl
  exact ⟨ns, h1.imp (fun _ _ hm => hs _ hm), h2⟩

theorem Step.refl (h : Heap) (st : St) : Step h st st := ⟨fun _ h => h, fun _ h => h, fun _ _ h => .inl h⟩

theorem Step.trans {h : Heap} {a b c : St} (h1 : Step h a b) (h2 : Step h b c) : Step h a c := by
  refine ⟨fun e he => h2.tbl e (h1.tbl e he), fun p hp => h2.out p (h1.out p hp), ?_⟩
  intro x k hx
  rcases h2.done x k hx with h3 | h3
  · rcases h1.done x k h3 with h4 | ⟨p, hp, hl⟩
    · exact .inl h4
    · exact .inr ⟨p, h2.out p hp, hl.mono h2.tbl⟩
  · exact .inr h3

theorem lookup_mem {t : List (Addr × Nat)} {a k : Nat} (h : t.lookup a = some k) : (a, k) ∈ t := by
  induction t with
  | nil => simp at h
  | cons e t ih =>
    obtain ⟨x, y⟩ := e
    rw [List.lookup_cons] at h
    by_cases hx : a = x
    · subst hx; simp at h; simp [h]
    · have : (a == x) = false := by simpa using hx
      rw [this] at h
      exact List.mem_cons_of_mem _ (ih h)

theorem lookup_none {t : List (Addr × Nat)} {a : Nat} (h : t.lookup a = none) : ∀ k, (a, k) ∉ t := by
  induction t with
  | nil => intro k; simp
  | cons e t ih =>
    obtain ⟨x, y⟩ := e
    rw [List.lookup_cons] at h
    by_cases hx : a = x
    · subst hx; simp at h
    · have : (a == x) = false := by simpa using hx
      rw [this] at h
      intro k hk
      rcases List.mem_cons.1 hk with e | e
      · exact hx (by simpa using congrArg Prod.fst e)
      · exact ih h k e

/-- What one visit is to guarantee. -/
def Visits (h : Heap) (P : Addr → Prop) (f : St → Addr → Option (Nat × St)) : Prop :=
  ∀ st a k st', Inv h P st → P a → f st a = some (k, st') → Inv h P st' ∧ Step h st st' ∧ (a, k) ∈ st'.tbl

theorem visitAll_inv {h : Heap} {P : Addr → Prop} {f : St → Addr → Option (Nat × St)} (hf : Visits h P f) :
    ∀ (as : List Addr) (st : St) ks st', Inv h P st → (∀ a ∈ as, P a) → visitAll f st as = some (ks, st') →
      Inv h P st' ∧ Step h st st' ∧ List.Forall₂ (fun c n => (c, n) ∈ st'.tbl) as ks := by
  intro as
  induction as with
  | nil =>
    intro st ks st' hi _ hv
    simp only [visitAll, Option.some.injEq, Prod.mk.injEq] at hv
    obtain ⟨rfl, rfl⟩ := hv
    exact ⟨hi, Step.refl h _, .nil⟩
  | cons a as ih =>
    intro st ks st' hi hp hv
    rw [visitAll] at hv
    cases h1 : f st a with
    | none => rw [h1] at hv; simp at hv
    | some r =>
      obtain ⟨k, st1⟩ := r
      rw [h1] at hv
      simp only at hv
      cases h2 : visitAll f st1 as with
      | none => rw [h2] at hv; simp at hv
      | some r2 =>
        obtain ⟨ks2, st2⟩ := r2
        rw [h2] at hv
        simp only [Option.some.injEq, Prod.mk.injEq] at hv
        obtain ⟨rfl, rfl⟩ := hv
        obtain ⟨i1, s1, m1⟩ := hf st a k st1 hi (hp a (by simp)) h1
        obtain ⟨i2, s2, m2⟩ := ih st1 ks2 st2 i1 (fun x hx => hp x (by simp [hx])) h2
        exact ⟨i2, s1.trans s2, .cons (s2.tbl _ m1) m2⟩

theorem visit_inv {h : Heap} {P : Addr → Prop} (hP : ∀ a, P a → a ≠ 0 ∧ ∀ c ∈ (h a).kids, P c) :
    ∀ n, Visits h P (visit h n) := by
  intro n
  induction n with
  | zero => intro st a k st' _ _ hv; simp [visit] at hv
  | succ n ih =>
    intro st a k st' hi ha hv
    obtain ⟨h0, hk⟩ := hP a ha
    rw [visit, if_neg h0] at hv
    cases hl : st.tbl.lookup a with
    | some j =>
      rw [hl] at hv
      simp only [Option.some.injEq, Prod.mk.injEq] at hv
      obtain ⟨rfl, rfl⟩ := hv
      exact ⟨hi, Step.refl h _, lookup_mem hl⟩
    | none =>
      rw [hl] at hv
      simp only at hv
      have hnew : Inv h P { st with cnt := st.cnt + 1, tbl := (a, st.cnt) :: st.tbl } := by
        refine ⟨?_, ?_, ?_, ?_, ?_⟩
        · simp only [List.map_cons, List.nodup_cons]
          refine ⟨?_, hi.keys⟩
          intro hm
          obtain ⟨⟨x, y⟩, h1, h2⟩ := List.mem_map.1 hm
          simp only at h2
          subst h2
          exact lookup_none hl y h1
        · simp only [List.map_cons, List.nodup_cons]
          refine ⟨?_, hi.vals⟩
          intro hm
          obtain ⟨⟨x, y⟩, h1, h2⟩ := List.mem_map.1 hm
          simp only at h2
          have := hi.low x y h1
          omega
        · intro x y hx
          simp only at hx ⊢
          rcases List.mem_cons.1 hx with e | e
          · simp only [Prod.mk.injEq] at e; omega
          · have := hi.low x y e; omega
        · intro x y hx
          rcases List.mem_cons.1 hx with e | e
          · simp only [Prod.mk.injEq] at e; rw [e.1]; exact ha
          · exact hi.prop x y e
        · intro p hp
          obtain ⟨x, y, h1, h2⟩ := hi.lines p hp
          exact ⟨x, y, List.mem_cons_of_mem _ h1, h2.mono (fun e he => List.mem_cons_of_mem _ he)⟩
      cases h2 : visitAll (visit h n) { st with cnt := st.cnt + 1, tbl := (a, st.cnt) :: st.tbl } (h a).kids with
      | none => rw [h2] at hv; simp at hv
      | some r =>
        obtain ⟨ks, st2⟩ := r
        rw [h2] at hv
        simp only [Option.some.injEq, Prod.mk.injEq] at hv
        obtain ⟨rfl, rfl⟩ := hv
        obtain ⟨i2, s2, m2⟩ := visitAll_inv ih (h a).kids _ ks st2 hnew hk h2
        have hin : (a, st.cnt) ∈ st2.tbl := s2.tbl _ (by simp)
        have hline : LineOf h st2.tbl a st.cnt (line st.cnt ((h a).shape ks)) := ⟨ks, m2, rfl⟩
        refine ⟨⟨i2.keys, i2.vals, i2.low, i2.prop, ?_⟩, ⟨?_, ?_, ?_⟩, hin⟩
        · intro p hp
          simp only [List.mem_append, List.mem_cons, List.not_mem_nil, or_false] at hp
          rcases hp with hp | rfl
          · exact i2.lines p hp
          · exact ⟨a, st.cnt, hin, hline⟩
        · intro e he
          exact s2.tbl e (List.mem_cons_of_mem _ he)
        · intro p hp
          simp only [List.mem_append]
          exact .inl (s2.out p hp)
        · intro x y hx
          rcases s2.done x y hx with h3 | ⟨p, hp, hl⟩
          · rcases List.mem_cons.1 h3 with e | e
            · simp only [Prod.mk.injEq] at e
              obtain ⟨rfl, rfl⟩ := e
              exact .inr ⟨_, by simp, hline⟩
            · exact .inl e
          · exact .inr ⟨p, by simp [hp], hl⟩

theorem start_inv (h : Heap) (P : Addr → Prop) : Inv h P St.start :=
  ⟨by simp [St.start], by simp [St.start], by simp [St.start], by simp [St.start], by simp [St.start]⟩

theorem reach_prop {h : Heap} {root : Addr} (hc : Clean h root) :
    ∀ a, Reach h root a → a ≠ 0 ∧ ∀ c ∈ (h a).kids, Reach h root c :=
  fun a ha => ⟨(hc a ha).1, fun _ hk => .step ha hk⟩

/-- The first node gets the number 1. -/
theorem root_number {h : Heap} {root : Addr} {n k : Nat} {st : St} (hr : root ≠ 0)
    (hv : visit h n St.start root = some (k, st)) : k = 1 := by
  cases n with
  | zero => simp [visit] at hv
  | succ n =>
    rw [visit, if_neg hr] at hv
    simp only [St.start, List.lookup_nil] at hv
    cases h2 : visitAll (visit h n) { St.start with cnt := St.start.cnt + 1, tbl := (root, St.start.cnt) :: St.start.tbl } (h root).kids with
    | none => simp only [St.start] at h2; rw [h2] at hv; simp at hv
    | some r =>
      simp only [St.start] at h2
      rw [h2] at hv
      simp only [Option.some.injEq, Prod.mk.injEq] at hv
      exact hv.1.symm

theorem val_unique {t : List (Addr × Nat)} (h : (t.map Prod.snd).Nodup) {x y k : Nat} (h1 : (x, k) ∈ t) (h2 : (y, k) ∈ t) :
    x = y := by
  induction t with
  | nil => simp at h1
  | cons e t ih =>
    simp only [List.map_cons, List.nodup_cons] at h
    rcases List.mem_cons.1 h1 with e1 | e1 <;> rcases List.mem_cons.1 h2 with e2 | e2
    · rw [← e1] at e2; simpa using (congrArg Prod.fst e2).symm
    · exact absurd (List.mem_map.2 ⟨_, e2, by rw [← e1]⟩) h.1
    · exact absurd (List.mem_map.2 ⟨_, e1, by rw [← e2]⟩) h.1
    · exact ih h.2 e1 e2

theorem key_unique {t : List (Addr × Nat)} (h : (t.map Prod.fst).Nodup) {x k j : Nat} (h1 : (x, k) ∈ t) (h2 : (x, j) ∈ t) :
    k = j := by
  induction t with
  | nil => simp at h1
  | cons e t ih =>
    simp only [List.map_cons, List.nodup_cons] at h
    rcases List.mem_cons.1 h1 with e1 | e1 <;> rcases List.mem_cons.1 h2 with e2 | e2
    · rw [← e1] at e2; simpa using (congrArg Prod.snd e2).symm
    · exact absurd (List.mem_map.2 ⟨_, e2, by rw [← e1]⟩) h.1
    · exact absurd (List.mem_map.2 ⟨_, e1, by rw [← e2]⟩) h.1
    · exact ih h.2 e1 e2

/-- Nodes with the same shape are alike. -/
theorem shape_rel {t t' : List (Addr × Nat)} {m m' : Node} {ns ns' : List Nat}
    (h1 : List.Forall₂ (fun c n => (c, n) ∈ t) m.kids ns) (h2 : List.Forall₂ (fun c n => (c, n) ∈ t') m'.kids ns')
    (h : m.shape ns = m'.shape ns') :
    NodeRel (fun x y => ∃ k, (x, k) ∈ t ∧ (y, k) ∈ t') (fun _ _ => True) m m' := by
  cases m <;> cases m' <;> simp only [Node.shape] at h <;> first | (injection h; done) | skip
  case nil.nil => exact .nil
  case lam.lam v b w c =>
    simp only [Node.kids] at h1 h2
    obtain ⟨n, _, hn, h1', rfl⟩ := List.forall₂_cons_left_iff.1 h1
    obtain ⟨n', _, hn', h2', rfl⟩ := List.forall₂_cons_left_iff.1 h2
    simp only [List.getD_cons_zero, Shape.lam.injEq] at h
    obtain ⟨rfl, rfl⟩ := h
    exact .lam _ ⟨_, hn, hn'⟩
  case app.app l r l' r' =>
    simp only [Node.kids] at h1 h2
    obtain ⟨n, _, hn, h1', rfl⟩ := List.forall₂_cons_left_iff.1 h1
    obtain ⟨n', _, hn', h2', rfl⟩ := List.forall₂_cons_left_iff.1 h2
    obtain ⟨j, _, hj, _, rfl⟩ := List.forall₂_cons_left_iff.1 h1'
    obtain ⟨j', _, hj', _, rfl⟩ := List.forall₂_cons_left_iff.1 h2'
    simp only [List.getD_cons_zero, List.getD_cons_succ, Shape.app.injEq] at h
    obtain ⟨rfl, rfl⟩ := h
    exact .app ⟨_, hn, hn'⟩ ⟨_, hj, hj'⟩
  case cons.cons l r l' r' =>
    simp only [Node.kids] at h1 h2
    obtain ⟨n, _, hn, h1', rfl⟩ := List.forall₂_cons_left_iff.1 h1
    obtain ⟨n', _, hn', h2', rfl⟩ := List.forall₂_cons_left_iff.1 h2
    obtain ⟨j, _, hj, _, rfl⟩ := List.forall₂_cons_left_iff.1 h1'
    obtain ⟨j', _, hj', _, rfl⟩ := List.forall₂_cons_left_iff.1 h2'
    simp only [List.getD_cons_zero, List.getD_cons_succ, Shape.cons.injEq] at h
    obtain ⟨rfl, rfl⟩ := h
    exact .cons ⟨_, hn, hn'⟩ ⟨_, hj, hj'⟩
  case int.int => simp only [Shape.int.injEq] at h; subst h; exact .int _
  case str.str => simp only [Shape.str.injEq] at h; subst h; exact .str _
  case ext.ext => simp only [Shape.ext.injEq] at h; subst h; exact .ext _
  case fmt.fmt => simp only [Shape.fmt.injEq] at h; obtain ⟨rfl, rfl⟩ := h; exact .fmt _ _
  case ref.ref => simp only [Shape.ref.injEq] at h; subst h; exact .ref _ trivial
  case prim.prim => simp only [Shape.prim.injEq] at h; subst h; exact .prim _
  case var.var => simp only [Shape.var.injEq] at h; subst h; exact .var _
  case userdef.userdef => simp only [Shape.userdef.injEq] at h; subst h; exact .userdef _

/-- The pieces are lines. -/
theorem out_lines {h : Heap} {root : Addr} {st : St} (hc : Clean h root) (hi : Inv h (Reach h root) st) :
    ∀ p ∈ st.out, IsLine p := by
  intro p hp
  obtain ⟨x, k, hx, ns, _, e⟩ := hi.lines p hp
  refine ⟨k, _, e, ?_⟩
  rw [shape_text]
  exact (hc x (hi.prop x k hx)).2

/-- Equal pieces: the graphs are the same up to the contents of references. -/
theorem same_of_out {h h' : Heap} {a a' : Addr} {n n' : Nat} {k k' : Nat} {st st' : St} (hc : Clean h a) (hc' : Clean h' a')
    (hv : visit h n St.start a = some (k, st)) (hv' : visit h' n' St.start a' = some (k', st')) (ho : st.out = st'.out) :
    SameGraph (fun _ _ _ => True) h h' a a' (fun x y => ∃ k, (x, k) ∈ st.tbl ∧ (y, k) ∈ st'.tbl) := by
  obtain ⟨i1, s1, m1⟩ := visit_inv (reach_prop hc) n _ _ _ _ (start_inv h _) .root hv
  obtain ⟨i2, s2, m2⟩ := visit_inv (reach_prop hc') n' _ _ _ _ (start_inv h' _) .root hv'
  have e1 := root_number (hc a .root).1 hv
  have e2 := root_number (hc' a' .root).1 hv'
  subst e1; subst e2
  refine ⟨⟨1, m1, m2⟩, ?_, ?_, ?_⟩
  · rintro x y ⟨j, hx, hy⟩
    rcases s1.done x j hx with hh | ⟨p, hp, hl⟩
    · simp [St.start] at hh
    · obtain ⟨z, j', hz, hl'⟩ := i2.lines p (ho ▸ hp)
      obtain ⟨ns, f1, g1⟩ := hl
      obtain ⟨ns', f2, g2⟩ := hl'
      obtain ⟨q1, q2⟩ := line_inj (by rw [shape_text]; exact (hc x (i1.prop x j hx)).2)
        (by rw [shape_text]; exact (hc' z (i2.prop z j' hz)).2) (g1.symm.trans g2)
      subst q1
      have := val_unique i2.vals hz hy
      subst this
      exact shape_rel f1 f2 q2
  · rintro x y z ⟨j, hx, hy⟩ ⟨j', hx', hz⟩
    have := key_unique i1.keys hx hx'
    subst this
    exact val_unique i2.vals hy hz
  · rintro x y z ⟨j, hx, hz⟩ ⟨j', hy, hz'⟩
    have := key_unique i2.keys hz hz'
    subst this
    exact val_unique i1.vals hx hy

/-! ### The other direction -/

/-- Tables of two traversals in step. -/
def TblRel (R : Addr → Addr → Prop) (t t' : List (Addr × Nat)) : Prop :=
  List.Forall₂ (fun e e' => R e.1 e'.1 ∧ e.2 = e'.2) t t'

theorem lookup_rel {R : Addr → Addr → Prop} (hr : ∀ x y z, R x y → R x z → y = z) (hl : ∀ x y z, R x z → R y z → x = y)
    {t t' : List (Addr × Nat)} (h : TblRel R t t') {a a' : Addr} (ha : R a a') : t.lookup a = t'.lookup a' := by
  induction h with
  | nil => rfl
  | @cons e e' t t' h1 _ ih =>
    rw [List.lookup_cons, List.lookup_cons, ih, h1.2]
    have : (a == e.1) = (a' == e'.1) := by
      by_cases hx : a = e.1
      · have : a' = e'.1 := hr _ _ _ ha (hx ▸ h1.1)
        simp [hx, this]
      · have : a' ≠ e'.1 := fun e2 => hx (hl _ _ _ ha (e2 ▸ h1.1))
        simp [hx, this]
    rw [this]

/-- States of two traversals in step. -/
def StRel (R : Addr → Addr → Prop) (s s' : St) : Prop := s.cnt = s'.cnt ∧ TblRel R s.tbl s'.tbl ∧ s.out = s'.out

/-- Results in step. -/
def ResRel {α : Type} (R : Addr → Addr → Prop) : Option (α × St) → Option (α × St) → Prop
  | none, none => True
  | some (k, s), some (k', s') => k = k' ∧ StRel R s s'
  | _, _ => False

theorem visitAll_rel {R : Addr → Addr → Prop} {f f' : St → Addr → Option (Nat × St)}
    (hf : ∀ s s' a a', StRel R s s' → R a a' → ResRel R (f s a) (f' s' a')) :
    ∀ as as' s s', StRel R s s' → List.Forall₂ R as as' → ResRel R (visitAll f s as) (visitAll f' s' as') := by
  intro as as' s s' hs h
  induction h generalizing s s' with
  | nil => exact ⟨rfl, hs⟩
  | @cons a a' as as' h1 _ ih =>
    have := hf s s' a a' hs h1
    rw [visitAll, visitAll]
    cases h2 : f s a with
    | none =>
      rw [h2] at this
      cases h3 : f' s' a' with
      | none => trivial
      | some r => rw [h3] at this; exact this.elim
    | some r =>
      obtain ⟨k, s1⟩ := r
      rw [h2] at this
      cases h3 : f' s' a' with
      | none => rw [h3] at this; exact this.elim
      | some r' =>
        obtain ⟨k', s1'⟩ := r'
        rw [h3] at this
        obtain ⟨rfl, hs1⟩ := this
        have := ih s1 s1' hs1
        simp only
        cases h4 : visitAll f s1 as with
        | none =>
          rw [h4] at this
          cases h5 : visitAll f' s1' as' with
          | none => trivial
          | some r => rw [h5] at this; exact this.elim
        | some r =>
          obtain ⟨ks, s2⟩ := r
          rw [h4] at this
          cases h5 : visitAll f' s1' as' with
          | none => rw [h5] at this; exact this.elim
          | some r' =>
            obtain ⟨ks', s2'⟩ := r'
            rw [h5] at this
            obtain ⟨rfl, hs2⟩ := this
            exact ⟨rfl, hs2⟩

theorem kids_rel {R : Addr → Addr → Prop} {m m' : Node} (h : NodeRel R R m m') :
    List.Forall₂ R m.kids m'.kids ∧ ∀ ns, m.shape ns = m'.shape ns := by
  cases h <;> refine ⟨?_, fun ns => rfl⟩ <;> simp only [Node.kids] <;> try exact .nil
  · exact .cons (by assumption) .nil
  · exact .cons (by assumption) (.cons (by assumption) .nil)
  · exact .cons (by assumption) (.cons (by assumption) .nil)
  · exact .cons (by assumption) .nil

theorem visit_rel {R : Addr → Addr → Prop} {h h' : Heap} (hn : ∀ x y, R x y → NodeRel R R (h x) (h' y))
    (hr : ∀ x y z, R x y → R x z → y = z) (hl : ∀ x y z, R x z → R y z → x = y) (h0 : ∀ x y, R x y → (x = 0 ↔ y = 0)) :
    ∀ n s s' a a', StRel R s s' → R a a' → ResRel R (visit h n s a) (visit h' n s' a') := by
  intro n
  induction n with
  | zero => intro s s' a a' _ _; trivial
  | succ n ih =>
    intro s s' a a' hs ha
    rw [visit, visit]
    by_cases hz : a = 0
    · rw [if_pos hz, if_pos ((h0 _ _ ha).1 hz)]
      exact ⟨rfl, hs⟩
    · rw [if_neg hz, if_neg (fun e => hz ((h0 _ _ ha).2 e))]
      rw [← lookup_rel hr hl hs.2.1 ha]
      cases hk : s.tbl.lookup a with
      | some k => exact ⟨rfl, hs⟩
      | none =>
        simp only
        obtain ⟨k1, k2⟩ := kids_rel (hn _ _ ha)
        have hs1 : StRel R { s with cnt := s.cnt + 1, tbl := (a, s.cnt) :: s.tbl }
            { s' with cnt := s'.cnt + 1, tbl := (a', s'.cnt) :: s'.tbl } :=
          ⟨by simp [hs.1], .cons ⟨ha, hs.1⟩ hs.2.1, hs.2.2⟩
        have := visitAll_rel ih _ _ _ _ hs1 k1
        cases h4 : visitAll (visit h n) { s with cnt := s.cnt + 1, tbl := (a, s.cnt) :: s.tbl } (h a).kids with
        | none =>
          rw [h4] at this
          cases h5 : visitAll (visit h' n) { s' with cnt := s'.cnt + 1, tbl := (a', s'.cnt) :: s'.tbl } (h' a').kids with
          | none => trivial
          | some r => rw [h5] at this; exact this.elim
        | some r =>
          obtain ⟨ks, s2⟩ := r
          rw [h4] at this
          cases h5 : visitAll (visit h' n) { s' with cnt := s'.cnt + 1, tbl := (a', s'.cnt) :: s'.tbl } (h' a').kids with
          | none => rw [h5] at this; exact this.elim
          | some r' =>
            obtain ⟨ks', s2'⟩ := r'
            rw [h5] at this
            obtain ⟨rfl, hs2⟩ := this
            refine ⟨hs.1, hs2.1, hs2.2.1, ?_⟩
            simp only [hs2.2.2, hs.1, k2]

/-! ### Termination -/

/-- The number of nodes that are not in the table. -/
def unseen (N : List Addr) (st : St) : Nat := (N.filter fun a => (st.tbl.lookup a).isNone).length

theorem unseen_mono {N : List Addr} {st st' : St} (h : ∀ e ∈ st.tbl, e ∈ st'.tbl) : unseen N st' ≤ unseen N st := by
  unfold unseen
  induction N with
  | nil => simp
  | cons a N ih =>
    rw [List.filter_cons, List.filter_cons]
    have : (st'.tbl.lookup a).isNone = true → (st.tbl.lookup a).isNone = true := by
      intro h1
      rw [Option.isNone_iff_eq_none] at h1 ⊢
      cases h2 : st.tbl.lookup a with
      | none => rfl
      | some k => exact absurd (h _ (lookup_mem h2)) (lookup_none h1 k)
    by_cases h3 : (st'.tbl.lookup a).isNone = true
    · rw [if_pos h3, if_pos (this h3)]
      simp only [List.length_cons]; omega
    · rw [if_neg h3]
      split
      · simp only [List.length_cons]; omega
      · exact ih

theorem lookup_isSome_of_mem {t : List (Addr × Nat)} {a k : Nat} (h : (a, k) ∈ t) : (t.lookup a).isNone = false := by
  cases h2 : t.lookup a with
  | none => exact absurd h (lookup_none h2 k)
  | some j => rfl

theorem unseen_lt {N : List Addr} {st st' : St} (h : ∀ e ∈ st.tbl, e ∈ st'.tbl) {a k : Nat} (ha : a ∈ N)
    (h1 : st.tbl.lookup a = none) (h2 : (a, k) ∈ st'.tbl) : unseen N st' < unseen N st := by
  induction N with
  | nil => simp at ha
  | cons b N ih =>
    have hm := unseen_mono (N := N) h
    unfold unseen at hm ih ⊢
    rw [List.filter_cons, List.filter_cons]
    by_cases hb : a = b
    · subst hb
      rw [if_neg (by rw [lookup_isSome_of_mem h2]; simp), if_pos (by rw [h1]; rfl)]
      simp only [List.length_cons]; omega
    · have ha' : a ∈ N := by
        rcases List.mem_cons.1 ha with e | e
        · exact absurd e hb
        · exact e
      have := ih ha'
      have h4 : (st'.tbl.lookup b).isNone = true → (st.tbl.lookup b).isNone = true := by
        intro h1
        rw [Option.isNone_iff_eq_none] at h1 ⊢
        cases h2 : st.tbl.lookup b with
        | none => rfl
        | some k => exact absurd (h _ (lookup_mem h2)) (lookup_none h1 k)
      by_cases h3 : (st'.tbl.lookup b).isNone = true
      · rw [if_pos h3, if_pos (h4 h3)]
        simp only [List.length_cons]; omega
      · rw [if_neg h3]
        split
        · simp only [List.length_cons]; omega
        · exact this

/-- A visit only adds to the table. -/
theorem visit_grows (h : Heap) : ∀ n st a k st', visit h n st a = some (k, st') → ∀ e ∈ st.tbl, e ∈ st'.tbl := by
  intro n
  induction n with
  | zero => intro st a k st' hv; simp [visit] at hv
  | succ n ih =>
    intro st a k st' hv
    have hall : ∀ as st ks st', visitAll (visit h n) st as = some (ks, st') → ∀ e ∈ st.tbl, e ∈ st'.tbl := by
      intro as
      induction as with
      | nil =>
        intro st ks st' hv
        simp only [visitAll, Option.some.injEq, Prod.mk.injEq] at hv
        rw [← hv.2]; exact fun e he => he
      | cons a as iha =>
        intro st ks st' hv
        rw [visitAll] at hv
        cases h1 : visit h n st a with
        | none => rw [h1] at hv; simp at hv
        | some r =>
          obtain ⟨k, st1⟩ := r
          rw [h1] at hv
          simp only at hv
          cases h2 : visitAll (visit h n) st1 as with
          | none => rw [h2] at hv; simp at hv
          | some r2 =>
            obtain ⟨ks2, st2⟩ := r2
            rw [h2] at hv
            simp only [Option.some.injEq, Prod.mk.injEq] at hv
            rw [← hv.2]
            exact fun e he => iha _ _ _ h2 e (ih _ _ _ _ h1 e he)
    rw [visit] at hv
    by_cases h0 : a = 0
    · rw [if_pos h0] at hv
      simp only [Option.some.injEq, Prod.mk.injEq] at hv
      rw [← hv.2]; exact fun e he => he
    · rw [if_neg h0] at hv
      cases hl : st.tbl.lookup a with
      | some j =>
        rw [hl] at hv
        simp only [Option.some.injEq, Prod.mk.injEq] at hv
        rw [← hv.2]; exact fun e he => he
      | none =>
        rw [hl] at hv
        simp only at hv
        cases h2 : visitAll (visit h n) { st with cnt := st.cnt + 1, tbl := (a, st.cnt) :: st.tbl } (h a).kids with
        | none => rw [h2] at hv; simp at hv
        | some r =>
          rw [h2] at hv
          simp only [Option.some.injEq, Prod.mk.injEq] at hv
          rw [← hv.2]
          exact fun e he => hall _ _ _ _ h2 e (List.mem_cons_of_mem _ he)

theorem visit_total (h : Heap) (N : List Addr) (hN : ∀ a ∈ N, ∀ c ∈ (h a).kids, c ∈ N) :
    ∀ n st a, a ∈ N → unseen N st < n → ∃ r, visit h n st a = some r := by
  intro n
  induction n with
  | zero => intro st a _ h0; omega
  | succ n ih =>
    intro st a ha hu
    rw [visit]
    by_cases h0 : a = 0
    · rw [if_pos h0]; exact ⟨_, rfl⟩
    · rw [if_neg h0]
      cases hl : st.tbl.lookup a with
      | some j => exact ⟨_, rfl⟩
      | none =>
        simp only
        have hlt := unseen_lt (N := N) (st := st) (st' := { st with cnt := st.cnt + 1, tbl := (a, st.cnt) :: st.tbl })
          (fun e he => List.mem_cons_of_mem _ he) (k := st.cnt) ha hl (by simp)
        have hall : ∀ as st, (∀ c ∈ as, c ∈ N) → unseen N st < n → ∃ r, visitAll (visit h n) st as = some r := by
          intro as
          induction as with
          | nil => intro st _ _; exact ⟨_, rfl⟩
          | cons c as iha =>
            intro st hc hu
            obtain ⟨⟨k, st1⟩, h1⟩ := ih st c (hc c (by simp)) hu
            have hm := unseen_mono (N := N) (visit_grows h n _ _ _ _ h1)
            obtain ⟨⟨ks, st2⟩, h2⟩ := iha st1 (fun x hx => hc x (by simp [hx])) (by omega)
            exact ⟨(k :: ks, st2), by rw [visitAll, h1]; simp only; rw [h2]⟩
        obtain ⟨⟨ks, st2⟩, h2⟩ := hall (h a).kids { st with cnt := st.cnt + 1, tbl := (a, st.cnt) :: st.tbl }
          (fun c hc => hN a ha c hc) (by omega)
        rw [h2]
        exact ⟨_, rfl⟩

end Voss.Sha
