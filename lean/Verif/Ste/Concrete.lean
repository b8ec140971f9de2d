import Verif.Ste.Spec
/-
Concrete circuits: criteria that can be evaluated, and the value types used by the examples and refutations of
`Verif.Ste.Props`.
-/
namespace Voss.Ste
open Voss.Sim

variable {F : Type}

theorem wfNet_of {p : Par F} (h1 : ∀ k ∈ p.net, k.outs.Nodup) (h2 : p.net.Pairwise fun a b => ∀ n ∈ a.outs, n ∉ b.outs)
    (h3 : ∀ k ∈ p.net, ∀ n ∈ k.inps, n < p.nodes) (h4 : ∀ k ∈ p.net, ∀ n ∈ k.outs, 3 < n ∧ n < p.nodes)
    (h5 : ∀ k ∈ p.net, k.rank < p.top) : WFNet p where
  nodup := h1
  inps := h3
  outs := h4
  rank := h5
  disj := by
    intro i j a b ha hb hij n hn hn'
    rw [List.pairwise_iff_getElem] at h2
    obtain ⟨hi, ha⟩ := List.getElem?_eq_some_iff.1 ha
    obtain ⟨hj, hb⟩ := List.getElem?_eq_some_iff.1 hb
    by_cases h : i < j
    · have := h2 i j hi hj h n (by rw [ha]; exact hn)
      rw [hb] at this
      exact this hn'
    · have := h2 j i hj hi (by omega) n (by rw [hb]; exact hn')
      rw [ha] at this
      exact this hn

/-- Insertion of an event at its place in the order of processing. -/
def insertEv (e : Event F) : List (Event F) → List (Event F)
  | [] => [e]
  | x :: xs => if eventCmp x e ≤ 0 then e :: x :: xs else x :: insertEv e xs

/-- A sorted list of the events, in the order of processing. -/
def sortEvs (o : Ops F) (items : List (Item F)) : List (Event F) := (createEvents o items).foldr insertEv []

theorem insertEv_perm (e : Event F) (l : List (Event F)) : (insertEv e l).Perm (e :: l) := by
  induction l with
  | nil => exact .refl _
  | cons x xs ih =>
    unfold insertEv
    split
    · exact .refl _
    · exact (List.Perm.cons x ih).trans (List.Perm.swap e x xs)

theorem eventCmp_anti {a b : Event F} (h : ¬ eventCmp a b ≤ 0) : eventCmp b a ≤ 0 := by
  unfold eventCmp at *
  split at h
  · rename_i ht
    rw [if_pos ht.symm]
    split at h
    · rename_i hn
      rw [if_pos hn.symm]; omega
    · rename_i hn
      rw [if_neg (fun h => hn h.symm)]; omega
  · rename_i ht
    rw [if_neg (fun h => ht h.symm)]; omega

theorem eventCmp_trans {a b c : Event F} (h : eventCmp a b ≤ 0) (h' : eventCmp b c ≤ 0) : eventCmp a c ≤ 0 := by
  unfold eventCmp at *
  generalize a.code = x at *
  generalize b.code = y at *
  generalize c.code = z at *
  split at h <;> split at h' <;> (try split at h) <;> (try split at h') <;> (split <;> (try split) <;> omega)

theorem insertEv_sorted (e : Event F) (l : List (Event F)) (h : l.Pairwise fun a b => eventCmp b a ≤ 0) :
    (insertEv e l).Pairwise fun a b => eventCmp b a ≤ 0 := by
  induction l with
  | nil => simp [insertEv]
  | cons x xs ih =>
    rw [List.pairwise_cons] at h
    unfold insertEv
    split
    · rename_i hx
      rw [List.pairwise_cons, List.pairwise_cons]
      refine ⟨fun b hb => ?_, h⟩
      rcases List.mem_cons.1 hb with rfl | hb
      · exact hx
      · exact eventCmp_trans (h.1 b hb) hx
    · rename_i hx
      rw [List.pairwise_cons]
      refine ⟨fun b hb => ?_, ih h.2⟩
      rcases List.mem_cons.1 ((insertEv_perm e xs).mem_iff.1 hb) with rfl | hb
      · exact eventCmp_anti hx
      · exact h.1 b hb

/-- The assumption on the library's sorting function can be met. -/
theorem sorted_sort (o : Ops F) (items : List (Item F)) : Sorted o items (sortEvs o items) := by
  unfold sortEvs
  generalize hl : createEvents o items = l
  refine ⟨?_, ?_⟩
  · rw [hl]
    clear hl
    induction l with
    | nil => exact .refl _
    | cons x xs ih => exact (insertEv_perm _ _).trans (ih.cons x)
  · rw [List.pairwise_reverse]
    clear hl
    induction l with
    | nil => simp
    | cons x xs ih => exact insertEv_sorted _ _ ih

/-- Plain Boolean values: one assignment. -/
def den1 (b : Bool) (_ : Unit) : Bool := b

theorem exact1 : Exact boolOps den1 := ⟨fun _ => rfl, fun _ => rfl, fun _ _ => rfl, fun _ _ _ => rfl, fun _ _ _ => rfl⟩

/-- A run without size limits on plain Boolean values. -/
def par1 (net : Net) (nodes top : Nat) : Par Bool := ⟨boolOps, fun a b => a != b, fun _ => none, net, nodes, top, 10, 100⟩

theorem neq1 (a b : Bool) (h : (a != b) = false) (ρ : Unit) : den1 a ρ = den1 b ρ := by simpa [den1] using h

/-- Truth tables in one variable. -/
abbrev TT := Bool × Bool
def denT (f : TT) (x : Bool) : Bool := if x then f.2 else f.1
def opsT : Ops TT := ⟨(false, false), (true, true), fun a => (!a.1, !a.2), fun a b => (a.1 && b.1, a.2 && b.2), fun a b => (a.1 || b.1, a.2 || b.2)⟩

theorem exactT : Exact opsT denT :=
  ⟨fun x => by cases x <;> rfl, fun x => by cases x <;> rfl, fun a x => by cases x <;> rfl, fun a b x => by cases x <;> rfl,
    fun a b x => by cases x <;> rfl⟩

/-- A run on truth tables; `lim` as given. -/
def parT (lim : Nat → Option (TT → Bool)) (net : Net) (nodes top : Nat) : Par TT := ⟨opsT, fun a b => a != b, lim, net, nodes, top, 10, 100⟩

theorem neqT (a b : TT) (h : (a != b) = false) (ρ : Bool) : denT a ρ = denT b ρ := by
  have : a = b := by simpa using h
  rw [this]

/-- A one-bit component. -/
def gate (prim : Prim) (inps : List Nat) (out : Nat) (delay : Bool) (rank : Nat) : Comp := ⟨prim, 1, inps, [out], delay, rank⟩

/-- A run accepts although some execution satisfies the antecedents and not the consequents. -/
structure Wrong (p : Par Bool) (items : List (Item Bool)) (evs : List (Event Bool)) (σ : Int → Nat → Bool) : Prop where
  sorted : Sorted p.o items evs
  proper : ∀ i ∈ items, i.frm < i.til
  wf : WFNet p
  good : ∀ k ∈ p.net, GoodComp k
  run : (ste p items evs fun _ => false).map (·.map fun r => (r.ok, r.strong p.o)) = some (some (true, true))
  exec : Execution p.net σ
  ant : Meets den1 () .ant items σ
  cons : ¬ Meets den1 () .cons items σ

/-- A comparator whose output is one of its inputs: oscillates when node 4 is 1. -/
def oscItems : List (Item Bool) := [⟨.ant, true, 4, false, 0, 1⟩, ⟨.ant, true, 4, true, 1, 2⟩]
def oscPar (limit fuel : Nat) : Par Bool := { par1 [gate (.gr 1) [4, 5] 5 false 0] 6 1 with limit := limit, fuel := fuel }

theorem osc_pass (limit fuel f : Nat) (s : St Bool) (seen : Bool) (hw : s.wheel 0 = [0]) (h4 : s.cur 4 = ⟨true, false⟩)
    (h5 : (s.cur 5).l = !(s.cur 5).h) (ha : s.ev.hasAnt 5 = false) (hk : s.ev.hasWeak 5 = false) :
    pass (oscPar limit fuel) f 1 s seen = none := by
  induction f generalizing s seen with
  | zero => rfl
  | succ f ih =>
    rw [pass, hw]
    obtain ⟨h, l, hx⟩ : ∃ h l, s.cur 5 = ⟨h, l⟩ := ⟨_, _, rfl⟩
    rw [hx] at h5
    dsimp only at h5
    subst h5
    have he : evalComp (oscPar limit fuel) s.steps (gate (.gr 1) [4, 5] 5 false 0) [⟨true, false⟩, ⟨h, !h⟩] = some [⟨!h, h⟩] := by
      show (Prim.gr 1).eval boolOps 1 [⟨true, false⟩, ⟨h, !h⟩] = some [⟨!h, h⟩]
      cases h <;> decide
    have hf : (oscPar limit fuel).net.fanouts 5 = [0] := by
      show Net.fanouts [gate (.gr 1) [4, 5] 5 false 0] 5 = [0]
      decide
    have hn : (oscPar limit fuel).net[0]? = some (gate (.gr 1) [4, 5] 5 false 0) := rfl
    have hm : List.map s.cur (gate (.gr 1) [4, 5] 5 false 0).inps = [⟨true, false⟩, ⟨h, !h⟩] := by
      simp [gate, h4, hx]
    simp only [doOp, hn, Option.bind_eq_bind, Option.bind_some, hm, he]
    have hneq : ((oscPar limit fuel).neq (!h) h || (oscPar limit fuel).neq h (!h)) = true := by
      show ((!h) != h || h != (!h)) = true
      cases h <;> rfl
    simp only [gate, List.length_cons, List.length_nil, ne_eq, not_true, if_false, Bool.false_eq_true, List.zip_cons_cons,
      List.zip_nil_right, List.foldl_cons, List.foldl_nil, updateNode, adjust, ha, hk, hx, hneq, if_true, hf, addTodo, hn, Option.bind_some]
    apply ih
    · simp [upd]
    · simp [upd, h4]
    · simp [upd]
    · simp [upd, ha]
    · simp [upd, hk]

end Voss.Ste
