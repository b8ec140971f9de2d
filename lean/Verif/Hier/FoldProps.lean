import Verif.Hier.AdjProps

namespace Voss.Hier
open Vec

/-! ### C78: folding instances -/

/-- The members of a list whose numbers, counted from `n`, satisfy `P`. -/
def pick (P : Nat → Prop) [DecidablePred P] : Nat → List Pex → List Pex
  | _, [] => []
  | n, k :: ks => if P n then k :: pick P (n + 1) ks else pick P (n + 1) ks

/-- A name is read by an instance in `ids` and driven by an instance for which `D` holds. -/
def ReadIn (p : Pex) (ids : List Nat) (D : Nat → Prop) (n : Name) : Prop :=
  ∃ i ∈ ids, n ∈ reads p i ∧ ∃ j, D j ∧ ∃ m ∈ drives p j, Share m n

/-- A name is driven by an instance in `ids` and read by an instance for which `D` holds. -/
def DrivenIn (p : Pex) (ids : List Nat) (D : Nat → Prop) (n : Name) : Prop :=
  ∃ i ∈ ids, n ∈ drives p i ∧ ∃ j, D j ∧ ∃ m ∈ reads p j, Share n m

/-- A name that connects two instances in `ids`. -/
def InnerName (p : Pex) (ids : List Nat) (n : Name) : Prop :=
  ReadIn p ids (· ∈ ids) n ∨ DrivenIn p ids (· ∈ ids) n

theorem pick_zipIdx (P : Nat → Prop) [DecidablePred P] (ks : List Pex) (n : Nat) :
    ((ks.zipIdx n).filter fun e => decide (P e.2)).map Prod.fst = pick P n ks := by
  induction ks generalizing n with
  | nil => rfl
  | cons k ks ih =>
    simp only [List.zipIdx_cons, List.filter_cons, pick]
    by_cases h : P n <;> simp [h, ih]

theorem insertNew_mem (l : List Name) (s n : Name) : n ∈ insertNew l s ↔ n ∈ l ∨ n = s := by
  unfold insertNew
  split
  · rename_i h
    constructor
    · exact .inl
    · rintro (h' | rfl)
      · exact h'
      · exact h
  · simp

theorem insertNew_nodup {l : List Name} (s : Name) (h : l.Nodup) : (insertNew l s).Nodup := by
  unfold insertNew
  split
  · exact h
  · rename_i hs
    rw [List.nodup_append]
    refine ⟨h, by simp, ?_⟩
    intro a ha b hb
    simp only [List.mem_singleton] at hb
    subst hb
    rintro rfl
    exact hs ha

theorem adds_spec (ev : List (Key × Bool)) (s : Sets) :
    let r := ev.foldl (fun s e => s.add e.1 e.2) s
    (∀ n, n ∈ r.ints ↔ n ∈ s.ints ∨ ∃ e ∈ ev, e.1.name = n ∧ e.2 = true) ∧
    (∀ n, n ∈ r.inps ↔ n ∈ s.inps ∨ ∃ e ∈ ev, e.1.name = n ∧ e.2 = false ∧ e.1.input = true) ∧
    (∀ n, n ∈ r.outs ↔ n ∈ s.outs ∨ ∃ e ∈ ev, e.1.name = n ∧ e.2 = false ∧ e.1.input = false) ∧
    (s.inps.Nodup → r.inps.Nodup) ∧ (s.outs.Nodup → r.outs.Nodup) ∧ (s.ints.Nodup → r.ints.Nodup) := by
  induction ev generalizing s with
  | nil => simp
  | cons e ev ih =>
    obtain ⟨h1, h2, h3, h4, h5, h6⟩ := ih (s.add e.1 e.2)
    simp only [List.foldl_cons, List.mem_cons, exists_eq_or_imp]
    refine ⟨?_, ?_, ?_, ?_, ?_, ?_⟩
    · intro n
      rw [h1, ← or_assoc]
      refine or_congr ?_ Iff.rfl
      unfold Sets.add
      cases e.2 <;> cases e.1.input <;> simp [insertNew_mem, eq_comm]
    · intro n
      rw [h2, ← or_assoc]
      refine or_congr ?_ Iff.rfl
      unfold Sets.add
      cases e.2 <;> cases e.1.input <;> simp [insertNew_mem, eq_comm]
    · intro n
      rw [h3, ← or_assoc]
      refine or_congr ?_ Iff.rfl
      unfold Sets.add
      cases e.2 <;> cases e.1.input <;> simp [insertNew_mem, eq_comm]
    · intro h
      refine h4 ?_
      unfold Sets.add
      cases e.2 <;> cases e.1.input <;> simp [insertNew_nodup, h]
    · intro h
      refine h5 ?_
      unfold Sets.add
      cases e.2 <;> cases e.1.input <;> simp [insertNew_nodup, h]
    · intro h
      refine h6 ?_
      unfold Sets.add
      cases e.2 <;> cases e.1.input <;> simp [insertNew_nodup, h]

/-- The adjacencies of the folded instances, in order. -/
def events (keys : List (List Key)) (ids : List Nat) : List (Key × Bool) :=
  (keys.zipIdx.tail.filter fun e => e.2 ∈ ids).flatMap fun e =>
    e.1.flatMap fun x => (hits keys x).map fun j => (x, decide (j ∈ ids))

theorem foldSets_eq (keys : List (List Key)) (ids : List Nat) :
    foldSets keys ids = (events keys ids).foldl (fun s e => s.add e.1 e.2) ⟨[], [], []⟩ := by
  simp only [foldSets, events, List.foldl_flatMap, List.foldl_map]

theorem events_mem (keys : List (List Key)) {ids : List Nat} (h0 : 0 ∉ ids) (x : Key) (b : Bool) :
    (x, b) ∈ events keys ids ↔ ∃ i ∈ ids, x ∈ at' keys i ∧ ∃ j ∈ hits keys x, decide (j ∈ ids) = b := by
  have ht : ∀ e : List Key × Nat, e.2 ∈ ids → (e ∈ keys.zipIdx.tail ↔ e ∈ keys.zipIdx) := by
    intro e he
    cases keys with
    | nil => simp
    | cons k ks =>
      simp only [List.zipIdx_cons, List.tail_cons, List.mem_cons]
      constructor
      · exact .inr
      · rintro (rfl | h)
        · exact absurd he h0
        · exact h
  simp only [events, List.mem_flatMap, List.mem_filter, decide_eq_true_eq, List.mem_map, Prod.mk.injEq]
  constructor
  · rintro ⟨e, ⟨he, hi⟩, y, hy, j, hj, rfl, hb⟩
    exact ⟨e.2, hi, (mem_zipIdx' keys y e.2).1 ⟨e, (ht e hi).1 he, rfl, hy⟩, j, hj, hb⟩
  · rintro ⟨i, hi, hx, j, hj, hb⟩
    obtain ⟨e, he, rfl, hxe⟩ := (mem_zipIdx' keys x i).2 hx
    exact ⟨e, ⟨(ht e hi).2 he, hi⟩, x, hxe, j, hj, rfl, hb⟩

/-- The names of the adjacencies to instances inside (`b = true`) or outside. -/
theorem event_input {p : Pex} (ht : Tame p) {keys : List (List Key)} (h : adjKeys p = some keys) {ids : List Nat}
    (h0 : 0 ∉ ids) (b : Bool) (n : Name) :
    (∃ e ∈ events keys ids, e.1.name = n ∧ e.2 = b ∧ e.1.input = true) ↔ ReadIn p ids (fun j => decide (j ∈ ids) = b) n := by
  constructor
  · rintro ⟨⟨x, b'⟩, he, rfl, rfl, hin⟩
    obtain ⟨i, hi, hx, j, hj, hb⟩ := (events_mem keys h0 x b').1 he
    have hm := ((adjKeys_mem h i x).1 hx).2
    simp only at hin
    rw [hin, if_pos rfl] at hm
    exact ⟨i, hi, hm, j, hb, (hits_input ht h hx hin j).1 hj⟩
  · rintro ⟨i, hi, hm, j, hb, m, hmj, hs⟩
    obtain ⟨v, hv⟩ := single_split (ht.reads i n hm)
    have hx : (⟨n, v, true⟩ : Key) ∈ at' keys i := (adjKeys_mem h i _).2 ⟨hv, by simpa using hm⟩
    exact ⟨(⟨n, v, true⟩, b), (events_mem keys h0 _ b).2 ⟨i, hi, hx, j, (hits_input ht h hx rfl j).2 ⟨m, hmj, hs⟩, hb⟩,
      rfl, rfl, rfl⟩

theorem event_output {p : Pex} (ht : Tame p) {keys : List (List Key)} (h : adjKeys p = some keys) {ids : List Nat}
    (h0 : 0 ∉ ids) (b : Bool) (n : Name) :
    (∃ e ∈ events keys ids, e.1.name = n ∧ e.2 = b ∧ e.1.input = false) ↔ DrivenIn p ids (fun j => decide (j ∈ ids) = b) n := by
  constructor
  · rintro ⟨⟨x, b'⟩, he, rfl, rfl, hin⟩
    obtain ⟨i, hi, hx, j, hj, hb⟩ := (events_mem keys h0 x b').1 he
    have hm := ((adjKeys_mem h i x).1 hx).2
    simp only at hin
    rw [hin] at hm
    simp only [Bool.false_eq_true, if_false] at hm
    exact ⟨i, hi, hm, j, hb, (hits_output ht h hx hin j).1 hj⟩
  · rintro ⟨i, hi, hm, j, hb, m, hmj, hs⟩
    obtain ⟨v, hv⟩ := single_split (.inl (ht.drives i n hm))
    have hx : (⟨n, v, false⟩ : Key) ∈ at' keys i := (adjKeys_mem h i _).2 ⟨hv, by simpa using hm⟩
    exact ⟨(⟨n, v, false⟩, b), (events_mem keys h0 _ b).2 ⟨i, hi, hx, j, (hits_output ht h hx rfl j).2 ⟨m, hmj, hs⟩, hb⟩,
      rfl, rfl, rfl⟩

/-- **Folding makes one instance of several.**  The folded instances, in order, are the instances of a new first
instance, and the others follow it.  Its inputs are the names that are read inside and driven outside, its outputs those
that are driven inside and read outside, each connected to the name itself; its internals are the names that connect
folded instances and are not inputs or outputs.  The circuit keeps its name, inputs and outputs, and those of its internals that do not
connect folded instances.  Missing: groups of indices other than one range downwards. -/
theorem c78_fold_partial {p : Pex} {ks : List Pex} (hk : p.kids = some ks) (ht : Tame p) {ids : List Nat} (h0 : 0 ∉ ids)
    (name : Name) :
    ∃ p' new, fold p ids name = some p' ∧ p'.kids = some (new :: pick (· ∉ ids) 1 ks) ∧
      new.kids = some (pick (· ∈ ids) 1 ks) ∧ new.name = name ∧
      p'.name = p.name ∧ p'.leaf = p.leaf ∧ p'.inps = p.inps ∧ p'.outs = p.outs ∧
      (∀ q ∈ new.inps ++ new.outs, q.acts = [q.formal]) ∧
      (new.inps.map Pin.formal).Nodup ∧ (new.outs.map Pin.formal).Nodup ∧ new.inter.Nodup ∧
      (∀ n, n ∈ new.inps.map Pin.formal ↔ ReadIn p ids (· ∉ ids) n) ∧
      (∀ n, n ∈ new.outs.map Pin.formal ↔ DrivenIn p ids (· ∉ ids) n) ∧
      (∀ n, n ∈ new.inter ↔ InnerName p ids n ∧ ¬ ReadIn p ids (· ∉ ids) n ∧ ¬ DrivenIn p ids (· ∉ ids) n) ∧
      p'.inter.Sublist p.inter ∧ (∀ n, n ∈ p'.inter ↔ n ∈ p.inter ∧ ¬ InnerName p ids n) := by
  obtain ⟨keys, hkeys⟩ := adjKeys_total hk ht
  obtain ⟨h1, h2, h3, h4, h5, h6⟩ := adds_spec (events keys ids) ⟨[], [], []⟩
  rw [← foldSets_eq] at h1 h2 h3 h4 h5 h6
  have e1 : ∀ n, n ∈ (foldSets keys ids).ints ↔ InnerName p ids n := by
    intro n
    rw [h1]
    simp only [List.not_mem_nil, false_or]
    have ei := event_input ht hkeys h0 true n
    have eo := event_output ht hkeys h0 true n
    simp only [decide_eq_true_eq] at ei eo
    unfold InnerName
    rw [← ei, ← eo]
    constructor
    · rintro ⟨e, he, hn, hb⟩
      cases hin : e.1.input with
      | true => exact .inl ⟨e, he, hn, hb, hin⟩
      | false => exact .inr ⟨e, he, hn, hb, hin⟩
    · rintro (⟨e, he, hn, hb, _⟩ | ⟨e, he, hn, hb, _⟩) <;> exact ⟨e, he, hn, hb⟩
  have e2 : ∀ n, n ∈ (foldSets keys ids).inps ↔ ReadIn p ids (· ∉ ids) n := by
    intro n
    rw [h2]
    simp only [List.not_mem_nil, false_or]
    have ei := event_input ht hkeys h0 false n
    simp only [decide_eq_false_iff_not] at ei
    exact ei
  have e3 : ∀ n, n ∈ (foldSets keys ids).outs ↔ DrivenIn p ids (· ∉ ids) n := by
    intro n
    rw [h3]
    simp only [List.not_mem_nil, false_or]
    have eo := event_output ht hkeys h0 false n
    simp only [decide_eq_false_iff_not] at eo
    exact eo
  have hm : ∀ l : List Name, (l.map fun n => (⟨n, [n]⟩ : Pin)).map Pin.formal = l := by
    intro l; rw [List.map_map]; simp [Function.comp_def]
  have hf : fold p ids name = some (Pex.mk p.name [] p.leaf p.inps p.outs
      (p.inter.filter fun n => n ∉ (foldSets keys ids).ints)
      (some (Pex.mk name [] p.leaf ((foldSets keys ids).inps.map fun n => ⟨n, [n]⟩)
        ((foldSets keys ids).outs.map fun n => ⟨n, [n]⟩)
        ((foldSets keys ids).ints.filter fun n => n ∉ (foldSets keys ids).inps ∧ n ∉ (foldSets keys ids).outs)
        (some (pick (· ∈ ids) 1 ks)) 0 :: pick (· ∉ ids) 1 ks)) p.fns) := by
    simp only [fold, hk, hkeys, Option.bind_eq_bind, Option.bind_some, ← pick_zipIdx]
  refine ⟨_, _, hf, rfl, rfl, rfl, rfl, rfl, rfl, rfl, ?_, ?_, ?_, ?_, ?_, ?_, ?_, ?_, ?_⟩
  · intro q hq
    simp only [Pex.inps, Pex.outs, List.mem_append, List.mem_map] at hq
    rcases hq with ⟨n, _, rfl⟩ | ⟨n, _, rfl⟩ <;> rfl
  · simp only [Pex.inps, hm]
    exact h4 (by simp)
  · simp only [Pex.outs, hm]
    exact h5 (by simp)
  · simp only [Pex.inter]
    exact (h6 (by simp)).filter _
  · intro n
    simp only [Pex.inps, hm]
    exact e2 n
  · intro n
    simp only [Pex.outs, hm]
    exact e3 n
  · intro n
    simp only [Pex.inter, List.mem_filter, decide_eq_true_eq, e1, e2, e3]
  · simp only [Pex.inter]
    exact List.filter_sublist
  · intro n
    simp only [Pex.inter, List.mem_filter, decide_eq_true_eq, e1]

/-- A bit that is driven or read. -/
def BitIn (ns : List Name) (b : Name) : Prop := ∃ n ∈ ns, ∃ l, mdExpand n = some l ∧ b ∈ l

theorem bitIn_share {ns ms : List Name} {b : Name} (h1 : BitIn ns b) (h2 : BitIn ms b) :
    ∃ n ∈ ns, ∃ m ∈ ms, Share n m ∧ ∃ l, mdExpand n = some l ∧ b ∈ l := by
  obtain ⟨n, hn, l, hl, hb⟩ := h1
  obtain ⟨m, hm, l', hl', hb'⟩ := h2
  exact ⟨n, hn, m, hm, ⟨l, l', b, hl, hl', hb, hb'⟩, l, hl, hb⟩

/-- **No connection is cut.**  A bit that is driven inside and read outside is a bit of an output of the new instance, a
bit that is driven outside and read inside is a bit of an input; and if the names in the circuit are equal or have no bit
in common, no bit of an internal of the new instance is driven or read outside by an instance that is connected to one
inside. -/
theorem c78_cross_partial {p p' new : Pex} {ks rest : List Pex} (hk : p.kids = some ks) (ht : Tame p) {ids : List Nat}
    (h0 : 0 ∉ ids) {name : Name} (h : fold p ids name = some p') (hn : p'.kids = some (new :: rest)) :
    (∀ i ∈ ids, ∀ j, j ∉ ids → ∀ b, BitIn (drives p i) b → BitIn (reads p j) b → BitIn (new.outs.map Pin.formal) b) ∧
    (∀ i ∈ ids, ∀ j, j ∉ ids → ∀ b, BitIn (reads p i) b → BitIn (drives p j) b → BitIn (new.inps.map Pin.formal) b) ∧
    ((∀ i j, ∀ n ∈ drives p i ++ reads p i, ∀ m ∈ drives p j ++ reads p j, Share n m → n = m) →
      ∀ b, BitIn new.inter b → ∀ j, j ∉ ids →
        ((∃ i ∈ ids, BitIn (drives p i) b) → ¬ BitIn (reads p j) b) ∧
        ((∃ i ∈ ids, BitIn (reads p i) b) → ¬ BitIn (drives p j) b)) := by
  obtain ⟨q, new', hq, hkq, -, -, -, -, -, -, -, -, -, -, hin, hout, hint, -, -⟩ := c78_fold_partial hk ht h0 name
  rw [h] at hq
  simp only [Option.some.injEq] at hq
  subst hq
  rw [hn] at hkq
  simp only [Option.some.injEq, List.cons.injEq] at hkq
  obtain ⟨rfl, rfl⟩ := hkq
  refine ⟨?_, ?_, ?_⟩
  · intro i hi j hj b h1 h2
    obtain ⟨n, hn, m, hm, hs, l, hl, hb⟩ := bitIn_share h1 h2
    exact ⟨n, (hout n).2 ⟨i, hi, hn, j, hj, m, hm, hs⟩, l, hl, hb⟩
  · intro i hi j hj b h1 h2
    obtain ⟨n, hn, m, hm, hs, l, hl, hb⟩ := bitIn_share h1 h2
    exact ⟨n, (hin n).2 ⟨i, hi, hn, j, hj, m, hm, share_symm hs⟩, l, hl, hb⟩
  · rintro hsep b ⟨n, hn, l, hl, hb⟩ j hj
    obtain ⟨hinn, hnr, hnd⟩ := (hint n).1 hn
    have hmem : ∃ i, n ∈ drives p i ++ reads p i := by
      rcases hinn with ⟨i, _, hm, _⟩ | ⟨i, _, hm, _⟩
      · exact ⟨i, List.mem_append_right _ hm⟩
      · exact ⟨i, List.mem_append_left _ hm⟩
    obtain ⟨i0, hi0⟩ := hmem
    constructor
    · rintro ⟨i, hi, m, hm, l', hl', hb'⟩ ⟨m', hm', l'', hl'', hb''⟩
      have := hsep i0 i n hi0 m (List.mem_append_left _ hm) ⟨l, l', b, hl, hl', hb, hb'⟩
      subst this
      exact hnd ⟨i, hi, hm, j, hj, m', hm', l, l'', b, hl, hl'', hb, hb''⟩
    · rintro ⟨i, hi, m, hm, l', hl', hb'⟩ ⟨m', hm', l'', hl'', hb''⟩
      have := hsep i0 i n hi0 m (List.mem_append_right _ hm) ⟨l, l', b, hl, hl', hb, hb'⟩
      subst this
      exact hnr ⟨i, hi, hm, j, hj, m', hm', l'', l, b, hl'', hl, hb'', hb⟩

/-! ### Violations and examples -/

/-- Three instances: the first one drives a name, and two read it. -/
def fan (out in1 in2 : String) (inter : List String) : Pex :=
  .mk "top".toList [("k".toList, "v".toList)] false [] [] (inter.map String.toList)
    (some [prim "a" [] [pin "o" [out]], prim "b" [pin "i" [in1]] [], prim "c" [pin "i" [in2]] []]) 0

/-- The names of an instance. -/
structure Face where
  inps : List Pin
  outs : List Pin
  inter : List Name
deriving DecidableEq

/-- The internals of a circuit and the names of its instances. -/
def summary (r : Option Pex) : Option (List Name × List Face) :=
  r.map fun p => (p.inter, (p.kids.getD []).map fun k => ⟨k.inps, k.outs, k.inter⟩)

/-- A signal that is driven inside, and read inside and outside, is no longer declared in the circuit, although the new
instance and another one are connected to it. -/
theorem c78_lost_violated :
    summary (fold (fan "w" "w" "w" ["w"]) [1, 2] "f".toList) =
      some ([], [⟨[], [pin "w" ["w"]], []⟩, ⟨[pin "i" ["w"]], [], []⟩]) := by
  decide +kernel

/-- If a part of a vector is read inside, its bits are declared as internals besides being outputs. -/
theorem c78_twice_violated :
    summary (fold (fan "w[3:0]" "w[1:0]" "w[3:0]" ["w[3:0]"]) [1, 2] "f".toList) =
      some ([], [⟨[], [pin "w[3:0]" ["w[3:0]"]], ["w[1:0]".toList]⟩, ⟨[pin "i" ["w[3:0]"]], [], []⟩]) := by
  decide +kernel

/-- The attributes of the circuit are dropped. -/
theorem c78_attrs_violated : (fold (fan "w" "w" "w" ["w"]) [1] "f".toList).map Pex.attrs = some [] ∧
    (fan "w" "w" "w" ["w"]).attrs ≠ [] := by
  decide +kernel

/-- A name inside that nobody drives is not declared at all by the new instance. -/
theorem c78_undriven_violated :
    summary (fold (fan "w" "u" "w" ["w", "u"]) [2] "f".toList) =
      some (["w".toList, "u".toList], [⟨[], [], []⟩, ⟨[], [pin "o" ["w"]], []⟩, ⟨[pin "i" ["w"]], [], []⟩]) := by
  decide +kernel

/-- An example: a signal that only connects folded instances moves inside. -/
example :
    summary (fold (fan "w" "w" "x" ["w", "x"]) [1, 2] "f".toList) =
      some (["x".toList], [⟨[], [], ["w".toList]⟩, ⟨[pin "i" ["x"]], [], []⟩]) := by
  decide +kernel

end Voss.Hier
