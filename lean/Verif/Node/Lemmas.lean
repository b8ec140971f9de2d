import Verif.Node.Spec
import Verif.Vec.MergeLemmas
import Mathlib.Data.List.Nodup
import Mathlib.Data.List.Flatten

namespace Voss.Node
open Voss.Vec

theorem stride_down : ∀ v : Vec, Down v → stride v = size v
  | [], _ => rfl
  | .txt _ :: v, h => stride_down v h
  | .idx rs :: v, h => by
    rw [stride, size, stride_down v h.2]
    have : ∀ l : List Rng, (∀ r ∈ l, r.lo ≤ r.up) → (l.map fun r => (r.up - r.lo + 1).natAbs).sum * size v =
        (l.map fun r => ((r.up - r.lo).natAbs + 1) * size v).sum := by
      intro l
      induction l with
      | nil => intro _; simp
      | cons r l ih =>
        intro hl
        have h1 := hl r List.mem_cons_self
        have h2 : (r.up - r.lo + 1).natAbs = (r.up - r.lo).natAbs + 1 := by omega
        simp only [List.map_cons, List.sum_cons, h2]
        rw [Nat.add_mul, ih fun q hq => hl q (List.mem_cons_of_mem _ hq)]
    exact this rs h.1

/-- Same texts, and as many groups; one index or more in each group. -/
inductive Fits : Vec → Vec → Prop
  | nil : Fits [] []
  | txt (s d v) : Fits d v → Fits (.txt s :: d) (.txt s :: v)
  | idx (rs d q qs v) : Fits d v → Fits (.idx rs :: d) (.idx (q :: qs) :: v)

theorem inside_mem (i : Int) (r : Rng) : inside i r.up r.lo = true ↔ i ∈ r.bits := by
  rw [mem_bits, inside]
  simp only [Bool.or_eq_true, decide_eq_true_eq]
  omega

theorem bits_get (r : Rng) (k : Nat) (h : k < r.bits.length) :
    r.bits[k]? = some (if r.up > r.lo then r.up - (k : Int) else r.up + (k : Int)) := by
  rw [bits_length] at h
  unfold Rng.bits
  split
  · rw [List.getElem?_map, List.getElem?_range (by omega)]
    simp only [Option.map_some, Option.some.injEq]
    split
    · rfl
    · omega
  · rw [List.getElem?_map, List.getElem?_range (by omega)]
    simp only [Option.map_some, Option.some.injEq]
    split
    · omega
    · rfl

theorem bits_nodup (r : Rng) : r.bits.Nodup := by
  unfold Rng.bits
  split
  · refine List.Nodup.map ?_ List.nodup_range
    intro a b h
    simp only at h
    omega
  · refine List.Nodup.map ?_ List.nodup_range
    intro a b h
    simp only at h
    omega

theorem idxOf_get {l : List Int} (hn : l.Nodup) {k : Nat} {a : Int} (h : l[k]? = some a) : l.idxOf a = k := by
  obtain ⟨hk, rfl⟩ := List.getElem?_eq_some_iff.mp h
  exact hn.idxOf_getElem k hk

theorem bits_idxOf (r : Rng) (i : Int) (h : i ∈ r.bits) : r.bits.idxOf i = (r.up - i).natAbs := by
  have hm := (mem_bits r i).mp h
  refine idxOf_get (bits_nodup r) ?_
  rw [bits_get _ _ (by rw [bits_length]; omega)]
  simp only [Option.some.injEq]
  split <;> omega

theorem findOff_spec (i : Int) (st : Nat) : ∀ (rs : List Rng) (n : Nat), findOff i st rs n =
    if i ∈ rs.flatMap Rng.bits then some (n + (rs.flatMap Rng.bits).idxOf i * st) else none
  | [], n => by simp [findOff]
  | r :: rs, n => by
    rw [findOff]
    by_cases h : inside i r.up r.lo = true
    · have hm := (inside_mem i r).mp h
      rw [if_pos h, if_pos (by simp [hm]), List.flatMap_cons, List.idxOf_append, if_pos hm, bits_idxOf r i hm]
    · have hm : i ∉ r.bits := fun hc => h ((inside_mem i r).mpr hc)
      rw [if_neg h, findOff_spec i st rs]
      by_cases h2 : i ∈ rs.flatMap Rng.bits
      · rw [if_pos h2, if_pos (by rw [List.flatMap_cons]; exact List.mem_append_right _ h2), List.flatMap_cons,
          List.idxOf_append, if_neg hm, bits_length]
        simp only [Nat.add_mul]
        congr 1
        omega
      · rw [if_neg h2, if_neg]
        rw [List.flatMap_cons, List.mem_append]
        rintro (h3 | h3)
        · exact hm h3
        · exact h2 h3

theorem findIdx_off (i : Int) : ∀ (rs : List Rng) (n : Nat), findIdx i rs n = findOff i 1 rs n
  | [], _ => rfl
  | r :: rs, n => by
    rw [findIdx, findOff, findIdx_off i rs]
    have : (i - r.up).natAbs = (r.up - i).natAbs := by omega
    rw [this]
    simp

theorem findIdx_spec (i : Int) (rs : List Rng) : findIdx i rs 0 =
    if i ∈ rs.flatMap Rng.bits then some ((rs.flatMap Rng.bits).idxOf i) else none := by
  rw [findIdx_off, findOff_spec]
  simp

/-- Rows of a table. -/
def rows (l : List Int) (m : List Vec) : List Vec := l.flatMap fun i => m.map (Seg.idx [⟨i, i⟩] :: ·)

theorem expand_rows (rs : List Rng) (v : Vec) : expand (.idx rs :: v) = rows (rs.flatMap Rng.bits) (expand v) :=
  expand_idx rs v

theorem mem_rows {l : List Int} {m : List Vec} {i : Int} {b : Vec} :
    Seg.idx [⟨i, i⟩] :: b ∈ rows l m ↔ i ∈ l ∧ b ∈ m := by
  simp only [rows, List.mem_flatMap, List.mem_map, List.cons.injEq, Seg.idx.injEq, Rng.mk.injEq, and_true]
  constructor
  · rintro ⟨a, ha, b', hb, ⟨h1, _⟩, h2⟩
    exact ⟨h1 ▸ ha, h2 ▸ hb⟩
  · rintro ⟨h1, h2⟩
    exact ⟨i, h1, b, h2, ⟨rfl, rfl⟩, rfl⟩

theorem idxOf_map_cons (x : Seg) (m : List Vec) (b : Vec) : (m.map (x :: ·)).idxOf (x :: b) = m.idxOf b := by
  induction m with
  | nil => rfl
  | cons a m ih =>
    rw [List.map_cons, List.idxOf_cons, List.idxOf_cons, ih]
    have : ((x :: a) == (x :: b)) = (a == b) := by
      rw [Bool.eq_iff_iff]
      simp
    rw [this]

theorem idxOf_rows {l : List Int} {m : List Vec} {i : Int} {b : Vec} (hi : i ∈ l) (hb : b ∈ m) :
    (rows l m).idxOf (Seg.idx [⟨i, i⟩] :: b) = l.idxOf i * m.length + m.idxOf b := by
  induction l with
  | nil => simp at hi
  | cons a l ih =>
    have e : rows (a :: l) m = m.map (Seg.idx [⟨a, a⟩] :: ·) ++ rows l m := rfl
    rw [e, List.idxOf_append]
    by_cases h : a = i
    · subst h
      rw [if_pos (List.mem_map.mpr ⟨b, hb, rfl⟩), idxOf_map_cons]
      simp
    · have hi' : i ∈ l := by
        rcases List.mem_cons.mp hi with h1 | h1
        · exact absurd h1.symm h
        · exact h1
      rw [if_neg, ih hi', List.length_map, List.idxOf_cons]
      · have : (a == i) = false := by simp [h]
        rw [this]
        simp only [cond_false, Nat.add_mul, Nat.one_mul]
        omega
      · intro hc
        obtain ⟨b', _, hb'⟩ := List.mem_map.mp hc
        simp only [List.cons.injEq, Seg.idx.injEq, Rng.mk.injEq, and_true] at hb'
        exact h hb'.1.1

theorem rows_length (l : List Int) (m : List Vec) : (rows l m).length = l.length * m.length := by
  induction l with
  | nil => simp [rows]
  | cons a l ih =>
    have e : rows (a :: l) m = m.map (Seg.idx [⟨a, a⟩] :: ·) ++ rows l m := rfl
    rw [e, List.length_append, ih, List.length_map, List.length_cons, Nat.add_mul]
    omega

theorem rows_get {l : List Int} {m : List Vec} {k : Nat} (hm : 0 < m.length) :
    (rows l m)[k]? = (l[k / m.length]?).bind fun i => (m[k % m.length]?).map (Seg.idx [⟨i, i⟩] :: ·) := by
  induction l generalizing k with
  | nil => simp [rows]
  | cons a l ih =>
    have e : rows (a :: l) m = m.map (Seg.idx [⟨a, a⟩] :: ·) ++ rows l m := rfl
    rw [e]
    by_cases h : k < m.length
    · rw [List.getElem?_append_left (by simpa using h), Nat.div_eq_of_lt h, Nat.mod_eq_of_lt h, List.getElem?_map]
      rfl
    · have h1 : k / m.length = (k - m.length) / m.length + 1 := by
        conv => lhs; rw [show k = (k - m.length) + m.length by omega]
        exact Nat.add_div_right _ hm
      have h2 : k % m.length = (k - m.length) % m.length := by
        conv => lhs; rw [show k = (k - m.length) + m.length by omega]
        exact Nat.add_mod_right _ _
      rw [List.getElem?_append_right (by simpa using h), List.length_map, ih, h1, h2]
      rfl

theorem tailDown_idx {rs : List Rng} {d : Vec} (h : Down d) : stride d = (expand d).length := by
  rw [stride_down d h, expand_length]

/-- Down implies TailDown. -/
theorem down_tail : ∀ d : Vec, Down d → TailDown d
  | [], h => h
  | .txt _ :: d, h => down_tail d h
  | .idx _ :: _, h => h.2

theorem findNode_spec : ∀ (d b : Vec) (n : Int), Fits d b → Bit b → TailDown d →
    findNode d b n = if b ∈ expand d then .ok (n + (expand d).idxOf b) else .miss
  | _, _, n, .nil, _, _ => by simp [findNode, expand]
  | _, _, n, .txt s d b hf, hb, ht => by
    rw [findNode, findNode_spec d b n hf hb ht, expand]
    by_cases h : b ∈ expand d
    · rw [if_pos h, if_pos (List.mem_map.mpr ⟨b, h, rfl⟩), idxOf_map_cons]
    · rw [if_neg h, if_neg]
      intro hc
      obtain ⟨b', h1, h2⟩ := List.mem_map.mp hc
      simp only [List.cons.injEq, true_and] at h2
      exact h (h2 ▸ h1)
  | _, _, n, .idx rs d q qs b hf, hb, ht => by
    obtain ⟨⟨i, hi, _⟩, hb'⟩ := hb
    have hd : Down d := ht
    simp only [List.cons.injEq] at hi
    obtain ⟨rfl, rfl⟩ := hi
    rw [findNode, findOff_spec, expand_rows]
    by_cases h1 : i ∈ rs.flatMap Rng.bits
    · simp only [if_pos h1, Nat.zero_add]
      rw [findNode_spec d b _ hf hb' (down_tail d hd)]
      by_cases h2 : b ∈ expand d
      · rw [if_pos h2, if_pos (mem_rows.mpr ⟨h1, h2⟩), idxOf_rows h1 h2, stride_down d hd, expand_length]
        congr 1
        omega
      · rw [if_neg h2, if_neg fun hc => h2 (mem_rows.mp hc).2]
    · simp only [if_neg h1]
      rw [if_neg fun hc => h1 (mem_rows.mp hc).1]

/-- The text of a bit, in which the groups are single indices. -/
theorem chunk_spec (st : Nat) (hst : 0 < st) : ∀ (rs : List Rng) (k : Nat), chunk st rs k =
    ((rs.flatMap Rng.bits)[k / st]?).map fun i => (i, k % st)
  | [], k => by simp [chunk]
  | r :: rs, k => by
    rw [chunk, List.flatMap_cons]
    have hlen := bits_length r
    split
    · rename_i h
      have h1 : (r.up - r.lo).natAbs + 1 ≤ k / st := (Nat.le_div_iff_mul_le hst).mpr h
      have e : k = (k - ((r.up - r.lo).natAbs + 1) * st) + st * ((r.up - r.lo).natAbs + 1) := by
        rw [Nat.mul_comm st]; omega
      have h2 : (k - ((r.up - r.lo).natAbs + 1) * st) / st = k / st - r.bits.length := by
        rw [hlen]
        conv => rhs; rw [e, Nat.add_mul_div_left _ _ hst, Nat.add_sub_cancel]
      have h3 : (k - ((r.up - r.lo).natAbs + 1) * st) % st = k % st := by
        conv => rhs; rw [e, Nat.add_mul_mod_self_left]
      rw [chunk_spec st hst rs, h2, h3, List.getElem?_append_right (by omega)]
    · rename_i h
      have h1 : k / st < r.bits.length := by
        rw [hlen]
        exact (Nat.div_lt_iff_lt_mul hst).mpr (by omega)
      rw [List.getElem?_append_left h1, bits_get r _ h1]
      have h2 : k - k / st * st = k % st := by
        have := Nat.div_add_mod k st
        rw [Nat.mul_comm] at this
        omega
      rw [h2]
      rfl

theorem size_pos : ∀ d : Vec, (∀ rs, Seg.idx rs ∈ d → rs ≠ []) → 0 < size d
  | [], _ => by simp [size]
  | .txt _ :: d, h => by rw [size]; exact size_pos d fun rs hr => h rs (List.mem_cons_of_mem _ hr)
  | .idx [] :: d, h => absurd rfl (h [] List.mem_cons_self)
  | .idx (r :: rs) :: d, h => by
    have := size_pos d fun rs hr => h rs (List.mem_cons_of_mem _ hr)
    rw [size, List.map_cons, List.sum_cons]
    have := Nat.mul_pos (show 0 < (r.up - r.lo).natAbs + 1 by omega) this
    omega

theorem realName_spec : ∀ (d : Vec) (k : Nat), (∀ rs, Seg.idx rs ∈ d → rs ≠ []) → TailDown d →
    k < size d → realName d k = ((expand d)[k]?).map vecText
  | [], k, _, _, hk => by
    have : k = 0 := by simp [size] at hk; omega
    subst this
    rfl
  | .txt s :: d, k, hne, ht, hk => by
    rw [realName, realName_spec d k (fun rs hr => hne rs (List.mem_cons_of_mem _ hr)) ht hk, expand, List.getElem?_map]
    cases (expand d)[k]? with
    | none => rfl
    | some b => rfl
  | .idx rs :: d, k, hne, ht, hk => by
    have hd : Down d := ht
    have hne' : ∀ rs, Seg.idx rs ∈ d → rs ≠ [] := fun rs hr => hne rs (List.mem_cons_of_mem _ hr)
    have hp := size_pos d hne'
    have hs := stride_down d hd
    rw [realName, chunk_spec _ (by omega), expand_rows, rows_get (by rw [expand_length]; exact hp), hs, expand_length]
    cases h : (rs.flatMap Rng.bits)[k / size d]? with
    | none => rfl
    | some i =>
      simp only [Option.map_some, Option.bind_some]
      rw [realName_spec d _ hne' (down_tail d hd) (Nat.mod_lt _ hp)]
      cases (expand d)[k % size d]? with
      | none => rfl
      | some b =>
        simp only [Option.map_some, vecText_cons, Seg.text, rngsText, Rng.text, if_true]

/-! ### Runs -/

theorem nodesOf_length (m : List Run) (h : Runs m) : (nodesOf m).length = (m.map Run.size).sum := by
  induction m with
  | nil => rfl
  | cons r m ih =>
    have h1 := (h r List.mem_cons_self).1
    have e : nodesOf (r :: m) = Rng.bits ⟨r.frm, r.to⟩ ++ nodesOf m := rfl
    rw [e, List.length_append, ih fun q hq => h q (List.mem_cons_of_mem _ hq), bits_length, List.map_cons, List.sum_cons, h1]
    simp only
    omega

theorem sel_spec (m : List Run) (h : Runs m) (k : Nat) : sel m k = (nodesOf m)[k]? := by
  induction m generalizing k with
  | nil => rfl
  | cons r m ih =>
    have h1 := (h r List.mem_cons_self).1
    have e : nodesOf (r :: m) = Rng.bits ⟨r.frm, r.to⟩ ++ nodesOf m := rfl
    have hl := bits_length ⟨r.frm, r.to⟩
    simp only at hl
    have h2 : (r.frm - r.to).natAbs = (r.to - r.frm).natAbs := by omega
    rw [sel, e]
    split
    · rw [List.getElem?_append_right (by omega), ih fun q hq => h q (List.mem_cons_of_mem _ hq)]
      congr 1
      omega
    · rw [List.getElem?_append_left (by omega), bits_get _ _ (by omega)]
      simp only [Option.some.injEq]
      split <;> split <;> omega

theorem bits_one (n : Int) : Rng.bits ⟨n, n⟩ = [n] := bits_single n

theorem push_nodes (m : List Run) (n : Int) : nodesOf (push m n) = nodesOf m ++ [n] := by
  induction m with
  | nil => simp [push, nodesOf, bits_one]
  | cons r m ih =>
    cases m with
    | nil =>
      rw [push]
      split
      · rename_i h
        have := bits_join_down (u := r.frm) (l := r.to) (u' := n) (l' := n) (by omega) (by omega) (by omega)
        rw [bits_one] at this
        simp only [nodesOf, List.flatMap_cons, List.flatMap_nil, List.append_nil]
        exact this
      · split
        · rename_i h
          have := bits_join_up (u := r.frm) (l := r.to) (u' := n) (l' := n) (by omega) (by omega) (by omega)
          rw [bits_one] at this
          simp only [nodesOf, List.flatMap_cons, List.flatMap_nil, List.append_nil]
          exact this
        · simp [nodesOf, bits_one]
    | cons r' m =>
      rw [push]
      have e : ∀ l, nodesOf (r :: l) = Rng.bits ⟨r.frm, r.to⟩ ++ nodesOf l := fun _ => rfl
      rw [e, ih, e, List.append_assoc]

theorem push_runs (m : List Run) (n : Int) (h : Runs m) (hn : 0 ≤ n) : Runs (push m n) := by
  induction m with
  | nil =>
    intro r hr
    simp only [push, List.mem_singleton] at hr
    subst hr
    simp [hn]
  | cons r m ih =>
    have h1 := h r List.mem_cons_self
    cases m with
    | nil =>
      rw [push]
      split
      · intro q hq
        simp only [List.mem_singleton] at hq
        subst hq
        simp only
        omega
      · split
        · intro q hq
          simp only [List.mem_singleton] at hq
          subst hq
          simp only
          omega
        · intro q hq
          simp only [List.mem_cons, List.not_mem_nil, or_false] at hq
          rcases hq with rfl | rfl
          · exact h1
          · simp [hn]
    | cons r' m =>
      rw [push]
      intro q hq
      rcases List.mem_cons.mp hq with rfl | hq
      · exact h1
      · exact ih (fun q hq => h q (List.mem_cons_of_mem _ hq)) q hq

/-- Several nodes. -/
def pushAll (acc : List Run) (l : List Int) : List Run := l.foldl push acc

theorem pushAll_nodes (acc : List Run) (l : List Int) : nodesOf (pushAll acc l) = nodesOf acc ++ l := by
  induction l generalizing acc with
  | nil => simp [pushAll]
  | cons n l ih =>
    have := ih (push acc n)
    rw [pushAll, List.foldl_cons, ← pushAll, this, push_nodes, List.append_assoc]
    rfl

theorem pushAll_append (acc : List Run) (l l' : List Int) : pushAll acc (l ++ l') = pushAll (pushAll acc l) l' :=
  List.foldl_append

/-- The nodes of the bits of `v` in the vector `d` with the nodes `N`. -/
def look (N : List Int) (d : Vec) (cur : Nat) (b : Vec) : Int := (N[cur + (expand d).idxOf b]?).getD 0

theorem mapIdx_ok {go : Nat → List Run → Res (List Run)} {rs : List Rng} {st cur : Nat} {f : Nat → List Int}
    (hgo : ∀ k < (rs.flatMap Rng.bits).length, ∀ acc, go (cur + st * k) acc = .ok (pushAll acc (f k))) :
    ∀ (is : List Int) (acc : List Run), (∀ i ∈ is, i ∈ rs.flatMap Rng.bits) →
      mapIdx go rs st cur is acc = .ok (pushAll acc (is.flatMap fun i => f ((rs.flatMap Rng.bits).idxOf i)))
  | [], acc, _ => by simp [mapIdx, pushAll]
  | i :: is, acc, h => by
    have hi := h i List.mem_cons_self
    rw [mapIdx, findIdx_spec, if_pos hi]
    simp only
    rw [hgo _ (List.idxOf_lt_length_of_mem hi)]
    simp only
    rw [mapIdx_ok hgo is _ fun j hj => h j (List.mem_cons_of_mem _ hj), List.flatMap_cons, pushAll_append]

theorem mapIdx_miss {go : Nat → List Run → Res (List Run)} {rs : List Rng} {st cur : Nat}
    (hgo : ∀ k < (rs.flatMap Rng.bits).length, ∀ acc, (∃ a, go (cur + st * k) acc = .ok a) ∨ go (cur + st * k) acc = .miss) :
    ∀ (is : List Int) (acc : List Run),
      ((∃ i ∈ is, i ∉ rs.flatMap Rng.bits) ∨ (is ≠ [] ∧ ∀ k acc, k < (rs.flatMap Rng.bits).length → go (cur + st * k) acc = .miss)) →
      mapIdx go rs st cur is acc = .miss
  | [], acc, h => by
    rcases h with ⟨i, hi, _⟩ | ⟨h, _⟩
    · simp at hi
    · exact absurd rfl h
  | i :: is, acc, h => by
    rw [mapIdx, findIdx_spec]
    by_cases hi : i ∈ rs.flatMap Rng.bits
    · rw [if_pos hi]
      simp only
      have hlt := List.idxOf_lt_length_of_mem hi
      rcases h with ⟨j, hj, hjn⟩ | ⟨_, hm⟩
      · rcases hgo _ hlt acc with ⟨a, ha⟩ | ha
        · rw [ha]
          simp only
          refine mapIdx_miss hgo is a (.inl ⟨j, ?_, hjn⟩)
          rcases List.mem_cons.mp hj with rfl | hj
          · exact absurd hi hjn
          · exact hj
        · rw [ha]
      · rw [hm _ _ hlt]
    · rw [if_neg hi]

theorem look_rows {N : List Int} {rs : List Rng} {d : Vec} {cur : Nat} {i : Int} {b : Vec} (hd : Down d)
    (hi : i ∈ rs.flatMap Rng.bits) (hb : b ∈ expand d) :
    look N (.idx rs :: d) cur (.idx [⟨i, i⟩] :: b) = look N d (cur + stride d * (rs.flatMap Rng.bits).idxOf i) b := by
  rw [look, look, expand_rows, idxOf_rows hi hb, stride_down d hd, expand_length, Nat.mul_comm (size d)]
  congr 2
  omega

theorem look_txt (N : List Int) (s : List Char) (d : Vec) (cur : Nat) (b : Vec) :
    look N (.txt s :: d) cur (.txt s :: b) = look N d cur b := by
  rw [look, look, expand, idxOf_map_cons]

theorem fits_ne {d v : Vec} (h : Fits d v) : expand v ≠ [] := by
  induction h with
  | nil => simp [expand]
  | txt s d v _ ih => simp [expand, ih]
  | idx rs d q qs v _ ih =>
    intro hc
    rw [expand_rows] at hc
    have h1 : q.up ∈ (q :: qs).flatMap Rng.bits := by
      rw [List.flatMap_cons]
      exact List.mem_append_left _ ((mem_bits q q.up).mpr (by omega))
    obtain ⟨b, hb⟩ := List.exists_mem_of_ne_nil _ ih
    have := mem_rows.mpr ⟨h1, hb⟩
    rw [hc] at this
    simp at this

theorem mapNode_ok : ∀ (d v : Vec) (m : List Run) (cur : Nat) (acc : List Run), Fits d v → TailDown d → Runs m →
    cur + size d ≤ (nodesOf m).length → (∀ b ∈ expand v, b ∈ expand d) →
    mapNode d v m cur acc = .ok (pushAll acc ((expand v).map (look (nodesOf m) d cur)))
  | _, _, m, cur, acc, .nil, _, hm, hl, _ => by
    rw [mapNode, sel_spec m hm]
    have : cur < (nodesOf m).length := by simp [size] at hl; omega
    simp [expand, pushAll, look, this]
  | _, _, m, cur, acc, .txt s d v hf, ht, hm, hl, hb => by
    have e : ∀ w, expand (.txt s :: w) = (expand w).map (.txt s :: ·) := fun _ => rfl
    rw [e, e] at hb
    rw [mapNode, mapNode_ok d v m cur acc hf ht hm hl, e, List.map_map]
    · congr 2
      refine List.map_congr_left fun b _ => (look_txt _ s d cur b).symm
    · intro b h
      obtain ⟨b', h1, h2⟩ := List.mem_map.mp (hb _ (List.mem_map.mpr ⟨b, h, rfl⟩))
      simp only [List.cons.injEq, true_and] at h2
      exact h2 ▸ h1
  | _, _, m, cur, acc, .idx rs d q qs v hf, ht, hm, hl, hb => by
    have hd : Down d := ht
    have hmem : ∀ i ∈ (q :: qs).flatMap Rng.bits, ∀ b ∈ expand v, i ∈ rs.flatMap Rng.bits ∧ b ∈ expand d := by
      intro i hi b hbv
      have := hb (.idx [⟨i, i⟩] :: b) (by rw [expand_rows]; exact mem_rows.mpr ⟨hi, hbv⟩)
      rw [expand_rows] at this
      exact mem_rows.mp this
    obtain ⟨b0, hb0⟩ := List.exists_mem_of_ne_nil _ (fits_ne hf)
    have hq : q.up ∈ (q :: qs).flatMap Rng.bits := by
      rw [List.flatMap_cons]
      exact List.mem_append_left _ ((mem_bits q q.up).mpr (by omega))
    have hsz : size (.idx rs :: d) = (rs.flatMap Rng.bits).length * size d := by
      rw [← expand_length, expand_rows, rows_length, expand_length]
    rw [mapNode, mapIdx_ok (f := fun k => (expand v).map (look (nodesOf m) d (cur + stride d * k)))]
    · rw [expand_rows, rows, List.map_flatMap]
      congr 2
      refine List.flatMap_congr ?_
      intro i hi
      rw [List.map_map]
      refine List.map_congr_left fun b hbv => ?_
      exact (look_rows hd (hmem i hi b hbv).1 (hmem i hi b hbv).2).symm
    · intro k hk acc
      refine mapNode_ok d v m _ acc hf (down_tail d hd) hm ?_ fun b hbv => (hmem _ hq b hbv).2
      rw [stride_down d hd]
      rw [hsz] at hl
      have : size d * (k + 1) ≤ size d * (rs.flatMap Rng.bits).length := Nat.mul_le_mul_left _ hk
      rw [Nat.mul_add, Nat.mul_one, Nat.mul_comm _ (rs.flatMap Rng.bits).length] at this
      omega
    · intro i hi
      exact (hmem i hi b0 hb0).1

theorem mapNode_miss : ∀ (d v : Vec) (m : List Run) (cur : Nat) (acc : List Run), Fits d v → TailDown d → Runs m →
    cur + size d ≤ (nodesOf m).length → (¬ ∀ b ∈ expand v, b ∈ expand d) → mapNode d v m cur acc = .miss
  | _, _, m, cur, acc, .nil, _, hm, hl, h => by simp [expand] at h
  | _, _, m, cur, acc, .txt s d v hf, ht, hm, hl, hb => by
    rw [mapNode]
    refine mapNode_miss d v m cur acc hf ht hm hl fun h => hb ?_
    intro b hbv
    have e : ∀ w, expand (.txt s :: w) = (expand w).map (.txt s :: ·) := fun _ => rfl
    rw [e] at hbv ⊢
    obtain ⟨b', h1, h2⟩ := List.mem_map.mp hbv
    exact List.mem_map.mpr ⟨b', h b' h1, h2⟩
  | _, _, m, cur, acc, .idx rs d q qs v hf, ht, hm, hl, hb => by
    have hd : Down d := ht
    have hsz : size (.idx rs :: d) = (rs.flatMap Rng.bits).length * size d := by
      rw [← expand_length, expand_rows, rows_length, expand_length]
    have hroom : ∀ k < (rs.flatMap Rng.bits).length, cur + stride d * k + size d ≤ (nodesOf m).length := by
      intro k hk
      rw [stride_down d hd]
      rw [hsz] at hl
      have : size d * (k + 1) ≤ size d * (rs.flatMap Rng.bits).length := Nat.mul_le_mul_left _ hk
      rw [Nat.mul_add, Nat.mul_one, Nat.mul_comm _ (rs.flatMap Rng.bits).length] at this
      omega
    rw [mapNode]
    refine mapIdx_miss ?_ _ _ ?_
    · intro k hk acc
      by_cases h : ∀ b ∈ expand v, b ∈ expand d
      · exact .inl ⟨_, mapNode_ok d v m _ acc hf (down_tail d hd) hm (hroom k hk) h⟩
      · exact .inr (mapNode_miss d v m _ acc hf (down_tail d hd) hm (hroom k hk) h)
    · by_cases h1 : ∃ i ∈ (q :: qs).flatMap Rng.bits, i ∉ rs.flatMap Rng.bits
      · exact .inl h1
      · refine .inr ⟨?_, ?_⟩
        · have hq : q.up ∈ (q :: qs).flatMap Rng.bits := by
            rw [List.flatMap_cons]
            exact List.mem_append_left _ ((mem_bits q q.up).mpr (by omega))
          exact List.ne_nil_of_mem hq
        · intro k acc hk
          refine mapNode_miss d v m _ acc hf (down_tail d hd) hm (hroom k hk) fun h => hb ?_
          intro b hbv
          rw [expand_rows] at hbv ⊢
          simp only [rows, List.mem_flatMap, List.mem_map] at hbv
          obtain ⟨i, hi, b', hb', rfl⟩ := hbv
          refine mem_rows.mpr ⟨?_, h b' hb'⟩
          rcases Classical.em (i ∈ rs.flatMap Rng.bits) with hc | hc
          · exact hc
          · exact absurd ⟨i, List.mem_flatMap.mpr hi, hc⟩ h1

end Voss.Node
