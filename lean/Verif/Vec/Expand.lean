import Verif.Vec.Split

/-! Expanding vectors. -/
namespace Voss.Vec

/-! ### Writing -/

theorem showRng_text {r : Rng} {s : List Char} (h : showRng r = some s) : s = r.text := by
  unfold showRng at h
  simp only at h
  split at h <;> simp_all [Rng.text]

theorem showRngs_cons2 (r r' : Rng) (rs : List Rng) :
    showRngs (r :: r' :: rs) = (showRng r).bind fun a => (showRngs (r' :: rs)).bind fun b => some (a ++ ',' :: b) := rfl

theorem showRngs_text : ∀ (rs : List Rng) (s : List Char), showRngs rs = some s → s = rngsText rs
  | [], s, h => by simp_all [showRngs, rngsText]
  | [r], s, h => showRng_text h
  | r :: r' :: rs, s, h => by
    rw [showRngs_cons2] at h
    simp only [Option.bind_eq_some_iff, Option.some.injEq] at h
    obtain ⟨a, h1, b, h2, rfl⟩ := h
    rw [rngsText_cons2, showRng_text h1, showRngs_text _ _ h2]

theorem showVec_text : ∀ (v : Vec) (s : List Char), showVec v = some s → s = vecText v
  | [], s, h => by simp_all [showVec, vecText]
  | .txt t :: v, s, h => by
    simp only [showVec, Option.bind_eq_bind, Option.bind_eq_some_iff, Option.some.injEq] at h
    obtain ⟨b, h2, rfl⟩ := h
    rw [vecText_cons, showVec_text v b h2]
    rfl
  | .idx rs :: v, s, h => by
    simp only [showVec, Option.bind_eq_bind, Option.bind_eq_some_iff, Option.some.injEq] at h
    obtain ⟨a, h1, b, h2, rfl⟩ := h
    rw [vecText_cons, showVec_text v b h2, showRngs_text rs a h1]
    rfl

theorem showAll_text : ∀ (vs : List Vec) (ss : List (List Char)), showAll vs = some ss → ss = vs.map vecText
  | [], s, h => by simp_all [showAll]
  | v :: vs, s, h => by
    simp only [showAll, Option.bind_eq_bind, Option.bind_eq_some_iff, Option.some.injEq] at h
    obtain ⟨a, h1, b, h2, rfl⟩ := h
    rw [showAll_text vs b h2, showVec_text v a h1]
    rfl

/-! ### Bits -/

/-- A single bit. -/
def Bit : Vec → Prop
  | [] => True
  | .txt _ :: v => Bit v
  | .idx rs :: v => (∃ i, rs = [⟨i, i⟩] ∧ isInt i = true ∧ i ≠ -2147483648) ∧ Bit v

theorem toDigits_length_le (n : Nat) (h : n < 10 ^ 10) : (Nat.toDigits 10 n).length ≤ 10 :=
  (Nat.length_toDigits_le_iff (by omega) (by omega)).2 h

theorem decimal_length {z : Int} (h : isInt z = true) : (decimal z).length < 20 := by
  simp only [isInt, decide_eq_true_eq] at h
  have := toDigits_length_le z.natAbs (by omega)
  unfold decimal
  split
  · simp only [List.length_cons]; omega
  · omega

theorem showVec_bit : ∀ b : Vec, Bit b → showVec b = some (vecText b)
  | [], _ => rfl
  | .txt s :: v, h => by
    simp only [showVec, showVec_bit v h]
    rfl
  | .idx rs :: v, ⟨⟨i, hi, hint, _⟩, h⟩ => by
    subst hi
    have : showRngs [⟨i, i⟩] = some (decimal i) := by
      simp [showRngs, showRng, decimal_length hint]
    simp only [showVec, showVec_bit v h, this]
    simp [vecText_cons, Seg.text, rngsText, Rng.text]

theorem showAll_bits (l : List Vec) (h : ∀ b ∈ l, Bit b) : showAll l = some (l.map vecText) := by
  induction l with
  | nil => rfl
  | cons b l ih =>
    simp only [showAll, showVec_bit b (h b (by simp)), ih (fun x hx => h x (by simp [hx]))]
    rfl

theorem bits_single (i : Int) : Rng.bits ⟨i, i⟩ = [i] := by
  simp [Rng.bits]

theorem expand_bit : ∀ b : Vec, Bit b → expand b = [b]
  | [], _ => rfl
  | .txt s :: v, h => by simp [expand, expand_bit v h]
  | .idx rs :: v, ⟨⟨i, hi, _, _⟩, h⟩ => by
    subst hi
    simp [expand, expand_bit v h, bits_single]

theorem edge_bit : ∀ b : Vec, Bit b → edge b = false
  | [], _ => rfl
  | .txt s :: v, h => edge_bit v h
  | .idx rs :: v, ⟨⟨i, hi, _, h3⟩, h⟩ => by
    subst hi
    simp [edge, edge_bit v h, Rng.edge, h3]

theorem norm_bit : ∀ b : Vec, Bit b → norm b = b
  | [], _ => rfl
  | .txt s :: v, h => by
    have := norm_bit v h
    simp only [norm] at this
    simp [norm, this]
  | .idx rs :: v, ⟨⟨i, hi, _, _⟩, h⟩ => by
    subst hi
    have := norm_bit v h
    simp only [norm] at this
    simp only [norm, List.map_cons, this]
    rfl

theorem mem_bits (r : Rng) (i : Int) : i ∈ r.bits ↔ (r.lo ≤ i ∧ i ≤ r.up ∨ r.up ≤ i ∧ i ≤ r.lo) := by
  unfold Rng.bits
  split
  · simp only [List.mem_map, List.mem_range]
    constructor
    · rintro ⟨a, h1, rfl⟩
      omega
    · intro h
      refine ⟨(r.up - i).toNat, ?_, ?_⟩ <;> omega
  · simp only [List.mem_map, List.mem_range]
    constructor
    · rintro ⟨a, h1, rfl⟩
      omega
    · intro h
      refine ⟨(i - r.up).toNat, ?_, ?_⟩ <;> omega

theorem bits_length (r : Rng) : r.bits.length = (r.up - r.lo).natAbs + 1 := by
  unfold Rng.bits
  split <;> simp <;> omega

/-- The bits are what can be selected. -/
theorem mem_expand : ∀ (v b : Vec), b ∈ expand v ↔ Selects v b
  | [], b => by
    simp only [expand, List.mem_singleton]
    constructor
    · rintro rfl
      exact .nil
    · intro h
      cases h
      rfl
  | .txt s :: v, b => by
    simp only [expand, List.mem_map]
    constructor
    · rintro ⟨a, h1, rfl⟩
      exact .txt _ _ _ ((mem_expand v a).1 h1)
    · intro h
      cases h with
      | txt _ _ a h => exact ⟨a, (mem_expand v a).2 h, rfl⟩
  | .idx rs :: v, b => by
    simp only [expand, List.mem_flatMap, List.mem_map]
    constructor
    · rintro ⟨r, h1, i, h2, a, h3, rfl⟩
      exact .idx _ _ _ r i h1 ((mem_bits r i).1 h2) ((mem_expand v a).1 h3)
    · intro h
      cases h with
      | idx _ _ a r i h1 h2 h3 => exact ⟨r, h1, i, (mem_bits r i).2 h2, a, (mem_expand v a).2 h3, rfl⟩

theorem expand_length : ∀ v : Vec, (expand v).length = size v
  | [] => rfl
  | .txt s :: v => by simp [expand, size, expand_length v]
  | .idx rs :: v => by
    simp only [expand, size, List.length_flatMap, List.length_map, expand_length v]
    congr 1
    refine List.map_congr_left ?_
    intro r _
    rw [← bits_length]
    induction r.bits with
    | nil => simp
    | cons a as ih => simp [ih, Nat.add_mul, Nat.add_comm]

/-- The bits of a well-formed vector are well-formed. -/
theorem selects_bit {v b : Vec} (hs : Selects v b) (hw : WF v) (he : edge v = false) : Bit b ∧ WF b := by
  induction hs with
  | nil => exact ⟨trivial, trivial⟩
  | txt s v b hs ih =>
    obtain ⟨h1, h2⟩ := hw
    obtain ⟨h3, h4⟩ := ih h2 he
    refine ⟨h3, ?_, h4⟩
    rcases h1 with h1 | ⟨h1, h5⟩
    · exact .inl h1
    · refine .inr ⟨h1, ?_⟩
      rcases h5 with rfl | ⟨h5, rs, v', rfl⟩
      · cases hs
        exact .inl rfl
      · cases hs with
        | idx _ _ a r i _ _ _ => exact .inr ⟨h5, _, _, rfl⟩
  | idx rs v b r i hr hi hs ih =>
    obtain ⟨h1, h2, ⟨t, v', rfl⟩, h4⟩ := hw
    simp only [edge, Bool.or_eq_false_iff, List.any_eq_false] at he
    obtain ⟨h5, h6⟩ := ih h4 he.2
    have h7 := h2 r hr
    have h8 := he.1 r hr
    simp only [isInt, decide_eq_true_eq] at h7
    simp only [Rng.edge, Bool.or_eq_true, beq_iff_eq, not_or] at h8
    have h9 : isInt i = true := by
      simp only [isInt, decide_eq_true_eq]
      omega
    refine ⟨⟨⟨i, rfl, h9, by omega⟩, h5⟩, by simp, ?_, ?_, h6⟩
    · intro x hx
      simp only [List.mem_singleton] at hx
      subst hx
      exact ⟨h9, h9⟩
    · cases hs with
      | txt _ _ a _ => exact ⟨t, a, rfl⟩

/-! ### Distinct bits -/

theorem nodup_expand : ∀ v : Vec, Simple v → (expand v).Nodup
  | [], _ => by simp [expand]
  | .txt s :: v, h => by
    have := nodup_expand v h
    simp only [expand]
    unfold List.Nodup at *
    rw [List.pairwise_map]
    exact this.imp (fun hne e => hne (by simpa using e))
  | .idx rs :: v, ⟨h1, h2⟩ => by
    have ih := nodup_expand v h2
    have e : expand (.idx rs :: v) =
        (rs.flatMap Rng.bits).flatMap fun i => (expand v).map (.idx [⟨i, i⟩] :: ·) := by
      simp [expand, List.flatMap_assoc]
    rw [e]
    generalize rs.flatMap Rng.bits = is at h1
    induction is with
    | nil => simp
    | cons i is ihis =>
      simp only [List.nodup_cons] at h1
      simp only [List.flatMap_cons]
      unfold List.Nodup at *
      rw [List.pairwise_append]
      refine ⟨?_, ihis h1.2, ?_⟩
      · rw [List.pairwise_map]
        exact ih.imp (fun hne e => hne (by simpa using e))
      · intro a ha b hb
        simp only [List.mem_map, List.mem_flatMap] at ha hb
        obtain ⟨x, _, rfl⟩ := ha
        obtain ⟨j, hj, y, _, rfl⟩ := hb
        intro e
        simp only [List.cons.injEq, Seg.idx.injEq, Rng.mk.injEq] at e
        exact h1.1 (by rw [e.1.1.1]; exact hj)

theorem vecText_inj {a b : Vec} (ha : Bit a ∧ WF a) (hb : Bit b ∧ WF b) (h : vecText a = vecText b) : a = b := by
  have h1 := splitLoop_text a (vecText a).length ha.2 (Nat.le_refl _)
  have h2 := splitLoop_text b (vecText a).length hb.2 (by rw [h]; exact Nat.le_refl _)
  rw [← h] at h2
  rw [h2, Sp.ok.injEq, norm_bit a ha.1, norm_bit b hb.1] at h1
  exact h1.symm

/-! ### Joining adjacent ranges changes nothing -/

theorem map_range_split (f : Nat → Int) (a b : Nat) :
    (List.range (a + b)).map f = (List.range a).map f ++ (List.range b).map fun i => f (a + i) := by
  rw [List.range_add]
  simp

theorem bits_join_down {u l u' l' : Int} (h1 : u ≥ l) (h2 : u' ≥ l') (h3 : l - 1 = u') :
    Rng.bits ⟨u, l'⟩ = Rng.bits ⟨u, l⟩ ++ Rng.bits ⟨u', l'⟩ := by
  have e1 : u ≥ l' := by omega
  simp only [Rng.bits, e1, h1, h2, if_true]
  have e2 : (u - l').toNat + 1 = ((u - l).toNat + 1) + ((u' - l').toNat + 1) := by omega
  rw [e2, map_range_split]
  congr 1
  refine List.map_congr_left ?_
  intro i _
  omega

theorem bits_up {u l : Int} (h : u ≤ l) :
    Rng.bits ⟨u, l⟩ = (List.range ((l - u).toNat + 1)).map fun (i : Nat) => u + (i : Int) := by
  unfold Rng.bits
  split
  · have : u = l := by simp only at *; omega
    subst this
    simp
  · rfl

theorem bits_join_up {u l u' l' : Int} (h1 : u ≤ l) (h2 : u' ≤ l') (h3 : l + 1 = u') :
    Rng.bits ⟨u, l'⟩ = Rng.bits ⟨u, l⟩ ++ Rng.bits ⟨u', l'⟩ := by
  rw [bits_up (by omega), bits_up h1, bits_up h2]
  have e2 : (l' - u).toNat + 1 = ((l - u).toNat + 1) + ((l' - u').toNat + 1) := by omega
  rw [e2, map_range_split]
  congr 1
  refine List.map_congr_left ?_
  intro i _
  omega

theorem mergeTail_bits (t : Rng) (cs : List Rng) :
    (mergeTail t cs).flatMap Rng.bits = t.bits ++ cs.flatMap Rng.bits := by
  induction cs generalizing t with
  | nil => simp [mergeTail]
  | cons c cs ih =>
    simp only [mergeTail]
    split
    · rename_i h
      rw [ih, bits_join_down h.1 h.2.1 h.2.2]
      simp
    · split
      · rename_i h
        rw [ih, bits_join_up h.1 h.2.1 h.2.2]
        simp
      · simp [ih]

theorem mergeIndices_bits (rs : List Rng) : (mergeIndices rs).flatMap Rng.bits = rs.flatMap Rng.bits := by
  cases rs with
  | nil => rfl
  | cons t cs => simp [mergeIndices, mergeTail_bits]

theorem expand_idx (rs : List Rng) (v : Vec) : expand (.idx rs :: v) =
    (rs.flatMap Rng.bits).flatMap fun i => (expand v).map (.idx [⟨i, i⟩] :: ·) := by
  simp [expand, List.flatMap_assoc]

theorem norm_cons_txt (s : List Char) (v : Vec) : norm (.txt s :: v) = .txt s :: norm v := rfl
theorem norm_cons_idx (rs : List Rng) (v : Vec) : norm (.idx rs :: v) = .idx (mergeIndices rs) :: norm v := rfl

theorem expand_norm : ∀ v : Vec, expand (norm v) = expand v
  | [] => rfl
  | .txt s :: v => by
    rw [norm_cons_txt]
    simp [expand, expand_norm v]
  | .idx rs :: v => by
    rw [norm_cons_idx, expand_idx, expand_idx, mergeIndices_bits, expand_norm v]

/-! ### Edges -/

theorem mergeTail_inner (t : Rng) (cs : List Rng) (h : ∀ r ∈ t :: cs, Inner r) : ∀ r ∈ mergeTail t cs, Inner r := by
  induction cs generalizing t with
  | nil => simpa [mergeTail] using h
  | cons c cs ih =>
    have ht := h t (by simp)
    have hc := h c (by simp)
    have hcs : ∀ r ∈ cs, Inner r := fun r hr => h r (by simp [hr])
    have hj : ∀ r ∈ (⟨t.up, c.lo⟩ : Rng) :: cs, Inner r := by
      intro r hr
      simp only [List.mem_cons] at hr
      rcases hr with rfl | hr
      · exact ⟨ht.1, hc.2⟩
      · exact hcs r hr
    simp only [mergeTail]
    split
    · exact ih _ hj
    · split
      · exact ih _ hj
      · intro r hr
        simp only [List.mem_cons] at hr
        rcases hr with rfl | hr
        · exact ht
        · exact ih c (by simpa using ⟨hc, hcs⟩) r hr

theorem inner_edge {r : Rng} (h : Inner r) : r.edge = false := by
  obtain ⟨h1, h2⟩ := h
  simp only [Rng.edge, Bool.or_eq_false_iff, Bool.and_eq_false_iff, beq_eq_false_iff_ne, ne_eq]
  refine ⟨⟨by omega, by omega⟩, .inr (by omega)⟩

theorem inner_norm : ∀ v : Vec, Inners v → edge (norm v) = false
  | [], _ => rfl
  | .txt s :: v, h => inner_norm v h
  | .idx rs :: v, ⟨h1, h2⟩ => by
    rw [norm_cons_idx]
    simp only [edge, inner_norm v h2, Bool.or_false, List.any_eq_false, Bool.not_eq_true]
    intro r hr
    refine inner_edge ?_
    cases rs with
    | nil => simp [mergeIndices] at hr
    | cons t cs => exact mergeTail_inner t cs h1 r hr

end Voss.Vec
