import Verif.Comp.Width
/-
The word operation of each component on the concatenation of its operands.
-/
namespace Voss.Comp
open Voss.Sim
open Voss.Bv (uv tc)

theorem poss_some : ∀ (l w : List Bool), List.Forall₂ Possible (l.map some) w ↔ w = l
  | [], w => by simp
  | a :: l, [] => by simp
  | a :: l, b :: w => by simp [poss_some l w, Possible, eq_comm]

theorem poss_none : ∀ (n : Nat) (w : List Bool), List.Forall₂ Possible (List.replicate n none) w ↔ w.length = n
  | 0, w => by simp [List.length_eq_zero_iff]
  | n+1, [] => by simp [List.replicate_succ]
  | n+1, b :: w => by simp [List.replicate_succ, poss_none n w, Possible]

theorem word_bin (op : Bin) (n : Nat) (a b : List Bool) (ha : a.length = n) (hb : b.length = n) :
    wordOp op.prim n (a ++ b) = (op.value a b).map some := by
  have h1 : (a ++ b).take n = a := by rw [← ha]; simp
  have h2 : ((a ++ b).drop n).take n = b := by rw [← ha]; simp [ha, ← hb]
  cases op <;> simp only [Bin.prim, wordOp, h1, h2, Bin.value, ha] <;> first | rfl | simp [List.map_zipWith]

theorem word_rel (op : Rel) (n : Nat) (a b : List Bool) (ha : a.length = n) (hb : b.length = n) :
    wordOp (op.prim n) 1 (a ++ b) = [op.value a b].map some := by
  have h1 : (a ++ b).take n = a := by rw [← ha]; simp
  have h2 : ((a ++ b).drop n).take n = b := by rw [← ha]; simp [ha, ← hb]
  cases op <;> simp only [Rel.prim, wordOp, h1, h2, Rel.value, List.map_cons, List.map_nil]

theorem word_wire (n : Nat) (a : List Bool) (ha : a.length = n) : wordOp .wire n a = a.map some := by
  simp only [wordOp]; rw [← ha, List.take_length]

theorem word_not (n : Nat) (a : List Bool) (ha : a.length = n) : wordOp .not n a = (a.map Bool.not).map some := by
  simp only [wordOp]; rw [← ha, List.take_length]; simp

theorem word_sx (n sz : Nat) (a : List Bool) (ha : a.length = n) : wordOp (.sx n) sz a = (intBits sz (tc a)).map some := by
  simp only [wordOp]; rw [← ha, List.take_length]

theorem word_zx (n sz : Nat) (a : List Bool) (ha : a.length = n) : wordOp (.zx n) sz a = (natBits sz (uv a)).map some := by
  simp only [wordOp]; rw [← ha, List.take_length]

theorem word_ite (acc : Bool) (n : Nat) (x a b : List Bool) (hx : x.length = 1) (ha : a.length = n) (hb : b.length = n) :
    wordOp (.ite acc) n (x ++ (a ++ b)) = (if x = [true] then a else b).map some := by
  match x, hx with
  | [c], _ =>
    have h1 : (a ++ b).take n = a := by rw [← ha]; simp
    have h2 : ((a ++ b).drop n).take n = b := by rw [← ha]; simp [ha, ← hb]
    simp only [wordOp, List.cons_append, List.nil_append, List.headD_cons, List.drop_succ_cons, List.drop_zero,
      Nat.add_comm 1 n, h1, h2]
    cases c <;> simp

theorem bitAt_eq (a : List Bool) (i : Int) (h0 : 0 ≤ i) (h1 : i < a.length) :
    bitAt a i = a.getD ((a.length : Int) - i - 1).toNat false := by
  unfold bitAt
  rw [List.getD_eq_getElem?_getD, List.getD_eq_getElem?_getD, List.getElem?_reverse (by omega)]
  congr 2
  omega

theorem word_slice (idxs : List Int) (sz m : Nat) (a : List Bool) (ha : a.length = m) (hi : ∀ i ∈ idxs, 0 ≤ i ∧ i < m) :
    wordOp (.slice ((fromMsb m idxs).map Int.toNat)) sz a = (idxs.map (bitAt a)).map some := by
  simp only [wordOp, fromMsb, List.map_map]
  apply List.map_congr_left
  intro i h
  have := hi i h
  simp only [Function.comp_apply]
  rw [bitAt_eq a i this.1 (by omega), ha]

/-- One update of a word, as a function of positions from the most significant end. -/
theorem setBit_getD (w : List Bool) (i : Int) (b : Bool) (h0 : 0 ≤ i) (h1 : i < w.length) (j : Nat) (hj : j < w.length) :
    (setBit w i b).getD j false = if ((w.length : Int) - i - 1).toNat = j then b else w.getD j false := by
  unfold setBit
  rw [List.getD_eq_getElem?_getD, List.getD_eq_getElem?_getD, List.getElem?_reverse (by simpa using hj), List.getElem?_set,
    List.length_set, List.length_reverse]
  by_cases h : ((w.length : Int) - i - 1).toNat = j
  · rw [if_pos h, if_pos (by omega), if_pos (by omega)]; rfl
  · rw [if_neg h, if_neg (by omega), List.getElem?_reverse (by omega)]
    congr 2
    omega

theorem setBits_getD (n : Nat) : ∀ (idxs : List Int) (new w : List Bool), w.length = n → (∀ i ∈ idxs, 0 ≤ i ∧ i < (n : Int)) → ∀ j, j < n →
    ((idxs.zip new).foldl (fun w q => setBit w q.1 q.2) w).getD j false =
      match (((fromMsb n idxs).map Int.toNat).zip new).reverse.find? (fun q => q.1 == j) with
      | some q => q.2
      | none => w.getD j false
  | [], new, w, _, _, j, _ => by simp [fromMsb]
  | i :: idxs, [], w, _, _, j, _ => by simp [fromMsb]
  | i :: idxs, b :: new, w, hw, hi, j, hj => by
    have h0 := hi i (by simp)
    rw [List.zip_cons_cons, List.foldl_cons,
      setBits_getD n idxs new _ (by rw [setBit_length, hw]) (fun i h => hi i (by simp [h])) j hj]
    simp only [fromMsb, List.map_cons, List.zip_cons_cons, List.reverse_cons, List.find?_append]
    cases hf : List.find? (fun q => q.1 == j) ((List.map Int.toNat (List.map (fun i => (n : Int) - i - 1) idxs)).zip new).reverse with
    | some q => simp
    | none =>
      rw [setBit_getD w i b h0.1 (by rw [hw]; exact h0.2) j (by omega), hw]
      by_cases h : ((n : Int) - i - 1).toNat = j
      · simp [h]
      · have hb : (((n : Int) - i - 1).toNat == j) = false := by simpa using h
        rw [if_neg h]
        simp only [Option.none_or, List.find?_cons, hb, List.find?_nil]

theorem word_upd (idxs : List Int) (n : Nat) (a b : List Bool) (ha : a.length = n) (hi : ∀ i ∈ idxs, 0 ≤ i ∧ i < (n : Int)) :
    wordOp (.updSlice ((fromMsb n idxs).map Int.toNat)) n (a ++ b) =
      ((idxs.zip b).foldl (fun w q => setBit w q.1 q.2) a).map some := by
  simp only [wordOp]
  have hd : (a ++ b).drop n = b := by rw [← ha]; simp
  rw [hd]
  apply List.ext_getElem
  · simp [setBits_length, ha]
  · intro j h1 h2
    simp only [List.length_map, List.length_range] at h1
    have h3 := setBits_getD n idxs b a ha hi j h1
    have h4 : j < ((idxs.zip b).foldl (fun w q => setBit w q.1 q.2) a).length := by rw [setBits_length, ha]; exact h1
    rw [List.getD_eq_getElem?_getD, List.getElem?_eq_getElem h4] at h3
    simp only [Option.getD_some] at h3
    rw [List.getElem_map, List.getElem_map, h3, List.getElem_range]
    have h5 : (a ++ b).getD j false = a.getD j false := by
      rw [List.getD_eq_getElem?_getD, List.getD_eq_getElem?_getD, List.getElem?_append_left (by omega)]
    rw [h5]
    cases List.find? (fun q => q.1 == j) (((fromMsb n idxs).map Int.toNat).zip b).reverse <;> rfl

theorem word_memRead (asz lines dsz : Nat) (a m w : List Bool) (ha : a.length = asz) (hm : m.length = lines * dsz) :
    List.Forall₂ Possible (wordOp (.memRead asz lines dsz) dsz (a ++ m)) w ↔
      w.length = dsz ∧ (uv a < lines → w = line lines dsz (uv a) m) := by
  have h1 : (a ++ m).take asz = a := by rw [← ha]; simp
  have h2 : (a ++ m).drop asz = m := by rw [← ha]; simp
  simp only [wordOp, h1, h2]
  by_cases h : uv a < lines
  · rw [if_pos h, poss_some]
    constructor
    · rintro rfl; exact ⟨line_length _ _ _ _ hm h, fun _ => rfl⟩
    · intro h'; exact h'.2 h
  · rw [if_neg h, poss_none]
    exact ⟨fun h' => ⟨h', fun h'' => absurd h'' h⟩, fun h' => h'.1⟩

theorem word_memWrite (asz lines dsz : Nat) (a d m : List Bool) (ha : a.length = asz) (hd : d.length = dsz) :
    wordOp (.memWrite asz lines dsz) (lines * dsz) (a ++ (d ++ m)) =
      ((List.range lines).reverse.flatMap fun k => if k = uv a then d else line lines dsz k m).map some := by
  have h1 : (a ++ (d ++ m)).take asz = a := by rw [← ha]; simp
  have h2 : ((a ++ (d ++ m)).drop asz).take dsz = d := by rw [← ha, ← hd]; simp
  have h3 : (a ++ (d ++ m)).drop (asz + dsz) = m := by rw [← ha, ← hd, ← List.drop_drop]; simp
  simp only [wordOp, h1, h2, h3, List.map_flatMap]

theorem flatten_getD (sz : Nat) : ∀ (hs : List (List Bool)), (∀ h ∈ hs, h.length = sz) → ∀ (k i : Nat), i < sz → k < hs.length →
    hs.flatten.getD (k * sz + i) false = (hs.getD k []).getD i false
  | [], _, _, _, _, hk => by simp at hk
  | h :: hs, hl, 0, i, hi, _ => by
    have := hl h (by simp)
    rw [List.flatten_cons, List.getD_eq_getElem?_getD, List.getElem?_append_left (by omega)]
    simp [List.getD_eq_getElem?_getD]
  | h :: hs, hl, k+1, i, hi, hk => by
    have := hl h (by simp)
    have h2 := flatten_getD sz hs (fun x hx => hl x (by simp [hx])) k i hi (by simpa using hk)
    rw [List.flatten_cons, List.getD_eq_getElem?_getD, List.getElem?_append_right (by rw [this, Nat.succ_mul]; omega), this]
    rw [List.getD_eq_getElem?_getD] at h2
    have h3 : (k + 1) * sz + i - sz = k * sz + i := by rw [Nat.succ_mul]; omega
    rw [h3, h2]
    simp [List.getD_eq_getElem?_getD]

theorem flatten_length (sz : Nat) : ∀ (hs : List (List Bool)), (∀ h ∈ hs, h.length = sz) → hs.flatten.length = hs.length * sz
  | [], _ => by simp
  | h :: hs, hl => by
    rw [List.flatten_cons, List.length_append, hl h (by simp), flatten_length sz hs (fun x hx => hl x (by simp [hx])), List.length_cons]
    ring

theorem word_idelay (mr Mr mf Mf sz : Nat) (h0 : 0 < sz) (c : List Bool) (hs : List (List Bool)) (hc : c.length = sz) (hh : ∀ h ∈ hs, h.length = sz) :
    wordOp (.idelay mr Mr mf Mf) sz (c ++ hs.flatten) =
      (List.range sz).map fun i => inertial mr Mr mf Mf (c.getD i false) (hs.map (·.getD i false)) := by
  simp only [wordOp]
  apply List.map_congr_left
  intro i hi
  simp only [List.mem_range] at hi
  have hl : (c ++ hs.flatten).length / sz - 1 = hs.length := by
    rw [List.length_append, hc, flatten_length sz hs hh, show sz + hs.length * sz = (hs.length + 1) * sz by ring,
      Nat.mul_div_cancel _ h0]
    omega
  rw [hl]
  congr 1
  · rw [List.getD_eq_getElem?_getD, List.getD_eq_getElem?_getD, List.getElem?_append_left (by omega)]
  · apply List.ext_getElem
    · simp
    · intro k h1 h2
      simp only [List.length_map, List.length_range] at h1
      rw [List.getElem_map, List.getElem_map, List.getElem_range]
      have h3 := flatten_getD sz hs hh k i hi h1
      rw [List.getD_eq_getElem?_getD, List.getElem?_append_right (by rw [hc, Nat.add_mul]; omega), hc]
      have h4 : (1 + k) * sz + i - sz = k * sz + i := by rw [Nat.add_mul]; omega
      rw [h4, ← List.getD_eq_getElem?_getD, h3]
      congr 1
      rw [List.getD_eq_getElem?_getD, List.getElem?_eq_getElem h1]; rfl

end Voss.Comp
