import Verif.Sim.ExactLemmas
import Verif.Arbi.Props
/-
On known Boolean values the primitives compute the intended word operations: extension, memories, slices,
delays, constants, and all primitives together.
-/
namespace Voss.Sim
open Voss.Bv (uv tc uv_lt uv_append)

theorem extend_enc (n : Nat) (f : Bool) (v : List Bool) :
    extend n (enc f) (encW v) = encW (List.replicate (n - v.length) f ++ v.drop (v.length - n)) := by
  simp [extend, encW]

theorem uv_drop (v : List Bool) (n : Nat) : uv (v.drop (v.length - n)) = uv v % 2^(min n v.length) := by
  have h1 : uv v = uv (v.take (v.length - n)) * 2^(min n v.length) + uv (v.drop (v.length - n)) := by
    conv_lhs => rw [← List.take_append_drop (v.length - n) v]
    rw [uv_append, List.length_drop]
    congr 3; omega
  have h2 := uv_lt (v.drop (v.length - n))
  rw [List.length_drop, show v.length - (v.length - n) = min n v.length by omega] at h2
  conv_rhs => rw [h1]
  rw [Nat.add_comm, Nat.add_mul_mod_self_right, Nat.mod_eq_of_lt h2]

theorem zx_enc (n : Nat) (v : List Bool) : extend n (enc false) (encW v) = encW (natBits n (uv v)) := by
  rw [extend_enc]
  congr 1
  apply eq_natBits
  · simp; omega
  · rw [uv_append, Voss.Bv.uv_replicate_false, Nat.zero_mul, Nat.zero_add, uv_drop]
    rcases Nat.le_total n v.length with h | h
    · rw [Nat.min_eq_left h]
    · rw [Nat.min_eq_right h, Nat.mod_eq_of_lt (uv_lt v), Nat.mod_eq_of_lt]
      exact lt_of_lt_of_le (uv_lt v) (Nat.pow_le_pow_right (by omega) h)

theorem sx_enc (n : Nat) (v : List Bool) (hv : v ≠ []) :
    extend n (enc (v.headD false)) (encW v) = encW (intBits n (tc v)) := by
  rw [extend_enc]
  congr 1
  rcases Nat.le_total n v.length with h | h
  · have hlen : (v.drop (v.length - n)).length = n := by simp; omega
    rw [show n - v.length = 0 by omega, List.replicate_zero, List.nil_append]
    obtain ⟨k, hk⟩ := tc_uv v
    have hu := uv_drop v n
    rw [Nat.min_eq_left h] at hu
    have hd : (uv (v.drop (v.length - n)) : Int) = uv v - 2^n * (uv v / 2^n : Nat) := by
      rw [hu]
      have := Nat.div_add_mod (uv v) (2^n)
      have h2 : ((2^n * (uv v / 2^n) + uv v % 2^n : Nat) : Int) = (uv v : Nat) := by rw [this]
      push_cast at h2 ⊢
      linarith
    obtain ⟨d, hd2⟩ : ∃ d, v.length = n + d := ⟨v.length - n, by omega⟩
    refine eq_intBits _ n (tc v) (-(uv v / 2^n : Nat) - k * 2^d) hlen ?_
    rw [hd, hk, hd2, pow_add]
    ring
  · rw [show v.length - n = 0 by omega, List.drop_zero]
    refine eq_intBits_tc _ n (tc v) 0 (by simp; omega) ?_
    rw [Voss.Bv.tc_replicate _ _ hv]; ring

theorem eqFold_enc : ∀ (a b : List Bool) (e : Bool), a.length = b.length →
    ((encW a).zip (encW b)).foldl (eqCell boolOps) (enc e) = enc (e && (uv a == uv b))
  | [], [], e, _ => by simp [encW]
  | [], _ :: _, _, h => by simp at h
  | _ :: _, [], _, h => by simp at h
  | a :: as, b :: bs, e, h => by
    have hl : as.length = bs.length := by simpa using h
    rw [encW_cons, encW_cons, List.zip_cons_cons, List.foldl_cons, eqCell_enc, eqFold_enc as bs _ hl]
    congr 1
    have h1 := uv_lt as
    have h2 := uv_lt bs
    rw [hl] at h1
    simp only [uv, hl]
    cases e <;> simp
    cases a <;> cases b <;> simp <;> first | omega | skip

theorem lineSel_enc (k : Nat) : ∀ (a : List Bool),
    lineSel boolOps k (encW a) = (enc (k % 2^a.length == uv a), k / 2^a.length)
  | [] => by simp [encW, lineSel, uv, Nat.mod_one, dr1_enc]
  | a :: as => by
    have h1 := uv_lt as
    have h2 : k % 2^as.length < 2^as.length := Nat.mod_lt _ (by positivity)
    have ec : ∀ (x y : Bool), (⟨boolOps.and (enc x).h (enc y).h, boolOps.or (enc x).l (enc y).l⟩ : DR Bool) = enc (x && y) := by
      intro x y; cases x <;> cases y <;> rfl
    rw [encW_cons, lineSel, lineSel_enc k as]
    simp only [List.length_cons, pow_succ, Nat.div_div_eq_div_mul]
    have hs : (if k / 2^as.length % 2 = 1 then enc a else (enc a).swap) = enc ((k / 2^as.length % 2 == 1) == a) := by
      rcases Nat.mod_two_eq_zero_or_one (k / 2^as.length) with h | h <;> cases a <;> simp [h, enc_swap]
    rw [hs, ec]
    congr 2
    have h3 : k % (2^as.length * 2) = k % 2^as.length + 2^as.length * (k / 2^as.length % 2) := by
      rw [← pow_succ, Nat.mod_pow_succ]
    rw [h3, uv]
    rcases Nat.mod_two_eq_zero_or_one (k / 2^as.length) with h | h <;> cases a <;> simp [h] <;> try omega

theorem memLine_enc (n d k : Nat) (m : List Bool) : memLine n d k (encW m) = encW (line n d k m) := by
  simp only [memLine, line, encW_drop, encW_take]
  congr 4; omega

theorem line_length (n d k : Nat) (m : List Bool) (hk : k < n) (hm : m.length = n * d) : (line n d k m).length = d := by
  simp only [line, List.length_take, List.length_drop, hm]
  have : (n - 1 - k) * d + d ≤ n * d := by
    have : (n - 1 - k) * d + d = (n - 1 - k + 1) * d := by ring
    rw [this]; exact Nat.mul_le_mul_right _ (by omega)
  omega

theorem memRead_enc (n d : Nat) (a m : List Bool) (hn : n ≤ 2^a.length) (hm : m.length = n * d) :
    memReadFn boolOps n d (encW a) (encW m) =
      encTW (if uv a < n then (line n d (uv a) m).map some else List.replicate d none) := by
  have key : ∀ k ≤ n, (List.range k).foldl
      (fun out ln => iteFn boolOps (lineSel boolOps ln (encW a)).1 (memLine n d ln (encW m)) out) (List.replicate d (drX boolOps)) =
      encTW (if uv a < k then (line n d (uv a) m).map some else List.replicate d none) := by
    intro k
    induction k with
    | zero => intro _; simp [encTW, drX_enc]
    | succ k ih =>
      intro hk
      rw [List.range_succ, List.foldl_append, ih (by omega)]
      simp only [List.foldl_cons, List.foldl_nil]
      rw [lineSel_enc, memLine_enc, ← encTW_some, iteFn_encT]
      · congr 1
        rw [Nat.mod_eq_of_lt (by omega)]
        by_cases h1 : k = uv a
        · subst h1; simp
        · have : (k == uv a) = false := by simpa using h1
          rw [this]
          simp only [Bool.false_eq_true, if_false]
          by_cases h2 : uv a < k
          · rw [if_pos h2, if_pos (by omega)]
          · rw [if_neg h2, if_neg (by omega)]
      · rw [List.length_map, line_length _ _ _ _ (by omega) hm]
        split
        · rw [List.length_map, line_length _ _ _ _ (by omega) hm]
        · simp
  exact key n (le_refl _)

theorem memWrite_enc (n d : Nat) (a dt m : List Bool) (hn : n ≤ 2^a.length) (hd : dt.length = d) (hm : m.length = n * d) :
    memWriteFn boolOps n d (encW a) (encW dt) (encW m) =
      encTW ((List.range n).reverse.flatMap fun k => (if k = uv a then dt else line n d k m).map some) := by
  unfold memWriteFn
  rw [← List.flatMap_def]
  have : ∀ (l : List Nat), (∀ k ∈ l, k < n) →
      l.flatMap (fun ln => iteFn boolOps (lineSel boolOps ln (encW a)).1 (encW dt) (memLine n d ln (encW m))) =
      encTW (l.flatMap fun k => (if k = uv a then dt else line n d k m).map some) := by
    intro l
    induction l with
    | nil => intro _; rfl
    | cons k l ih =>
      intro h
      have hk : k < n := h k (by simp)
      rw [List.flatMap_cons, List.flatMap_cons, ih (fun j hj => h j (by simp [hj])), lineSel_enc, memLine_enc,
        iteFn_enc _ _ _ (by rw [hd, line_length _ _ _ _ hk hm]), Nat.mod_eq_of_lt (by omega)]
      rw [encTW, encTW, List.map_append]
      congr 1
      rw [← encTW, encTW_some]
      by_cases h1 : k = uv a <;> simp [h1]
  exact this _ (by simp)

theorem set_enc (l : List Bool) (i : Nat) (b : Bool) : (encW l).set i (enc b) = encW (l.set i b) := by
  simp [encW, List.map_set]

theorem updFn_enc (idxs : List Nat) : ∀ (a b : List Bool), updFn (encW a) idxs (encW b) =
    encW ((idxs.zip b).foldl (fun acc p => acc.set p.1 p.2) a) := by
  unfold updFn
  induction idxs with
  | nil => intro a b; simp
  | cons i l ih =>
    intro a b
    cases b with
    | nil => simp [encW]
    | cons x b =>
      rw [encW_cons, List.zip_cons_cons, List.foldl_cons, set_enc, ih, List.zip_cons_cons, List.foldl_cons]

theorem upd_spec (ps : List (Nat × Bool)) (a : List Bool) :
    ps.foldl (fun acc p => acc.set p.1 p.2) a = (List.range a.length).map fun i =>
      match ps.reverse.find? (fun q => q.1 == i) with
      | some q => q.2
      | none => a.getD i false := by
  suffices H : ∀ (rs : List (Nat × Bool)), (rs.foldr (fun p acc => acc.set p.1 p.2) a) = (List.range a.length).map fun i =>
      match rs.find? (fun q => q.1 == i) with
      | some q => q.2
      | none => a.getD i false by
    rw [List.foldl_eq_foldr_reverse, H]
  clear ps
  intro rs
  induction rs with
  | nil =>
    apply List.ext_getElem
    · simp
    · intro i h1 h2
      simp only [List.foldr_nil] at h1
      simp [h1]
  | cons p rs ih =>
    rw [List.foldr_cons, ih]
    apply List.ext_getElem
    · simp
    · intro i h1 h2
      simp only [List.getElem_set, List.getElem_map, List.getElem_range, List.find?_cons]
      by_cases hp : p.1 = i
      · simp [hp]
      · rw [if_neg hp]
        have : (p.1 == i) = false := by simpa using hp
        rw [this]

/-! ### Inertial delay -/

theorem foldl_and (l : List Bool) (x : Bool) : l.foldl Bool.and x = (x && l.all (· = true)) := by
  induction l generalizing x with
  | nil => simp
  | cons a l ih => rw [List.foldl_cons, ih]; cases x <;> cases a <;> simp

theorem foldl_or (l : List Bool) (x : Bool) : l.foldl Bool.or x = (x || !l.all (· = false)) := by
  induction l generalizing x with
  | nil => simp
  | cons a l ih => rw [List.foldl_cons, ih]; cases x <;> cases a <;> simp

theorem idelayBit_enc (mr Mr mf Mf : Nat) (cur : Bool) (hist : List Bool) (h1 : 1 ≤ mr) (h2 : mr ≤ Mr) (h3 : 1 ≤ mf) (h4 : mf ≤ Mf)
    (hl : 1 ≤ hist.length) : idelayBit boolOps mr Mr mf Mf (enc cur) (encW hist) = encT (inertial mr Mr mf Mf cur hist) := by
  have hne : ∀ (l : List Bool), (l.map (!·)).all (· = true) = l.all (· = false) := by
    intro l; induction l with
    | nil => rfl
    | cons a l ih => simp only [List.map_cons, List.all_cons, ih]; cases a <;> rfl
  have hne2 : ∀ (l : List Bool), (l.map (!·)).all (· = false) = l.all (· = true) := by
    intro l; induction l with
    | nil => rfl
    | cons a l ih => simp only [List.map_cons, List.all_cons, ih]; cases a <;> rfl
  have hH : (encW hist).map DR.h = hist := by simp [encW, Function.comp_def, enc]
  have hL : (encW hist).map DR.l = hist.map (!·) := by simp [encW, Function.comp_def, enc]
  have key : idelayBit boolOps mr Mr mf Mf (enc cur) (encW hist) =
      ⟨(hist.take mr).all (· = true) || (cur && !(hist.take Mf).all (· = false)),
       (hist.take mf).all (· = false) || (!cur && !(hist.take Mr).all (· = true))⟩ := by
    unfold idelayBit idelayRail
    rw [hH, hL]
    simp only [boolOps]
    simp only [foldl_and, foldl_or, ← List.map_take, hne, hne2, Bool.true_and, Bool.false_or, enc]
  rw [key]
  obtain ⟨x, t, rfl⟩ : ∃ x t, hist = x :: t := by
    cases hist with
    | nil => simp at hl
    | cons x t => exact ⟨x, t, rfl⟩
  have mono : ∀ (v : Bool) (m M : Nat), m ≤ M → ((x :: t).take M).all (· = v) = true → ((x :: t).take m).all (· = v) = true := by
    intro v m M hm h
    rw [List.all_eq_true] at h ⊢
    intro y hy
    have : (x :: t).take m = ((x :: t).take M).take m := by rw [List.take_take, Nat.min_eq_left hm]
    rw [this] at hy
    exact h y (List.mem_of_mem_take hy)
  have hd : ∀ (v : Bool) (m : Nat), 1 ≤ m → ((x :: t).take m).all (· = v) = true → x = v := by
    intro v m hm h
    obtain ⟨k, rfl⟩ : ∃ k, m = k + 1 := ⟨m - 1, by omega⟩
    rw [List.take_succ_cons, List.all_cons] at h
    simp at h; exact h.1
  unfold inertial
  have a1 := mono true mr Mr h2
  have a2 := mono false mf Mf h4
  have b1 := hd true mr h1
  have b2 := hd false mf h3
  have b3 := hd true Mr (by omega)
  have b4 := hd false Mf (by omega)
  generalize ((x :: t).take mr).all (· = true) = A at *
  generalize ((x :: t).take Mr).all (· = true) = B at *
  generalize ((x :: t).take mf).all (· = false) = C at *
  generalize ((x :: t).take Mf).all (· = false) = D at *
  revert a1 a2 b1 b2 b3 b4
  cases cur <;> cases A <;> cases B <;> cases C <;> cases D <;> cases x <;> decide

/-! ### Constants -/

theorem norm_two_pow_length (p : List Arbi.W) (hp : Arbi.Norm p) (k : Nat) (hv : Arbi.val p = 2^k) (hk : k < 2^31) : p.length ≤ 2^29 := by
  rcases Nat.lt_or_ge p.length 2 with h | h
  · omega
  rcases Arbi.norm_abs_lower p hp h with h1 | h1
  · rw [hv] at h1
    have : (0:Int) < 2^k := by positivity
    have : (0:Int) < 2^(64 * (p.length - 1) - 1) := by positivity
    omega
  · rw [hv] at h1
    have h2 : (2:Nat)^(64 * (p.length - 1) - 1) ≤ 2^k := by exact_mod_cast h1
    have := (Nat.pow_le_pow_iff_right (by omega : 1 < 2)).1 h2
    omega

theorem testbit_const (v p : List Arbi.W) (hv : Arbi.Norm v) (hp : Arbi.Norm p) (k : Nat) (hk : Arbi.val p = 2^k) :
    (Arbi.cmp (Arbi.bvAnd v p) (Arbi.fromWord 0#64) ≠ 0) ↔ Arbi.ibit (Arbi.val v) k = true := by
  obtain ⟨z, h1, h2, h3⟩ := (Arbi.c05_bitwise v p hv hp).1
  have hz : Arbi.bvAnd v p = z := by simpa [Arbi.iAND] using h1
  rw [hz]
  have h0 := (Arbi.c04_compare_numeric z (Arbi.fromWord 0#64) h2 (Arbi.norm_single _)).2.2.2.2.1
  have hv0 : Arbi.val (Arbi.fromWord 0#64) = 0 := by decide
  rw [hv0] at h0
  have hpk : ∀ i, Arbi.ibit (Arbi.val p) i = decide (k = i) := by
    intro i
    have : (Arbi.val p) = ((2^k : Nat) : Int) := by rw [hk]; push_cast; rfl
    rw [this, ibit_natCast, Nat.testBit_two_pow]
  have hz0 : ∀ i, Arbi.ibit 0 i = false := by
    intro i
    have := ibit_natCast 0 i
    simpa using this
  rw [ne_eq, h0]
  constructor
  · intro hne
    rcases Bool.eq_false_or_eq_true (Arbi.ibit (Arbi.val v) k) with h | h
    · exact h
    · exfalso; apply hne
      apply Arbi.c05_bits_determine
      intro i
      rw [h3, hpk, hz0]
      by_cases hi : k = i
      · subst hi; simp [h]
      · simp [hi]
  · intro h hc
    have := h3 k
    rw [hc, hz0, hpk, h] at this
    simp at this

theorem constLoop_enc (v : List Arbi.W) (hv : Arbi.Norm v) : ∀ (n k : Nat) (p : List Arbi.W), Arbi.Norm p → Arbi.val p = 2^k → k + n < 2^31 →
    constLoop boolOps v n p (encW (intBits k (Arbi.val v))) = some (encW (intBits (k + n) (Arbi.val v)))
  | 0, k, p, _, _, _ => rfl
  | n+1, k, p, hp, hk, hb => by
    obtain ⟨p', e1, e2, e3⟩ := Arbi.c02_mul_exact_partial p (Arbi.fromWord 2#64) hp (Arbi.norm_single _)
      (norm_two_pow_length p hp k hk (by omega)) (by
        rw [hk]; rintro ⟨h, _⟩
        have : (0:Int) < 2^k := by positivity
        omega)
    have hm : Arbi.mul p (Arbi.fromWord 2#64) = .ok p' := by
      unfold Arbi.iTIMES at e1
      cases hm : Arbi.mul p (Arbi.fromWord 2#64) <;> rw [hm] at e1 <;> simp [Arbi.Res.out] at e1
      rw [e1]
    rw [constLoop, hm]
    have hbit : (if Arbi.cmp (Arbi.bvAnd v p) (Arbi.fromWord 0#64) ≠ 0 then dr1 boolOps else dr0 boolOps) = enc (Arbi.ibit (Arbi.val v) k) := by
      have := testbit_const v p hv hp k hk
      by_cases h : Arbi.cmp (Arbi.bvAnd v p) (Arbi.fromWord 0#64) ≠ 0
      · rw [if_pos h, this.1 h, dr1_enc]
      · rw [if_neg h, dr0_enc]
        have : Arbi.ibit (Arbi.val v) k = false := by
          rcases Bool.eq_false_or_eq_true (Arbi.ibit (Arbi.val v) k) with h' | h'
          · exact absurd (this.2 h') h
          · exact h'
        rw [this]
    dsimp only
    rw [hbit, ← encW_cons, ← intBits_succ]
    have := constLoop_enc v hv n (k+1) p' e2 (by rw [e3, hk]; have : Arbi.val (Arbi.fromWord 2#64) = 2 := by decide
                                                 rw [this, pow_succ]) (by omega)
    rw [this]
    congr 3; omega

theorem zipWith_enc (f : DR Bool → DR Bool → DR Bool) (g : Bool → Bool → Bool) (h : ∀ x y, f (enc x) (enc y) = enc (g x y)) (a b : List Bool) :
    List.zipWith f (encW a) (encW b) = encTW (List.zipWith (fun x y => some (g x y)) a b) := by
  simp only [encW, encTW, List.zipWith_map, List.map_zipWith, h, encT]

theorem getD_encW' (v : List Bool) (i : Nat) (x : DR Bool) (hi : i < v.length) : (encW v).getD i x = enc (v.getD i false) := by
  simp [encW, List.getD_eq_getElem?_getD, hi]

theorem zip_take {α β : Type} : ∀ (l : List α) (m : List β), l.zip (m.take l.length) = l.zip m
  | [], _ => by simp
  | _ :: _, [] => by simp
  | a :: l, b :: m => by simp [zip_take l m]

theorem slice_bound (idxs : List Nat) : ∀ i ∈ idxs, i < idxs.foldr (fun i m => max (i + 1) m) 0 := by
  induction idxs with
  | nil => simp
  | cons a l ih =>
    intro i hi
    rw [List.foldr_cons]
    rcases List.mem_cons.1 hi with rfl | h
    · omega
    · have := ih i h; omega

/-- Every primitive on known values. -/
theorem eval_enc (p : Prim) (size : Nat) (w : List Bool) (hw : p.inputs size ≤ w.length) (hwf : p.WF size) (hs : p.SizeOK size) :
    p.eval boolOps size (encW w) = some (encTW (wordOp p size w)) := by
  unfold Prim.eval
  rw [encW_length, if_neg (by omega)]
  have h2 : 2 * size ≤ w.length → (w.take size).length = ((w.drop size).take size).length ∧ (w.take size).length = size := by
    intro h; simp; omega
  cases p with
  | unknown => simp [wordOp, encTW, drX_enc]
  | const v =>
    have := constLoop_enc v hwf.1 size 0 (Arbi.fromWord 1#64) (Arbi.norm_single _) (by decide) (by simpa using hwf.2)
    rw [Nat.zero_add] at this
    simp only [wordOp, encTW_some]
    exact this
  | wire => simp only [wordOp, encTW_some, encW_take]
  | latLeq =>
    simp only [encW_take, encW_drop, wordOp]
    rw [zipWith_enc (latCell boolOps) (· == ·) latCell_enc]
  | and =>
    simp only [encW_take, encW_drop, wordOp]
    rw [zipWith_enc _ (· && ·) (by intro x y; cases x <;> cases y <;> rfl)]
  | or =>
    simp only [encW_take, encW_drop, wordOp]
    rw [zipWith_enc _ (· || ·) (by intro x y; cases x <;> cases y <;> rfl)]
  | not =>
    simp only [encW_take, wordOp, encW_swap]
    simp only [encW, encTW, List.map_map]
    rfl
  | idelay mr Mr mf Mf =>
    simp only [wordOp, encTW, List.map_map]
    congr 1
    apply List.map_congr_left
    intro i hi
    have hi' : i < size := by simpa using hi
    have hM : 1 ≤ max (max mr Mr) (max mf Mf) := by have := hwf.2.1; omega
    simp only [Prim.inputs] at hw
    have hw2 : 2 * size ≤ w.length := le_trans (Nat.mul_le_mul_right _ (by omega)) hw
    have hq : w.length / size * size ≤ w.length := Nat.div_mul_le_self _ _
    have hq1 : 2 ≤ w.length / size := (Nat.le_div_iff_mul_le hwf.1).2 hw2
    have hsm : samples boolOps size i (encW w) = encW ((List.range (w.length / size - 1)).map fun k => w.getD ((1 + k) * size + i) false) := by
      rw [samples, encW_length]
      conv_rhs => rw [encW, List.map_map]
      apply List.map_congr_left
      intro k hk
      have hk' : k < w.length / size - 1 := by simpa using hk
      have : (1 + k) * size + i < w.length := by
        have h3 : (1 + k + 1) * size ≤ w.length / size * size := Nat.mul_le_mul_right _ (by omega)
        have h4 : (1 + k + 1) * size = (1 + k) * size + size := by ring
        omega
      exact getD_encW' w _ _ this
    rw [getD_encW' w i _ (by omega), hsm, idelayBit_enc _ _ _ _ _ _ hwf.2.1 hwf.2.2.1 hwf.2.2.2.1 hwf.2.2.2.2 (by simp; omega)]
    rfl
  | eq n =>
    simp only [encW_take, encW_drop, wordOp, dr1_enc]
    rw [eqFold_enc _ _ _ (by simp only [Prim.inputs] at hw; simp; omega), Bool.true_and]
    rfl
  | gr n =>
    simp only [encW_take, encW_drop, wordOp, dr0_enc]
    rw [cmpFn_enc false _ _ (by simp only [Prim.inputs] at hw; simp; omega)]
    rfl
  | add =>
    obtain ⟨e1, e2⟩ := h2 hw
    simp only [encW_take, encW_drop, wordOp, dr0_enc, encTW_some]
    rw [add_enc _ _ e1, e2]
  | sub =>
    obtain ⟨e1, e2⟩ := h2 hw
    simp only [encW_take, encW_drop, wordOp, encTW_some]
    have := sub_enc _ _ e1
    rw [e2] at this
    exact congrArg some this
  | mul =>
    obtain ⟨e1, e2⟩ := h2 hw
    simp only [encW_take, encW_drop, wordOp, encTW_some]
    rw [mulFn_enc _ _ (by omega), e2]
  | div =>
    obtain ⟨e1, e2⟩ := h2 hw
    simp only [encW_take, encW_drop, wordOp, encTW_some]
    rw [divMod_enc _ _ e1, e2]
  | mod =>
    obtain ⟨e1, e2⟩ := h2 hw
    simp only [encW_take, encW_drop, wordOp, encTW_some]
    rw [divMod_enc _ _ e1, e2]
  | shl =>
    obtain ⟨e1, e2⟩ := h2 hw
    simp only [encW_take, encW_drop, wordOp, encTW_some]
    rw [shlLoop_enc _ (by rw [e2]; exact hwf), amount_small _ (by rw [← e1, e2]; exact hs), e2]
  | shr =>
    obtain ⟨e1, e2⟩ := h2 hw
    simp only [encW_take, encW_drop, wordOp, encTW_some]
    rw [shrLoop_enc _ (by rw [e2]; exact hwf) _ (by rw [← e1, e2]; exact hs), e2]
  | ashr =>
    obtain ⟨e1, e2⟩ := h2 hw
    simp only [encW_take, encW_drop, wordOp, encTW_some]
    obtain ⟨v, f1, f2, f3⟩ := ashrLoop_enc (w.take size) (by rw [e2]; exact hwf) ((w.drop size).take size) (by rw [← e1, e2]; exact hs)
    rw [f1, eq_intBits_tc v size _ 0 (by rw [f2, e2]) (by rw [f3]; ring)]
  | ite acc =>
    simp only [Prim.inputs] at hw
    cases w with
    | nil => simp at hw
    | cons c w =>
      have e1 : (w.take size).length = ((w.drop size).take size).length := by simp at hw ⊢; omega
      simp only [encW_cons, wordOp, encTW_some, encW_take, encW_drop, List.headD_cons, List.drop_succ_cons, List.drop_zero, Nat.add_comm 1 size]
      congr 1
      have hc : (if acc = true then iteCell boolOps (enc c) else iteCellQuick boolOps (enc c)) =
          fun a b => if acc = true then iteCell boolOps (enc c) a b else iteCellQuick boolOps (enc c) a b := by
        cases acc <;> rfl
      have := iteFn_enc c _ _ e1
      rw [← this, iteFn]
      simp only [encW, List.zipWith_map]
      congr 1
      funext x y
      cases acc
      · simp [iteCellQuick_enc, iteCell_enc]
      · simp
  | sx n =>
    have hn : n ≠ 0 := by have : 0 < n := hwf; omega
    simp only [Prim.inputs] at hw
    simp only [wordOp, encTW_some, encW_take, hn, if_false]
    cases w with
    | nil => simp at hw; omega
    | cons b w =>
      obtain ⟨m, rfl⟩ : ∃ m, n = m + 1 := ⟨n - 1, by omega⟩
      have := sx_enc size ((b :: w).take (m+1)) (by simp)
      simpa [encW] using this
  | zx n =>
    simp only [wordOp, encTW_some, encW_take, dr0_enc, zx_enc]
  | slice idxs =>
    have hl : idxs.length = size := hwf
    simp only [Prim.inputs] at hw
    simp only [wordOp]
    rw [if_neg (by omega), List.take_of_length_le (by omega)]
    simp only [encTW, List.map_map]
    congr 1
    apply List.map_congr_left
    intro i hi
    have := slice_bound idxs i hi
    exact getD_encW' w i _ (by omega)
  | updSlice idxs =>
    have hl : ∀ i ∈ idxs, i < size := hwf
    simp only [Prim.inputs] at hw
    dsimp only
    rw [if_neg (by simpa using hl)]
    simp only [encW_take, encW_drop, updFn_enc, wordOp]
    congr 1
    have hz : idxs.zip ((w.drop size).take idxs.length) = idxs.zip (w.drop size) := zip_take idxs _
    rw [hz, upd_spec]
    have hlen : (w.take size).length = size := by simp; omega
    rw [hlen]
    simp only [encW, encTW, List.map_map]
    apply List.map_congr_left
    intro i hi
    have hi' : i < size := by simpa using hi
    simp only [Function.comp]
    cases (idxs.zip (w.drop size)).reverse.find? (fun q => q.1 == i) with
    | some q => rfl
    | none =>
      simp only [encT]
      congr 1
      simp [List.getD_eq_getElem?_getD, hi']
  | memRead asz n d =>
    simp only [Prim.inputs] at hw
    dsimp only
    rw [if_neg (by simpa using hwf.1)]
    simp only [encW_take, encW_drop, wordOp]
    have hal : (w.take asz).length = asz := by simp; omega
    rw [memRead_enc _ _ _ _ (by rw [hal]; exact hwf.2) (by simp; omega)]
    congr 2
    by_cases hlt : uv (w.take asz) < n
    · rw [if_pos hlt, if_pos hlt]
      congr 1
      simp only [line]
      rw [List.drop_take, List.take_take]
      congr 1
      have : (n - 1 - uv (w.take asz)) * d + d ≤ n * d := by
        have : (n - 1 - uv (w.take asz)) * d + d = (n - 1 - uv (w.take asz) + 1) * d := by ring
        rw [this]; exact Nat.mul_le_mul_right _ (by omega)
      omega
    · rw [if_neg hlt, if_neg hlt]
  | memWrite asz n d =>
    simp only [Prim.inputs] at hw
    dsimp only
    rw [if_neg (by simpa using hwf.1)]
    simp only [encW_take, encW_drop, wordOp]
    have hal : (w.take asz).length = asz := by simp; omega
    rw [memWrite_enc _ _ _ _ _ (by rw [hal]; exact hwf.2) (by simp; omega) (by simp; omega)]
    congr 2
    rw [List.flatMap_def, List.flatMap_def]
    congr 1
    apply List.map_congr_left
    intro k hk
    have hk' : k < n := by simpa using hk
    split
    · rfl
    · congr 1
      simp only [line]
      rw [List.drop_take, List.take_take]
      congr 1
      have : (n - 1 - k) * d + d ≤ n * d := by
        have : (n - 1 - k) * d + d = (n - 1 - k + 1) * d := by ring
        rw [this]; exact Nat.mul_le_mul_right _ (by omega)
      omega

end Voss.Sim
