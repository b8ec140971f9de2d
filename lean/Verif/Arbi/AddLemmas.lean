import Verif.Arbi.Lemmas
/- Helper lemmas: addition, negation, absolute value, subtraction. -/
namespace Voss.Arbi

/-- Value of the rest of `y` when its digits may be used up (last digit seen `wy`). -/
def valE (ys : List W) (wy : W) : Int := if ys = [] then (if wy.msb then -1 else 0) else val ys

theorem carryOut_spec (a b c : W) (hc : c.toNat ≤ 1) :
    a.toNat + b.toNat + c.toNat = (a + b + c).toNat + 2^64 * (carryOut a b (a+b+c)).toNat
    ∧ (carryOut a b (a+b+c)).toNat ≤ 1 := by
  have e : (a + b + c).toNat = (a.toNat + b.toNat + c.toNat) % 2^64 := by
    simp [BitVec.toNat_add]
  generalize hs : a + b + c = s at *
  have one : (1#64).toNat = 1 := by decide
  have zero : (0#64).toNat = 0 := by decide
  unfold carryOut isNeg
  rcases toInt_cases a with ⟨a1, a2, a3⟩ | ⟨a1, a2, a3⟩ <;>
  rcases toInt_cases b with ⟨b1, b2, b3⟩ | ⟨b1, b2, b3⟩ <;>
  rcases toInt_cases s with ⟨s1, s2, s3⟩ | ⟨s1, s2, s3⟩ <;>
  simp only [a1, b1, s1, Bool.and_true, Bool.and_false, Bool.or_true, Bool.or_false, Bool.true_and,
    Bool.false_and, Bool.true_or, Bool.false_or, Bool.not_true, Bool.not_false, if_true, if_false,
    one, zero, Bool.false_eq_true, Bool.or_self] <;> omega

theorem tail_ne_nil_len (ys : List W) (xs : List W) (a : W) (h : ys.length ≤ (a :: xs).length) :
    ys.tail.length ≤ xs.length := by
  cases ys <;> simp at * ; omega

theorem valE_step (ys : List W) (wy : W) :
    valE ys wy = ((nextDigit ys wy).toNat : Int) +
      2^64 * valE ys.tail (nextDigit ys wy) := by
  unfold valE nextDigit
  cases ys with
  | nil =>
    simp only [if_true, List.tail_nil, signExt_msb]
    unfold signExt isNeg
    split <;> simp <;> decide
  | cons b t =>
    simp only [List.tail_cons]
    rw [val_cons']
    by_cases ht : t = [] <;> simp [ht] <;> split <;> rfl

theorem addLoop_spec (xs : List W) : ∀ (ys : List W) (wy c : W), xs ≠ [] → ys.length ≤ xs.length →
    c.toNat ≤ 1 →
    val ((addLoop xs ys wy c).1 ++ (addLoop xs ys wy c).2.toList) = val xs + valE ys wy + c.toNat ∧
    (addLoop xs ys wy c).1.length = xs.length ∧
    (∀ d, (addLoop xs ys wy c).2 = some d → redundant (top (addLoop xs ys wy c).1) d = false) := by
  induction xs with
  | nil => intro _ _ _ h; exact absurd rfl h
  | cons a xs ih =>
    intro ys wy c _ hlen hc
    have hstep := valE_step ys wy
    have hco := carryOut_spec a (nextDigit ys wy) c hc
    cases xs with
    | nil =>
      have ht : ys.tail = [] := by
        have := tail_ne_nil_len ys [] a hlen
        exact List.length_eq_zero_iff.mp (by simpa using this)
      rw [ht] at hstep
      rw [addLoop]
      generalize hb : (nextDigit ys wy) = b at *
      rw [hstep]
      simp only [valE, if_true]
      have e : (a + b + c).toNat = (a.toNat + b.toNat + c.toNat) % 2^64 := by
        simp [BitVec.toNat_add]
      generalize hs : a + b + c = s at *
      unfold isNeg
      rcases toInt_cases a with ⟨a1, a2, a3⟩ | ⟨a1, a2, a3⟩ <;>
      rcases toInt_cases b with ⟨b1, b2, b3⟩ | ⟨b1, b2, b3⟩ <;>
      rcases toInt_cases s with ⟨s1, s2, s3⟩ | ⟨s1, s2, s3⟩ <;>
      simp [a1, b1, s1, val, redundant, top, a2, b2, s2] <;> omega
    | cons a2 xs2 =>
      have hl2 := tail_ne_nil_len ys (a2 :: xs2) a hlen
      rw [addLoop]
      generalize hb : (nextDigit ys wy) = b at *
      obtain ⟨i1, i2, i3⟩ := ih ys.tail b (carryOut a b (a+b+c)) (by simp) hl2 hco.2
      rw [hstep]
      generalize hr : addLoop (a2 :: xs2) ys.tail b (carryOut a b (a + b + c)) = r at *
      have hne : r.1 ≠ [] := by intro h; rw [h] at i2; simp at i2
      refine ⟨?_, ?_, ?_⟩
      · simp only [List.cons_append]
        rw [val_cons (a + b + c) (r.1 ++ r.2.toList) (by simp [hne]), i1, val_cons a (a2 :: xs2) (by simp)]
        have := hco.1
        have h2 : (a.toNat : Int) + b.toNat + c.toNat = (a+b+c).toNat + 2^64 * (carryOut a b (a+b+c)).toNat := by
          exact_mod_cast this
        linarith
      · simp [i2]
      · intro d hd
        simp only at hd ⊢
        rw [top_cons _ _ hne]
        exact i3 d hd

theorem norm_append (z : List W) (d : W) (h : z ≠ []) (hr : redundant (top z) d = false) : Norm (z ++ [d]) := by
  rw [norm_iff_rev]
  refine ⟨by simp, ?_⟩
  intro hi lo rest hh
  obtain ⟨l, e, rfl⟩ : ∃ l d, z = l ++ [d] := ⟨z.dropLast, z.getLast h, (List.dropLast_concat_getLast h).symm⟩
  rw [top_append] at hr
  simp at hh
  obtain ⟨rfl, rfl, _⟩ := hh
  exact hr

theorem addSlow_aux (x y : List W) (hx : x ≠ []) (hy : y ≠ []) (hl : y.length ≤ x.length) :
    let r := (match addLoop x y 0#64 0#64 with
      | (z, some d) => z ++ [d]
      | (z, none) => trim z)
    val r = val x + val y ∧ Norm r := by
  obtain ⟨h1, h2, h3⟩ := addLoop_spec x y 0#64 0#64 hx hl (by decide)
  generalize addLoop x y 0#64 0#64 = r at *
  obtain ⟨z, o⟩ := r
  have hz : z ≠ [] := by intro h; rw [h] at h2; simp at h2; exact hx (List.length_eq_zero_iff.mp h2.symm)
  cases o with
  | some d =>
    simp only [Option.toList_some] at h1
    refine ⟨?_, norm_append _ _ hz (h3 d rfl)⟩
    simp only; rw [h1]; simp [valE, hy]
  | none =>
    simp only [Option.toList_none, List.append_nil] at h1
    refine ⟨?_, trim_norm _ hz⟩
    simp only; rw [trim_val, h1]; simp [valE, hy]

theorem addSlow_spec (x y : List W) (hx : x ≠ []) (hy : y ≠ []) :
    val (addSlow x y) = val x + val y ∧ Norm (addSlow x y) := by
  unfold addSlow
  split
  rename_i x' y' h
  split at h
  · obtain ⟨rfl, rfl⟩ := Prod.mk.inj h
    rw [Int.add_comm]
    exact addSlow_aux _ _ hy hx (by omega)
  · obtain ⟨rfl, rfl⟩ := Prod.mk.inj h
    exact addSlow_aux _ _ hx hy (by omega)

theorem add_spec (x y : List W) (hx : x ≠ []) (hy : y ≠ []) :
    val (add x y) = val x + val y ∧ Norm (add x y) := by
  unfold add
  split
  · rename_i a b
    simp only
    split
    · rename_i h
      refine ⟨?_, norm_single _⟩
      simp only [fromWord, val_single]
      have e : (a + b).toNat = (a.toNat + b.toNat) % 2^64 := by simp [BitVec.toNat_add]
      generalize a + b = s at *
      unfold isNeg at h
      rcases toInt_cases a with ⟨a1, a2, a3⟩ | ⟨a1, a2, a3⟩ <;>
      rcases toInt_cases b with ⟨b1, b2, b3⟩ | ⟨b1, b2, b3⟩ <;>
      rcases toInt_cases s with ⟨s1, s2, s3⟩ | ⟨s1, s2, s3⟩ <;>
      simp [a1, b1, s1] at h <;> omega
    · exact addSlow_spec _ _ hx hy
  · exact addSlow_spec _ _ hx hy

theorem Norm.ne_nil {x : List W} (h : Norm x) : x ≠ [] := h.1

theorem uval_map_not (x : List W) : (uval (x.map (~~~ ·)) : Int) = 2^(64 * x.length) - 1 - uval x := by
  induction x with
  | nil => simp [uval]
  | cons a l ih =>
    simp only [List.map_cons, uval]
    push_cast
    rw [ih, List.length_cons, show 64 * (l.length + 1) = 64 * l.length + 64 by ring, pow_add]
    have : ((~~~ a).toNat : Int) = 2^64 - 1 - a.toNat := by
      have := a.isLt; rw [BitVec.toNat_not]; omega
    rw [this]; ring

theorem negSlow_spec (x : List W) (hx : x ≠ []) : val (negSlow x) = - val x ∧ Norm (negSlow x) := by
  unfold negSlow
  have := add_spec (x.map (~~~ ·) ++ [if isNeg (top x) then 0#64 else -1#64]) (fromWord 1#64) (by simp) (by simp [fromWord])
  refine ⟨?_, this.2⟩
  rw [this.1, val_append, uval_map_not, val_eq_uval x hx]
  have one : val (fromWord 1#64) = 1 := by decide
  rw [one, List.length_map]
  unfold isNeg
  have e0 : (0#64).toInt = 0 := by decide
  have e1 : (-1#64).toInt = -1 := by decide
  split <;> simp [e0, e1] <;> ring

theorem neg_spec (x : List W) (hx : x ≠ []) : val (neg x) = - val x ∧ Norm (neg x) := by
  unfold neg
  split
  · rename_i w
    split
    · rename_i h
      refine ⟨?_, norm_single _⟩
      simp only [fromWord, val_single]
      have e : (-w).toNat = (2^64 - w.toNat) % 2^64 := by simp [BitVec.toNat_neg]
      generalize -w = s at *
      unfold isNeg at h
      rcases toInt_cases w with ⟨a1, a2, a3⟩ | ⟨a1, a2, a3⟩ <;>
      rcases toInt_cases s with ⟨s1, s2, s3⟩ | ⟨s1, s2, s3⟩ <;>
      simp [a1, s1] at h <;> omega
    · exact negSlow_spec _ hx
  · exact negSlow_spec _ hx

theorem abs_spec (x : List W) (hx : Norm x) : val (abs x) = |val x| ∧ Norm (abs x) := by
  unfold abs isNeg
  have := val_neg_iff x hx.ne_nil
  split
  · rename_i h
    have h2 := neg_spec x hx.ne_nil
    exact ⟨by rw [h2.1, abs_of_neg (this.mpr h)], h2.2⟩
  · rename_i h
    refine ⟨?_, hx⟩
    rw [abs_of_nonneg]
    by_contra hc
    exact h (this.mp (by omega))

theorem sub_spec (x y : List W) (hx : x ≠ []) (hy : y ≠ []) :
    val (sub x y) = val x - val y ∧ Norm (sub x y) := by
  have key : val (add x (neg y)) = val x - val y ∧ Norm (add x (neg y)) := by
    have h1 := neg_spec y hy
    have h2 := add_spec x (neg y) hx h1.2.ne_nil
    exact ⟨by rw [h2.1, h1.1]; ring, h2.2⟩
  unfold sub
  split
  · rename_i a b
    simp only
    split
    · rename_i h
      refine ⟨?_, norm_single _⟩
      simp only [fromWord, val_single]
      have e : (a - b).toNat = (2^64 - b.toNat + a.toNat) % 2^64 := by simp [BitVec.toNat_sub]
      generalize a - b = s at *
      unfold isNeg at h
      rcases toInt_cases a with ⟨a1, a2, a3⟩ | ⟨a1, a2, a3⟩ <;>
      rcases toInt_cases b with ⟨b1, b2, b3⟩ | ⟨b1, b2, b3⟩ <;>
      rcases toInt_cases s with ⟨s1, s2, s3⟩ | ⟨s1, s2, s3⟩ <;>
      simp [a1, b1, s1] at h <;> omega
    · exact key
  · exact key

end Voss.Arbi
