import Verif.Bv.OpLemmas
/-
Helper lemmas for bit-vectors: bitwise operations, arithmetic shift, zero extension, identity.
-/
namespace Voss.Bv
variable {F Env : Type} [Fml F Env]
open Fml
open Voss.Arbi (ibit)

theorem tc_append (l m : List Bool) (h : l ≠ []) : tc (l ++ m) = tc l * 2^m.length + uv m := by
  obtain ⟨a, l, rfl⟩ := List.exists_cons_of_ne_nil h
  simp only [List.cons_append, tc, uv_append, List.length_append, pow_add]
  push_cast
  split <;> ring

theorem ediv_of_rem (a q r m : Int) (h : a = q * m + r) (h0 : 0 ≤ r) (h1 : r < m) : a / m = q := by
  have hm : 0 < m := by omega
  rw [h, Int.add_comm, Int.add_mul_ediv_right _ _ (by omega), Int.ediv_eq_zero_of_lt h0 h1]
  omega

theorem sv_take (l : List F) (cnt : Nat) (h : cnt < l.length) (ρ : Env) :
    sv (l.take (l.length - cnt)) ρ = sv l ρ / 2^cnt := by
  have hne : l.take (l.length - cnt) ≠ [] := by
    rw [← List.length_pos_iff, List.length_take]; omega
  have e := tc_append (bits (l.take (l.length - cnt)) ρ) (bits (l.drop (l.length - cnt)) ρ) (bits_ne_nil hne ρ)
  rw [← bits_append, List.take_append_drop] at e
  have hd : (bits (l.drop (l.length - cnt)) ρ).length = cnt := by simp; omega
  have hu := uv_lt (bits (l.drop (l.length - cnt)) ρ)
  rw [hd] at e hu
  have hu' : (uv (bits (l.drop (l.length - cnt)) ρ) : Int) < 2^cnt := by exact_mod_cast hu
  symm
  exact ediv_of_rem _ _ _ _ e (by positivity) hu'

theorem sv_msb (l : List F) (cnt : Nat) (h : l.length ≤ cnt) (hne : l ≠ []) (ρ : Env) :
    sv [l.headD zero] ρ = sv l ρ / 2^cnt := by
  obtain ⟨a, l, rfl⟩ := List.exists_cons_of_ne_nil hne
  have hb := tc_bounds (den a ρ) (bits l ρ)
  have hs := head_neg (a :: l) (by simp) ρ
  rw [← bits_cons, bits_length] at hb
  change _ ≤ sv (a :: l) ρ ∧ sv (a :: l) ρ < _ at hb
  have hp : (2:Int)^l.length ≤ 2^cnt := by
    apply pow_le_pow_right₀ (by norm_num)
    simp at h; omega
  have hp0 : (0:Int) < 2^l.length := by positivity
  simp only [List.headD_cons] at hs ⊢
  symm
  cases hd : den a ρ
  · rw [hd] at hs
    simp only [Bool.false_eq_true, false_iff] at hs
    have : sv [a] ρ = 0 := by simp [sv, tc, uv, hd]
    rw [this]
    exact Int.ediv_eq_zero_of_lt (by omega) (by omega)
  · rw [hd] at hs
    simp only [true_iff] at hs
    have : sv [a] ρ = -1 := by simp [sv, tc, uv, hd]
    rw [this]
    exact ediv_of_rem _ (-1) (sv (a :: l) ρ + 2^cnt) _ (by ring) (by omega) (by omega)

theorem tc_map_not (l : List Bool) (h : l ≠ []) : tc (l.map (!·)) = - tc l - 1 := by
  obtain ⟨a, l, rfl⟩ := List.exists_cons_of_ne_nil h
  have hu : uv (l.map (!·)) + uv l + 1 = 2^l.length := by
    clear h
    induction l with
    | nil => simp [uv]
    | cons b l ih =>
      simp only [List.map_cons, uv, List.length_map, List.length_cons, pow_succ]
      cases b <;> simp <;> omega
  have hu' : (uv (l.map (!·)) : Int) + uv l + 1 = 2^l.length := by exact_mod_cast hu
  simp only [List.map_cons, tc, List.length_map]
  cases a <;> simp <;> omega

theorem sv_map_not (l : List F) (h : l ≠ []) (ρ : Env) : sv (l.map Fml.not) ρ = - sv l ρ - 1 := by
  unfold sv
  rw [← tc_map_not _ (bits_ne_nil h ρ)]
  congr 1
  simp [bits, den_not]

theorem ibit_zipWith (bop : Bool → Bool → Bool) (l1 l2 : List Bool) (h : l1.length = l2.length) (hne : l1 ≠ []) (i : Nat) :
    ibit (tc (List.zipWith bop l1 l2)) i = bop (ibit (tc l1) i) (ibit (tc l2) i) := by
  obtain ⟨a, l1, rfl⟩ := List.exists_cons_of_ne_nil hne
  obtain ⟨b, l2, rfl⟩ := List.exists_cons_of_ne_nil (l := l2) (by intro hh; simp [hh] at h)
  rw [ibit_tc _ (by simp), ibit_tc _ (by simp), ibit_tc _ (by simp)]
  have hr : (List.zipWith bop (a :: l1) (b :: l2)).reverse = List.zipWith bop (a :: l1).reverse (b :: l2).reverse := by
    rw [List.reverse_zipWith h]
  rw [hr]
  simp only [List.zipWith_cons_cons, List.headD_cons, List.getD_eq_getElem?_getD, List.getElem?_zipWith]
  by_cases hi : i < (a :: l1).length
  · have hi2 : i < (b :: l2).length := by omega
    rw [List.getElem?_eq_getElem (by simpa using hi), List.getElem?_eq_getElem (by simpa using hi2)]
    simp
  · have hi2 : ¬ i < (b :: l2).length := by omega
    rw [List.getElem?_eq_none (by simp at hi ⊢; omega), List.getElem?_eq_none (by simp at hi2 ⊢; omega)]
    simp

theorem bitwise_spec (op : F → F → F) (bop : Bool → Bool → Bool)
    (hop : ∀ a b (ρ : Env), den (op a b) ρ = bop (den a ρ) (den b ρ)) (l1 l2 : List F) (h1 : l1 ≠ []) (h2 : l2 ≠ []) :
    ∃ r, bvBitwise op l1 l2 = some r ∧ Trimmed r ∧
      ∀ (ρ : Env) (i : Nat), ibit (sv r ρ) i = bop (ibit (sv l1 ρ) i) (ibit (sv l2 ρ) i) := by
  have e1 : l1.isEmpty = false := by cases l1 <;> simp at h1 ⊢
  have e2 : l2.isEmpty = false := by cases l2 <;> simp at h2 ⊢
  refine ⟨_, by simp [bvBitwise, e1, e2]; rfl, trimmed_trim _, ?_⟩
  intro ρ i
  rw [sv_trim]
  have hl := sx2_length l1 l2
  have v1 : sv (sx2 l1 l2).1 ρ = sv l1 ρ := sv_sxTo _ _ h1 ρ
  have v2 : sv (sx2 l1 l2).2 ρ = sv l2 ρ := sv_sxTo _ _ h2 ρ
  rw [← v1, ← v2]
  unfold sv
  rw [bits_zipWith op bop ρ (fun a b => hop a b ρ)]
  exact ibit_zipWith bop _ _ (by rw [bits_length, bits_length]; exact hl) (bits_ne_nil (sxTo_ne_nil h1) ρ) i

theorem identical_core {F Env : Type} [Canon F Env] (s t : List F) (hs : s ≠ []) (h : s.length ≤ t.length) :
    ((t.take (t.length - s.length)).all (fun b2 => eqb (s.headD zero) b2) &&
      (s.zip (t.drop (t.length - s.length))).all (fun p => eqb p.1 p.2)) = true ↔ ∀ ρ : Env, sv s ρ = sv t ρ := by
  set k := t.length - s.length with hk
  have ezip : ∀ (s u : List F), s.length = u.length →
      ((s.zip u).all (fun p => eqb p.1 p.2) = true ↔ ∀ ρ : Env, bits s ρ = bits u ρ) := by
    intro s
    induction s with
    | nil => intro u hu; cases u <;> simp at hu ⊢
    | cons a s ih =>
      intro u hu
      cases u with
      | nil => simp at hu
      | cons b u =>
        simp only [List.zip_cons_cons, List.all_cons, Bool.and_eq_true, ih u (by simpa using hu), eqb_iff, bits_cons,
          List.cons.injEq]
        exact ⟨fun h ρ => ⟨h.1 ρ, h.2 ρ⟩, fun h => ⟨fun ρ => (h ρ).1, fun ρ => (h ρ).2⟩⟩
  have eall : ∀ (b : F) (u : List F), (u.all (fun b2 => eqb b b2) = true ↔ ∀ ρ : Env, bits u ρ = List.replicate u.length (den b ρ)) := by
    intro b u
    induction u with
    | nil => simp
    | cons a u ih =>
      simp only [List.all_cons, Bool.and_eq_true, ih, eqb_iff, bits_cons, List.length_cons, List.replicate_succ, List.cons.injEq]
      exact ⟨fun h ρ => ⟨(h.1 ρ).symm, h.2 ρ⟩, fun h => ⟨fun ρ => ((h ρ).1).symm, fun ρ => (h ρ).2⟩⟩
  rw [Bool.and_eq_true, ezip _ _ (by simp; omega), eall]
  have hkl : (t.take k).length = k := by simp [k]
  rw [hkl]
  have hx : ∀ ρ : Env, bits (sxTo t.length s) ρ = List.replicate k (den (s.headD zero) ρ) ++ bits s ρ := by
    intro ρ; simp [sxTo, k]
  have ht : ∀ ρ : Env, bits t ρ = bits (t.take k) ρ ++ bits (t.drop k) ρ := by
    intro ρ; rw [← bits_append, List.take_append_drop]
  constructor
  · rintro ⟨h1, h2⟩ ρ
    rw [← sv_sxTo t.length s hs ρ]
    unfold sv
    rw [hx, ht, h1, h2]
  · intro he
    have : ∀ ρ : Env, List.replicate k (den (s.headD zero) ρ) ++ bits s ρ = bits (t.take k) ρ ++ bits (t.drop k) ρ := by
      intro ρ
      have := he ρ
      rw [← sv_sxTo t.length s hs ρ] at this
      have := tc_inj_len _ _ (by simp [sxTo_length]; omega) this
      rwa [hx, ht] at this
    exact ⟨fun ρ => ((List.append_inj (this ρ) (by simp [hkl])).1).symm, fun ρ => (List.append_inj (this ρ) (by simp [hkl])).2⟩

end Voss.Bv
