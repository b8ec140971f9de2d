import Verif.Arbi.GuessLemmas3
import Verif.Arbi.DivLemmas
/- Helper lemmas: `divmod` terminates without undefined behaviour. -/
namespace Voss.Arbi

theorem val_shift_bound (r : List W) (d : W) (hr : r ≠ []) (Y : Int) (h : |val r| < |Y|) :
    |val (trim (d :: r))| ≤ 2^64 * |Y| := by
  rw [trim_val, val_cons _ _ hr]
  have h1 := d.isLt
  have h2 : (d.toNat : Int) < 2^64 := by exact_mod_cast h1
  have h3 : (0:Int) ≤ d.toNat := by positivity
  rcases abs_cases (val r) with ⟨e1, e2⟩ | ⟨e1, e2⟩ <;> rw [e1] at h <;> rw [abs_le] <;> constructor <;> omega

theorem divLoop_total (x y : List W) (hy : Norm y) (hy2 : 2 ≤ |val y|) (hmin : y ≠ [minWord]) :
    ∀ (j n : Nat) (q r : List W), Norm q → Norm r → |val r| ≤ 2^64 * |val y| → (val r).natAbs ≤ n →
      ∃ N q' r', ∀ fuel, N ≤ fuel → divLoop guess x y fuel j q r = some (.ok (q', r')) := by
  intro j
  induction j with
  | zero =>
    intro n
    induction n with
    | zero =>
      intro q r hq hr hb hn
      have h0 : val r = 0 := by omega
      have hgt : cmpa y r > 0 := by
        rw [cmpa_spec y r hy hr, gt_iff_lt, icmp_pos, h0, abs_zero]; omega
      by_cases hc : ((cmp0 r < 0) ≠ (cmp0 y < 0)) ∧ cmp0 r ≠ 0
      · refine ⟨1, sub q (fromWord 1#64), add r y, fun fuel hf => ?_⟩
        obtain ⟨f, rfl⟩ : ∃ f, fuel = f + 1 := ⟨fuel - 1, by omega⟩
        unfold divLoop; rw [if_pos hgt]; simp only; rw [if_pos hc]
      · refine ⟨1, q, r, fun fuel hf => ?_⟩
        obtain ⟨f, rfl⟩ : ∃ f, fuel = f + 1 := ⟨fuel - 1, by omega⟩
        unfold divLoop; rw [if_pos hgt]; simp only; rw [if_neg hc]
    | succ n ih =>
      intro q r hq hr hb hn
      by_cases hgt : cmpa y r > 0
      · by_cases hc : ((cmp0 r < 0) ≠ (cmp0 y < 0)) ∧ cmp0 r ≠ 0
        · refine ⟨1, sub q (fromWord 1#64), add r y, fun fuel hf => ?_⟩
          obtain ⟨f, rfl⟩ : ∃ f, fuel = f + 1 := ⟨fuel - 1, by omega⟩
          unfold divLoop; rw [if_pos hgt]; simp only; rw [if_pos hc]
        · refine ⟨1, q, r, fun fuel hf => ?_⟩
          obtain ⟨f, rfl⟩ : ∃ f, fuel = f + 1 := ⟨fuel - 1, by omega⟩
          unfold divLoop; rw [if_pos hgt]; simp only; rw [if_neg hc]
      · have hge : |val y| ≤ |val r| := by
          by_contra hcon
          exact hgt (by rw [cmpa_spec y r hy hr, gt_iff_lt, icmp_pos]; omega)
        obtain ⟨z, hz, hlt⟩ := guess_spec r y hr hy hy2 hge hb
        obtain ⟨t, p1, p2, p3⟩ := mul_spec (fromWord z) y (norm_single z) hy (by simp [fromWord]) (fun h => hmin h.2)
        have s1 := add_spec q (fromWord z) hq.ne_nil (by simp [fromWord])
        have s2 := sub_spec r t hr.ne_nil p3.ne_nil
        have hv : val (sub r t) = val r - z.toInt * val y := by
          rw [s2.1, p2]; simp [fromWord]
        rw [← hv] at hlt
        obtain ⟨N, q', r', h⟩ := ih (add q (fromWord z)) (sub r t) s1.2 s2.2 (by omega)
          (by rw [Int.abs_eq_natAbs, Int.abs_eq_natAbs] at hlt; clear hv; omega)
        refine ⟨N + 1, q', r', fun fuel hf => ?_⟩
        obtain ⟨f, rfl⟩ : ∃ f, fuel = f + 1 := ⟨fuel - 1, by omega⟩
        unfold divLoop; rw [if_neg hgt, hz]; simp only; rw [p1]; exact h f (by omega)
  | succ j ihj =>
    intro n
    have shift : ∀ q r, Norm q → Norm r → cmpa y r > 0 → ∃ N q' r', ∀ fuel, N ≤ fuel →
        divLoop guess x y fuel (j+1) q r = some (.ok (q', r')) := by
      intro q r hq hr hgt
      have hlt : |val r| < |val y| := by
        rw [cmpa_spec y r hy hr, gt_iff_lt, icmp_pos] at hgt; exact hgt
      obtain ⟨N, q', r', h⟩ := ihj _ (trim (0#64 :: q)) (trim (x.getD j 0#64 :: r)) (trim_norm _ (by simp))
        (trim_norm _ (by simp)) (val_shift_bound r _ hr.ne_nil _ hlt) le_rfl
      refine ⟨N + 1, q', r', fun fuel hf => ?_⟩
      obtain ⟨f, rfl⟩ : ∃ f, fuel = f + 1 := ⟨fuel - 1, by omega⟩
      unfold divLoop; rw [if_pos hgt]; exact h f (by omega)
    induction n with
    | zero =>
      intro q r hq hr hb hn
      have h0 : val r = 0 := by omega
      exact shift q r hq hr (by rw [cmpa_spec y r hy hr, gt_iff_lt, icmp_pos, h0, abs_zero]; omega)
    | succ n ih =>
      intro q r hq hr hb hn
      by_cases hgt : cmpa y r > 0
      · exact shift q r hq hr hgt
      · have hge : |val y| ≤ |val r| := by
          by_contra hcon
          exact hgt (by rw [cmpa_spec y r hy hr, gt_iff_lt, icmp_pos]; omega)
        obtain ⟨z, hz, hlt⟩ := guess_spec r y hr hy hy2 hge hb
        obtain ⟨t, p1, p2, p3⟩ := mul_spec (fromWord z) y (norm_single z) hy (by simp [fromWord]) (fun h => hmin h.2)
        have s1 := add_spec q (fromWord z) hq.ne_nil (by simp [fromWord])
        have s2 := sub_spec r t hr.ne_nil p3.ne_nil
        have hv : val (sub r t) = val r - z.toInt * val y := by
          rw [s2.1, p2]; simp [fromWord]
        rw [← hv] at hlt
        obtain ⟨N, q', r', h⟩ := ih (add q (fromWord z)) (sub r t) s1.2 s2.2 (by omega)
          (by rw [Int.abs_eq_natAbs, Int.abs_eq_natAbs] at hlt; clear hv; omega)
        refine ⟨N + 1, q', r', fun fuel hf => ?_⟩
        obtain ⟨f, rfl⟩ : ∃ f, fuel = f + 1 := ⟨fuel - 1, by omega⟩
        unfold divLoop; rw [if_neg hgt, hz]; simp only; rw [p1]; exact h f (by omega)

theorem divmod_total (x y : List W) (hx : Norm x) (hy : Norm y) (hy2 : 2 ≤ |val y|) (hmin : y ≠ [minWord]) :
    ∃ N q r, (∀ fuel, N ≤ fuel → divmod fuel x y = some (.ok (q, r))) ∧
      Norm q ∧ Norm r ∧ FloorDiv (val x) (val y) (val q) (val r) := by
  have hy0 : val y ≠ 0 := by intro h; rw [h, abs_zero] at hy2; omega
  suffices h : ∃ N q r, ∀ fuel, N ≤ fuel → divmod fuel x y = some (.ok (q, r)) by
    obtain ⟨N, q, r, h⟩ := h
    exact ⟨N, q, r, h, divmodG_partial guess N x y hx hy hy0 q r (h N le_rfl)⟩
  unfold divmod divmodG
  by_cases hl : x.length < y.length
  · simp only [hl, if_true]
    by_cases hc : (cmp0 x < 0 ↔ cmp0 y < 0) ∨ cmp0 x = 0
    · exact ⟨0, _, _, fun _ _ => if_pos hc⟩
    · exact ⟨0, _, _, fun _ _ => if_neg hc⟩
  · simp only [hl, if_false]
    have ly : 1 ≤ y.length := List.length_pos_iff.mpr hy.ne_nil
    have hd := norm_drop x hx (x.length - y.length) (by omega)
    refine divLoop_total x y hy hy2 hmin _ _ _ _ (norm_single _) hd ?_ le_rfl
    have hb := val_bounds _ hd.ne_nil
    have hlen : (x.drop (x.length - y.length)).length = y.length := by simp; omega
    rw [hlen] at hb
    by_cases h1 : y.length = 1
    · rw [h1] at hb; norm_num at hb
      rw [← h1] at hb
      rw [abs_le]; omega
    · have hlow := norm_abs_lower y hy (by omega)
      have e : (2:Int)^(64 * y.length - 1) = 2^64 * 2^(64 * (y.length - 1) - 1) := by
        rw [← pow_add]; congr 1; omega
      rw [e] at hb
      generalize (2:Int)^(64 * (y.length - 1) - 1) = P at *
      rcases abs_cases (val y) with ⟨e1, e2⟩ | ⟨e1, e2⟩ <;> rw [e1] <;> rw [abs_le] <;> omega

/-- `arbi__div` and `arbi__mod` for a divisor other than 0 and -2^63 return the floor quotient and remainder. -/
theorem div_mod_total (x y : List W) (hx : Norm x) (hy : Norm y) (hy0 : val y ≠ 0) (hmin : y ≠ [minWord]) :
    ∃ N q r, (∀ fuel, N ≤ fuel → div fuel x y = some (.ok q)) ∧ (∀ fuel, N ≤ fuel → mod fuel x y = some (.ok r)) ∧
      Norm q ∧ Norm r ∧ FloorDiv (val x) (val y) (val q) (val r) := by
  by_cases h1 : y = [1#64]
  · subst h1
    refine ⟨0, x, fromWord 0#64, fun _ _ => by simp [div], fun _ _ => by simp [mod], hx, norm_single _, ?_⟩
    simp [FloorDiv, val, fromWord]
  by_cases h2 : y = [-1#64]
  · subst h2
    have hn := neg_spec x hx.ne_nil
    refine ⟨0, neg x, fromWord 0#64, fun _ _ => by simp [div], fun _ _ => by simp [mod], hn.2, norm_single _, ?_⟩
    rw [hn.1]; simp [FloorDiv, val, fromWord]
  have habs : 2 ≤ |val y| := by
    have hn : val y ≠ 1 := fun h => h1 (norm_ext y [1#64] hy (norm_single _) (by rw [h]; decide))
    have hn' : val y ≠ -1 := fun h => h2 (norm_ext y [-1#64] hy (norm_single _) (by rw [h]; decide))
    rcases abs_cases (val y) with ⟨e1, e2⟩ | ⟨e1, e2⟩ <;> rw [e1] <;> omega
  obtain ⟨N, q, r, h, hq, hr, hf⟩ := divmod_total x y hx hy habs hmin
  have slowd : ∀ fuel, N ≤ fuel → ((divmod fuel x y).map fun r => r.bind fun (q, _) => Res.ok q) = some (.ok q) := by
    intro fuel hfu; rw [h fuel hfu]; rfl
  have slowm : ∀ fuel, N ≤ fuel → ((divmod fuel x y).map fun r => r.bind fun (_, m) => Res.ok m) = some (.ok r) := by
    intro fuel hfu; rw [h fuel hfu]; rfl
  by_cases hs : (∃ wx wy, x = [wx] ∧ y = [wy] ∧ wx ≠ minWord)
  · obtain ⟨wx, wy, rfl, rfl, hm⟩ := hs
    have hm2 : wy ≠ minWord := fun h => hmin (by rw [h])
    have h01 : wy ≠ 0#64 := fun h => hy0 (by rw [h]; decide)
    have h11 : wy ≠ 1#64 := fun h => h1 (by rw [h])
    have h21 : wy ≠ -1#64 := fun h => h2 (by rw [h])
    refine ⟨0, fromWord (divFast wx wy), fromWord (modFast wx wy), fun _ _ => ?_, fun _ _ => ?_, norm_single _, norm_single _, ?_⟩
    · simp only [div, h01, h11, h21, if_false]; rw [if_pos ⟨hm, hm2⟩]
    · simp only [mod, h01, h11, h21, if_false, or_self]; rw [if_pos ⟨hm, hm2⟩]
    · simpa [val, fromWord] using fast_spec wx wy hm hm2 h01
  · refine ⟨N, q, r, fun fuel hfu => ?_, fun fuel hfu => ?_, hq, hr, hf⟩
    · unfold div
      rw [slowd fuel hfu]
      simp only
      split
      · rename_i wy
        have h01 : wy ≠ 0#64 := fun h => hy0 (by rw [h]; decide)
        have h11 : wy ≠ 1#64 := fun h => h1 (by rw [h])
        have h21 : wy ≠ -1#64 := fun h => h2 (by rw [h])
        rw [if_neg h01, if_neg h11, if_neg h21]
        split
        · rename_i wx
          rw [if_neg (fun hh => hs ⟨wx, wy, rfl, rfl, hh.1⟩)]
        · rfl
      · rfl
    · unfold mod
      rw [slowm fuel hfu]
      simp only
      split
      · rename_i wy
        have h01 : wy ≠ 0#64 := fun h => hy0 (by rw [h]; decide)
        have h11 : wy ≠ 1#64 := fun h => h1 (by rw [h])
        have h21 : wy ≠ -1#64 := fun h => h2 (by rw [h])
        rw [if_neg h01, if_neg (not_or.mpr ⟨h11, h21⟩)]
        split
        · rename_i wx
          rw [if_neg (fun hh => hs ⟨wx, wy, rfl, rfl, hh.1⟩)]
        · rfl
      · rfl

/-! A larger budget does not change an answer. -/

theorem divLoop_mono (g : List W → List W → Res W) (x y : List W) : ∀ (fuel fuel' j : Nat) (q r : List W) a,
    fuel ≤ fuel' → divLoop g x y fuel j q r = some a → divLoop g x y fuel' j q r = some a := by
  intro fuel
  induction fuel with
  | zero => intro _ _ _ _ _ _ h; simp [divLoop] at h
  | succ fuel ih =>
    intro fuel' j q r a hle h
    obtain ⟨f, rfl⟩ : ∃ f, fuel' = f + 1 := ⟨fuel' - 1, by omega⟩
    unfold divLoop at h ⊢
    split
    · rename_i hc
      rw [if_pos hc] at h
      cases j with
      | zero => exact h
      | succ j => exact ih f j _ _ a (by omega) h
    · rename_i hc
      rw [if_neg hc] at h
      cases hg : g r y with
      | ok z =>
        rw [hg] at h
        simp only at h ⊢
        cases hm : mul (fromWord z) y with
        | ok t => rw [hm] at h; exact ih f j _ _ a (by omega) h
        | null => rw [hm] at h; exact h
        | ub => rw [hm] at h; exact h
      | null => rw [hg] at h; exact h
      | ub => rw [hg] at h; exact h

theorem divmod_mono {fuel fuel' : Nat} {x y : List W} {a} (hle : fuel ≤ fuel') (h : divmod fuel x y = some a) :
    divmod fuel' x y = some a := by
  unfold divmod divmodG at h ⊢
  split
  · rename_i hc; rw [if_pos hc] at h; exact h
  · rename_i hc; rw [if_neg hc] at h; exact divLoop_mono _ _ _ _ _ _ _ _ _ hle h

theorem div_mono {fuel fuel' : Nat} {x y a b : List W} (h : div fuel x y = some (.ok a)) (h' : div fuel' x y = some (.ok b))
    (hle : fuel ≤ fuel') : a = b := by
  have key : ∀ c, ((divmod fuel x y).map fun r => r.bind fun (q, _) => Res.ok q) = some c →
      ((divmod fuel' x y).map fun r => r.bind fun (q, _) => Res.ok q) = some c := by
    intro c hc
    cases hd : divmod fuel x y with
    | none => rw [hd] at hc; simp at hc
    | some v => rw [divmod_mono hle hd]; rw [hd] at hc; exact hc
  have hh : div fuel' x y = some (.ok a) := by
    unfold div at h ⊢
    simp only at h ⊢
    split
    · simp only at h
      split
      · rename_i hc; simp [hc] at h
      · split
        · rename_i hc; simp [hc] at h; simp [h]
        · split
          · rename_i hc; simp [hc] at h; simp [h]
          · rename_i h1 h2 h3
            rw [if_neg h1, if_neg h2, if_neg h3] at h
            split
            · rename_i wx
              simp only at h
              split
              · rename_i hc; rw [if_pos hc] at h; exact h
              · rename_i hc; rw [if_neg hc] at h; exact key _ h
            · rename_i hx
              split at h
              · rename_i wx; exact absurd rfl (hx wx)
              · exact key _ h
    · rename_i hy
      split at h
      · rename_i wy; exact absurd rfl (hy wy)
      · exact key _ h
  rw [hh] at h'
  simpa using h'

theorem mod_mono {fuel fuel' : Nat} {x y a b : List W} (h : mod fuel x y = some (.ok a)) (h' : mod fuel' x y = some (.ok b))
    (hle : fuel ≤ fuel') : a = b := by
  have key : ∀ c, ((divmod fuel x y).map fun r => r.bind fun (_, m) => Res.ok m) = some c →
      ((divmod fuel' x y).map fun r => r.bind fun (_, m) => Res.ok m) = some c := by
    intro c hc
    cases hd : divmod fuel x y with
    | none => rw [hd] at hc; simp at hc
    | some v => rw [divmod_mono hle hd]; rw [hd] at hc; exact hc
  have hh : mod fuel' x y = some (.ok a) := by
    unfold mod at h ⊢
    simp only at h ⊢
    split
    · simp only at h
      split
      · rename_i hc; simp [hc] at h; simp [h]
      · split
        · rename_i hc; rw [if_neg (by assumption), if_pos hc] at h; exact h
        · rename_i h1 h2
          rw [if_neg h1, if_neg h2] at h
          split
          · rename_i wx
            simp only at h
            split
            · rename_i hc; rw [if_pos hc] at h; exact h
            · rename_i hc; rw [if_neg hc] at h; exact key _ h
          · rename_i hx
            split at h
            · rename_i wx; exact absurd rfl (hx wx)
            · exact key _ h
    · rename_i hy
      split at h
      · rename_i wy; exact absurd rfl (hy wy)
      · exact key _ h
  rw [hh] at h'
  simpa using h'

end Voss.Arbi
