import Verif.Comp.Leaf
/-
Properly sized expressions are accepted.
-/
namespace Voss.Comp
open Voss.Ste (Comp Net)

theorem arg_len {look : String → List Nat} {go} {e : WExpr} {sz next : Nat} {r} (hs : Sized (wdOf look) e sz)
    (h : arg look go e sz next = .ok r) : r.1.length = sz := by
  have temp : ((go (next + sz) (List.range' next sz)).bind fun r => Out.ok (List.range' next sz, r.1, r.2)) = .ok r → r.1.length = sz := by
    intro h
    obtain ⟨a, h1, h2⟩ := bind_ok h
    cases h2
    exact List.length_range'
  cases e with
  | var s b =>
    simp only [Sized] at hs
    simp only [arg, Out.ok.injEq] at h
    subst h
    rw [hs.1]; exact hs.2
  | evar s b =>
    simp only [Sized] at hs
    simp only [arg, Out.ok.injEq] at h
    subst h
    rw [hs.1]; exact hs.2
  | _ => exact temp h

/-- The operand is accepted, whatever the next free node is. -/
def Acc (a : Arg) : Prop := ∀ next, ∃ r, a next = .ok r

theorem arg_acc {look : String → List Nat} {go : Nat → List Nat → Out (Nat × Net)} {e : WExpr} {sz : Nat}
    (hgo : ∀ next outs, outs.length = sz → ∃ r, go next outs = .ok r) : Acc (arg look go e sz) := by
  intro next
  cases e with
  | var s b => exact ⟨_, rfl⟩
  | evar s b => exact ⟨_, rfl⟩
  | _ =>
    obtain ⟨r, hr⟩ := hgo (next + sz) (List.range' next sz) List.length_range'
    exact ⟨_, by simp only [arg, hr, Out.bind]; rfl⟩

theorem nonNull_acc {look : String → List Nat} {go : Nat → List Nat → Out (Nat × Net)} {e : WExpr} {sz : Nat} (h0 : 0 < sz)
    (hs : Sized (wdOf look) e sz) (ha : Acc (arg look go e sz)) : Acc (nonNull (arg look go e sz)) := by
  intro next
  obtain ⟨r, hr⟩ := ha next
  refine ⟨r, ?_⟩
  have := arg_len hs hr
  simp only [nonNull, hr, Out.bind]
  rw [if_neg]
  intro h
  rw [h] at this
  simp at this
  omega

theorem seq_acc : ∀ (as : List Arg), (∀ a ∈ as, Acc a) → Acc (seq as)
  | [], _, next => ⟨_, rfl⟩
  | a :: as, h, next => by
    obtain ⟨r, hr⟩ := h a (by simp) next
    obtain ⟨s, hs⟩ := seq_acc as (fun b hb => h b (by simp [hb])) r.2.1
    exact ⟨_, by simp only [seq, hr, hs, Out.bind]; rfl⟩

theorem push_acc {p : Sim.Prim} {size : Nat} {outs : List Nat} {pdel : Bool} {args : List Arg} {next : Nat} (h : ∀ a ∈ args, Acc a) :
    ∃ r, push p size outs pdel args next = .ok r := by
  obtain ⟨s, hs⟩ := seq_acc args h next
  exact ⟨_, by simp only [push, hs, Out.bind]; rfl⟩

theorem fromMsb_nonneg {n : Nat} {idxs : List Int} (h : ∀ i ∈ idxs, 0 ≤ i ∧ i < (n : Int)) : ¬(fromMsb n idxs).any (· < 0) = true := by
  simp only [fromMsb, List.any_map, List.any_eq_true, Function.comp_apply, decide_eq_true_eq, not_exists, not_and]
  intro i hi
  have := h i hi
  omega

theorem readWidths_mem : ∀ {es : List WExpr}, ¬ReadWidths es → ∀ e ∈ es, ¬ReadWidth e
  | [], _, e, he => by simp at he
  | a :: es, h, e, he => by
    simp only [ReadWidths, not_or] at h
    rcases List.mem_cons.mp he with rfl | he
    · exact h.1
    · exact readWidths_mem h.2 e he

mutual
theorem compile_acc (look : String → List Nat) (acc : Bool) : ∀ (e : WExpr) (n next : Nat) (outs : List Nat) (pdel : Bool),
    Sized (wdOf look) e n → Fine e → outs.length = n → ∃ r, compile look acc next outs pdel e = .ok r
  | .var sz b, _, _, _, _, _, _, _ => ⟨_, by rw [compile]⟩
  | .evar sz b, _, _, _, _, _, _, _ => ⟨_, by rw [compile]⟩
  | .x sz, _, _, _, _, _, _, _ => ⟨_, by rw [compile]⟩
  | .const sz v, _, _, _, _, _, _, _ => ⟨_, by rw [compile]⟩
  | .bin op l r, n, next, outs, pdel, hs, hf, hl => by
    simp only [Sized] at hs; simp only [Fine] at hf
    rw [compile, hl]
    exact push_acc (by
      simp only [List.mem_cons, List.not_mem_nil, or_false, forall_eq_or_imp, forall_eq]
      exact ⟨arg_acc fun nx os h => compile_acc look acc l n nx os false hs.1 hf.1 h,
        arg_acc fun nx os h => compile_acc look acc r n nx os false hs.2 hf.2 h⟩)
  | .rel op l r, n, next, outs, pdel, hs, hf, hl => by
    simp only [Sized] at hs; simp only [Fine] at hf
    obtain ⟨rfl, m, hs1, hs2⟩ := hs
    rw [compile, wsize_eq _ _ _ hs1 hf.1]
    exact push_acc (by
      simp only [List.mem_cons, List.not_mem_nil, or_false, forall_eq_or_imp, forall_eq]
      exact ⟨arg_acc fun nx os h => compile_acc look acc l m nx os false hs1 hf.2.1 h,
        arg_acc fun nx os h => compile_acc look acc r m nx os false hs2 hf.2.2 h⟩)
  | .not l, n, next, outs, pdel, hs, hf, hl => by
    simp only [Sized] at hs; simp only [Fine] at hf
    rw [compile, hl]
    exact push_acc (by
      simp only [List.mem_cons, List.not_mem_nil, or_false, forall_eq]
      exact arg_acc fun nx os h => compile_acc look acc l n nx os false hs hf h)
  | .pred _ l, n, next, outs, pdel, hs, hf, hl => by
    simp only [Sized] at hs; simp only [Fine] at hf
    rw [compile]
    exact compile_acc look acc l 1 next outs false hs.2 hf (by omega)
  | .sx sz l, n, next, outs, pdel, hs, hf, hl => by
    simp only [Sized] at hs; simp only [Fine] at hf
    obtain ⟨rfl, m, _, hs1⟩ := hs
    rw [compile, wsize_eq _ _ _ hs1 hf.1]
    exact push_acc (by
      simp only [List.mem_cons, List.not_mem_nil, or_false, forall_eq]
      exact arg_acc fun nx os h => compile_acc look acc l m nx os false hs1 hf.2 h)
  | .zx sz l, n, next, outs, pdel, hs, hf, hl => by
    simp only [Sized] at hs; simp only [Fine] at hf
    obtain ⟨rfl, m, hs1⟩ := hs
    rw [compile, wsize_eq _ _ _ hs1 hf.1]
    exact push_acc (by
      simp only [List.mem_cons, List.not_mem_nil, or_false, forall_eq]
      exact arg_acc fun nx os h => compile_acc look acc l m nx os false hs1 hf.2 h)
  | .ite c t e, n, next, outs, pdel, hs, hf, hl => by
    simp only [Sized] at hs; simp only [Fine] at hf
    rw [compile, hl]
    exact push_acc (by
      simp only [List.mem_cons, List.not_mem_nil, or_false, forall_eq_or_imp, forall_eq]
      exact ⟨nonNull_acc (by omega) hs.1 (arg_acc fun nx os h => compile_acc look acc c 1 nx os false hs.1 hf.1 h),
        arg_acc fun nx os h => compile_acc look acc t n nx os false hs.2.1 hf.2.1 h,
        arg_acc fun nx os h => compile_acc look acc e n nx os false hs.2.2 hf.2.2 h⟩)
  | .slice idxs l, n, next, outs, pdel, hs, hf, hl => by
    simp only [Sized] at hs; simp only [Fine] at hf
    obtain ⟨rfl, m, hs1, hi⟩ := hs
    rw [compile, wsize_eq _ _ _ hs1 hf.1, if_neg (by omega)]
    have ha : Acc (arg look (fun n o => compile look acc n o false l) l m) :=
      arg_acc fun nx os h => compile_acc look acc l m nx os false hs1 hf.2 h
    obtain ⟨r, hr⟩ := ha next
    have := arg_len hs1 hr
    simp only [seq, hr, Out.bind, List.append_nil]
    rw [if_neg (by omega), if_neg (fromMsb_nonneg hi)]
    exact ⟨_, rfl⟩
  | .upd l idxs r, n, next, outs, pdel, hs, hf, hl => by
    simp only [Sized] at hs; simp only [Fine] at hf
    rw [compile, wsize_eq _ _ _ hs.1 hf.1, wsize_eq _ _ _ hs.2.1 hf.2.1, hl, if_neg (by omega), if_neg (by omega),
      if_neg (fromMsb_nonneg hs.2.2)]
    exact push_acc (by
      simp only [List.mem_cons, List.not_mem_nil, or_false, forall_eq_or_imp, forall_eq]
      exact ⟨arg_acc fun nx os h => compile_acc look acc l n nx os false hs.1 hf.2.2.1 h,
        arg_acc fun nx os h => compile_acc look acc r _ nx os false hs.2.1 hf.2.2.2 h⟩)
  | .idelay sz mr Mr mf Mf cur hist, n, next, outs, pdel, hs, hf, hl => by
    simp only [Sized] at hs; simp only [Fine] at hf
    obtain ⟨rfl, h0, hm, hs1, hs2⟩ := hs
    have hany : ¬hist.any (fun e => decide (wsize e ≠ n)) = true := by
      simp only [List.any_eq_true, decide_eq_true_eq, not_exists, not_and, not_not]
      intro e he
      exact wsize_eq _ _ _ (sizedEach_mem hs2 e he) (readWidths_mem hf.2.1 e he)
    rw [compile, wsize_eq _ _ _ hs1 hf.1, if_neg (by omega), if_neg hany]
    exact push_acc (by
      simp only [List.mem_cons, forall_eq_or_imp]
      exact ⟨nonNull_acc h0 hs1 (arg_acc fun nx os h => compile_acc look acc cur n nx os false hs1 hf.2.2.1 h),
        compileAll_acc look acc (fun _ => n) hist (sizedEach_mem hs2) hf.2.2.2⟩)
  | .cat ps, n, next, outs, pdel, hs, hf, hl => by
    simp only [Sized] at hs; simp only [Fine] at hf
    rw [compile]
    exact push_acc (compileAll_acc look acc wsize ps (sizedAll_mem hs hf.1) hf.2)
  | .memRead asz lines dsz mem addr, n, next, outs, pdel, hs, hf, hl => by
    simp only [Sized] at hs; simp only [Fine] at hf
    obtain ⟨rfl, h0, hs1, hs2⟩ := hs
    rw [compile]
    exact push_acc (by
      simp only [List.mem_cons, List.not_mem_nil, or_false, forall_eq_or_imp, forall_eq]
      exact ⟨nonNull_acc h0 hs2 (arg_acc fun nx os h => compile_acc look acc addr asz nx os false hs2 hf.2 h),
        arg_acc fun nx os h => compile_acc look acc mem _ nx os false hs1 hf.1 h⟩)
  | .memWrite asz lines dsz mem addr data, n, next, outs, pdel, hs, hf, hl => by
    simp only [Sized] at hs; simp only [Fine] at hf
    obtain ⟨rfl, h0, hs1, hs2, hs3⟩ := hs
    rw [compile]
    exact push_acc (by
      simp only [List.mem_cons, List.not_mem_nil, or_false, forall_eq_or_imp, forall_eq]
      exact ⟨nonNull_acc h0 hs2 (arg_acc fun nx os h => compile_acc look acc addr asz nx os false hs2 hf.2.1 h),
        arg_acc fun nx os h => compile_acc look acc data dsz nx os false hs3 hf.2.2 h,
        arg_acc fun nx os h => compile_acc look acc mem _ nx os false hs1 hf.1 h⟩)
theorem compileAll_acc (look : String → List Nat) (acc : Bool) (sz : WExpr → Nat) : ∀ (es : List WExpr),
    (∀ e ∈ es, Sized (wdOf look) e (sz e)) → FineAll es → ∀ a ∈ compileAll look acc sz es, Acc a
  | [], _, _, a, ha => by rw [compileAll] at ha; simp at ha
  | e :: es, hs, hf, a, ha => by
    rw [compileAll] at ha
    simp only [FineAll] at hf
    rcases List.mem_cons.mp ha with rfl | ha
    · exact arg_acc fun nx os h => compile_acc look acc e (sz e) nx os false (hs e (by simp)) hf.1 h
    · exact compileAll_acc look acc sz es (fun e he => hs e (by simp [he])) hf.2 a ha
end

mutual
theorem lhs_acc (look : String → List Nat) : ∀ (e : WExpr) (n : Nat), Assignable e → Sized (wdOf look) e n → ∃ v, lhs look e = .ok v
  | .var sz b, _, _, _ => ⟨_, by rw [lhs]⟩
  | .evar sz b, _, _, _ => ⟨_, by rw [lhs]⟩
  | .slice idxs e, n, ha, hs => by
    simp only [Sized] at hs; simp only [Assignable] at ha
    obtain ⟨rfl, m, hs1, hi⟩ := hs
    obtain ⟨v, hv⟩ := lhs_acc look e m ha hs1
    have hl := (lhs_spec look e m v hs1 hv).1
    rw [lhs, hv]
    simp only [Out.bind]
    rw [if_neg]
    · exact ⟨_, rfl⟩
    · simp only [List.any_eq_true, decide_eq_true_eq, not_exists, not_and]
      intro i h
      have := hi i h
      omega
  | .cat ps, n, ha, hs => by
    simp only [Sized] at hs; simp only [Assignable] at ha
    rw [lhs]
    exact lhsAll_acc look ps n ha hs
  | .x _, _, h, _ | .const _ _, _, h, _ | .bin _ _ _, _, h, _ | .rel _ _ _, _, h, _ | .not _, _, h, _
  | .pred _ _, _, h, _ | .sx _ _, _, h, _ | .zx _ _, _, h, _ | .ite _ _ _, _, h, _ | .upd _ _ _, _, h, _
  | .memRead _ _ _ _ _, _, h, _ | .memWrite _ _ _ _ _ _, _, h, _ | .idelay _ _ _ _ _ _ _, _, h, _ => by simp [Assignable] at h
theorem lhsAll_acc (look : String → List Nat) : ∀ (es : List WExpr) (n : Nat), AssignableAll es → SizedAll (wdOf look) es n → ∃ v, lhsAll look es = .ok v
  | [], _, _, _ => ⟨_, by rw [lhsAll]⟩
  | e :: es, n, ha, hs => by
    simp only [SizedAll] at hs; simp only [AssignableAll] at ha
    obtain ⟨a, b, rfl, hs1, hs2⟩ := hs
    obtain ⟨v, hv⟩ := lhs_acc look e a ha.1 hs1
    obtain ⟨w, hw⟩ := lhsAll_acc look es b ha.2 hs2
    exact ⟨_, by rw [lhsAll, hv, hw]; simp only [Out.bind]; rfl⟩
end

theorem leaf_acc (look : String → List Nat) (acc : Bool) : ∀ (us : List Update) (next : Nat), (∀ u ∈ us, u.OK look ∧ Assignable u.lhs) →
    ∃ r, leaf look acc next us = .ok r
  | [], next, _ => ⟨_, rfl⟩
  | u :: us, next, h => by
    obtain ⟨⟨⟨n, s1, s2⟩, hf, hp⟩, ha⟩ := h u (by simp)
    obtain ⟨v, hv⟩ := lhs_acc look u.lhs n ha s1
    obtain ⟨r, hr⟩ := compile_acc look acc u.rhs n next v u.delay s2 hf (lhs_spec look u.lhs n v s1 hv).1
    obtain ⟨s, hs⟩ := leaf_acc look acc us r.1 (fun w hw => h w (by simp [hw]))
    exact ⟨_, by rw [leaf, hv]; simp only [Out.bind, hr, hs]; rfl⟩

end Voss.Comp
