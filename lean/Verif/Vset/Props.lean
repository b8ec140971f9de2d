import Verif.Vset.Lemmas
/-
C109: the set functions on lists of vector names (vector_names.fl).
-/
namespace Voss.Vset
variable {N S : Type} [DecidableEq N] [DecidableEq S] {o : Names N S} {P : N → Prop}

/-- C109: `vec_intersect` gives names with exactly the bits that both lists have, if the functions on names do what they
should. -/
theorem c109_intersect_of (h : Sound o P) {vl1 vl2 out : List N} (h1 : ∀ n ∈ vl1, P n) (h2 : ∀ n ∈ vl2, P n)
    (e : vecIntersect o vl1 vl2 = some out) :
    (∀ n ∈ out, P n) ∧ ∀ b, Bit o out b ↔ Bit o vl1 b ∧ Bit o vl2 b := by
  simp only [vecIntersect, Option.bind_eq_bind, Option.bind_eq_some_iff] at e
  obtain ⟨p1, e1, p2, e2, rem, e3, e4⟩ := e
  have hs1 : ∀ n ∈ sub vl1 (inter vl1 vl2), P n := fun n hn => h1 n (mem_sub.1 hn).1
  have hs2 : ∀ n ∈ sub vl2 (inter vl1 vl2), P n := fun n hn => h2 n (mem_sub.1 hn).1
  obtain ⟨a1, a2, a3⟩ := parts_ok h hs1 e1
  obtain ⟨b1, b2, b3⟩ := parts_ok h hs2 e2
  have hc : ∀ s l, common o p1 p2 s = some l → (∀ n ∈ l, P n) ∧ ∀ b, Bit o l b ↔
      (∃ v ∈ sub vl1 (inter vl1 vl2), o.sig v = s ∧ Bit o [v] b) ∧
      ∃ v ∈ sub vl2 (inter vl1 vl2), o.sig v = s ∧ Bit o [v] b := by
    intro s l hl
    simp only [common, Option.bind_eq_bind, Option.bind_eq_some_iff] at hl
    obtain ⟨v1, g1, v2, g2, n1, g3, n2, g4, g5⟩ := hl
    obtain ⟨-, q1, q2⟩ := a2 s v1 g1
    obtain ⟨-, r1, r2⟩ := b2 s v2 g2
    obtain ⟨n1', x1, x2, x3⟩ := expandAll_ok h v1 q1
    obtain ⟨n2', y1, y2, y3⟩ := expandAll_ok h v2 r1
    obtain rfl := Option.some.inj (g3.symm.trans x1)
    obtain rfl := Option.some.inj (g4.symm.trans y1)
    obtain ⟨z1, z2⟩ := h.extract _ _ (fun n hn => (x3 n (mem_inter.1 hn).1).1) g5
    refine ⟨z1, fun b => ?_⟩
    rw [z2, bit_of_bits (fun b hb => (x3 b (mem_inter.1 hb).1).2), mem_inter, x2, y2, q2, r2]
  have hrem : ∀ n ∈ rem, P n := by
    intro n hn
    obtain ⟨s, -, l, hl, hnl⟩ := (flatM_ok _ _ _ e3 n).1.1 hn
    exact (hc s l hl).1 n hnl
  obtain ⟨z1, z2⟩ := h.extract _ _ (by
    intro n hn
    rcases List.mem_append.1 hn with hn | hn
    · exact h1 n (mem_inter.1 hn).1
    · exact hrem n hn) e4
  refine ⟨z1, fun b => ?_⟩
  rw [z2, bit_append]
  constructor
  · rintro (⟨n, hn, r⟩ | ⟨n, hn, r⟩)
    · rw [mem_inter] at hn
      exact ⟨⟨n, hn.1, r⟩, ⟨n, hn.2, r⟩⟩
    · obtain ⟨s, -, l, hl, hnl⟩ := (flatM_ok _ _ _ e3 n).1.1 hn
      obtain ⟨⟨v, hv, -, q⟩, ⟨w, hw, -, q'⟩⟩ := ((hc s l hl).2 b).1 ⟨n, hnl, r⟩
      exact ⟨bit_single.2 ⟨v, (mem_sub.1 hv).1, q⟩, bit_single.2 ⟨w, (mem_sub.1 hw).1, q'⟩⟩
  · rintro ⟨q, q'⟩
    obtain ⟨v, hv, q⟩ := bit_single.1 q
    obtain ⟨w, hw, q'⟩ := bit_single.1 q'
    by_cases hvd : v ∈ inter vl1 vl2
    · exact Or.inl (bit_single.2 ⟨v, hvd, q⟩)
    by_cases hwd : w ∈ inter vl1 vl2
    · exact Or.inl (bit_single.2 ⟨w, hwd, q'⟩)
    right
    have hv' := mem_sub.2 ⟨hv, hvd⟩
    have hw' := mem_sub.2 ⟨hw, hwd⟩
    have hsig := h.sig v w b (h1 v hv) (h2 w hw) q q'
    have hb : o.sig v ∈ inter (p1.map Prod.fst) (p2.map Prod.fst) :=
      mem_inter.2 ⟨(a1 _).2 ⟨v, hv', rfl⟩, (b1 _).2 ⟨w, hw', hsig.symm⟩⟩
    obtain ⟨l, hl⟩ := (flatM_ok _ _ _ e3 v).2 _ hb
    obtain ⟨n, hn, r⟩ := ((hc _ l hl).2 b).2 ⟨⟨v, hv', rfl, q⟩, ⟨w, hw', hsig.symm, q'⟩⟩
    exact ⟨n, (flatM_ok _ _ _ e3 n).1.2 ⟨_, hb, l, hl, hn⟩, r⟩

/-- C109: `vec_overlap` decides whether the lists have a common bit. -/
theorem c109_overlap_of (h : Sound o P) {vl1 vl2 : List N} (h1 : ∀ n ∈ vl1, P n) (h2 : ∀ n ∈ vl2, P n) :
    ∃ r, vecOverlap o vl1 vl2 = some r ∧ (r = true ↔ ∃ b, Bit o vl1 b ∧ Bit o vl2 b) := by
  unfold vecOverlap
  split
  · rename_i ho
    obtain ⟨n, q1, q2⟩ := over_iff.1 ho
    obtain ⟨l, e, hl, -⟩ := h.expand n (h1 n q1)
    obtain ⟨b, k, rfl⟩ := List.exists_cons_of_ne_nil hl
    exact ⟨true, rfl, iff_of_true rfl ⟨b, ⟨n, q1, _, e, by simp⟩, ⟨n, q2, _, e, by simp⟩⟩⟩
  · have keys : ∀ vl : List N, ∀ s, s ∈ (parts o vl).map Prod.fst ↔ ∃ v ∈ vl, o.sig v = s := by
      intro vl s
      unfold parts
      simp [Function.comp_def, List.mem_eraseDups]
    dsimp only
    split
    · rename_i hk
      refine ⟨false, rfl, iff_of_false (by simp) ?_⟩
      rintro ⟨b, q, q'⟩
      obtain ⟨v, hv, q⟩ := bit_single.1 q
      obtain ⟨w, hw, q'⟩ := bit_single.1 q'
      have hsig := h.sig v w b (h1 v hv) (h2 w hw) q q'
      have : over ((parts o vl1).map Prod.fst) ((parts o vl2).map Prod.fst) = true :=
        over_iff.2 ⟨o.sig v, (keys _ _).2 ⟨v, hv, rfl⟩, (keys _ _).2 ⟨w, hw, hsig.symm⟩⟩
      simp [this] at hk
    · have tst : ∀ p1 : List (S × List N), (∀ x ∈ p1, ∀ n ∈ x.2, P n) →
          ∃ r, overTst o (parts o vl2) p1 = some r ∧
            (r = true ↔ ∃ x ∈ p1, ∃ b, Bit o x.2 b ∧ Bit o (vl2.filter fun v => decide (o.sig v = x.1)) b) := by
        intro p1
        induction p1 with
        | nil => exact fun _ => ⟨false, rfl, by simp⟩
        | cons x p1 ih =>
          intro hp
          obtain ⟨s, l⟩ := x
          obtain ⟨r, i1, i2⟩ := ih fun x hx => hp x (List.mem_cons_of_mem _ hx)
          rw [overTst]
          rw [lookup_parts]
          split
          · rename_i he
            refine ⟨r, i1, ?_⟩
            rw [i2]
            simp only [List.mem_cons, exists_eq_or_imp]
            rw [List.isEmpty_iff] at he
            rw [he]
            simp [Bit]
          · obtain ⟨n1, x1, x2, -⟩ := expandAll_ok h l (hp (s, l) (by simp))
            obtain ⟨n2, y1, y2, -⟩ := expandAll_ok h (vl2.filter fun v => decide (o.sig v = s))
              (fun n hn => h2 n (List.mem_filter.1 hn).1)
            simp only [x1, y1, Option.bind_eq_bind, Option.bind_some]
            by_cases ho : over n1 n2 = true
            · rw [if_pos ho]
              obtain ⟨b, q1, q2⟩ := over_iff.1 ho
              exact ⟨true, rfl, iff_of_true rfl ⟨(s, l), by simp, b, (x2 b).1 q1, (y2 b).1 q2⟩⟩
            · rw [if_neg ho]
              refine ⟨r, i1, ?_⟩
              rw [i2]
              simp only [List.mem_cons, exists_eq_or_imp]
              constructor
              · exact Or.inr
              · rintro (⟨b, q1, q2⟩ | q)
                · exact absurd (over_iff.2 ⟨b, (x2 b).2 q1, (y2 b).2 q2⟩) ho
                · exact q
      obtain ⟨r, e, hr⟩ := tst (parts o vl1) (by
        intro x hx n hn
        unfold parts at hx
        obtain ⟨s, -, rfl⟩ := List.mem_map.1 hx
        exact h1 n (List.mem_filter.1 hn).1)
      refine ⟨r, e, hr.trans ?_⟩
      constructor
      · rintro ⟨x, hx, b, q, q'⟩
        unfold parts at hx
        obtain ⟨s, -, rfl⟩ := List.mem_map.1 hx
        obtain ⟨v, hv, q⟩ := bit_single.1 q
        obtain ⟨w, hw, q'⟩ := bit_single.1 q'
        exact ⟨b, bit_single.2 ⟨v, (List.mem_filter.1 hv).1, q⟩, bit_single.2 ⟨w, (List.mem_filter.1 hw).1, q'⟩⟩
      · rintro ⟨b, q, q'⟩
        obtain ⟨v, hv, q⟩ := bit_single.1 q
        obtain ⟨w, hw, q'⟩ := bit_single.1 q'
        have hsig := h.sig v w b (h1 v hv) (h2 w hw) q q'
        refine ⟨(o.sig v, vl1.filter fun x => decide (o.sig x = o.sig v)), ?_, b,
          bit_single.2 ⟨v, List.mem_filter.2 ⟨hv, by simp⟩, q⟩,
          bit_single.2 ⟨w, List.mem_filter.2 ⟨hw, by simp [hsig]⟩, q'⟩⟩
        unfold parts
        exact List.mem_map.2 ⟨o.sig v, List.mem_eraseDups.2 (List.mem_map.2 ⟨v, hv, rfl⟩), rfl⟩

/-- C109: `vec_subtract` gives names with bits of the first list only, among them all that are not in the second list;
no others if, within each class of names with the same signature, the names that extraction makes of the first list do
not share bits. -/
theorem c109_subtract_of (h : Sound o P) {vl1 vl2 out : List N} (h1 : ∀ n ∈ vl1, P n) (h2 : ∀ n ∈ vl2, P n)
    (e : vecSubtract o vl1 vl2 = some out) :
    (∀ n ∈ out, P n) ∧ (∀ b, Bit o out b → Bit o vl1 b) ∧ (∀ b, Bit o vl1 b → ¬ Bit o vl2 b → Bit o out b) ∧
    ((∀ s l, o.extract (vl1.filter fun v => decide (o.sig v = s)) = some l →
        ∀ n ∈ l, ∀ m ∈ l, ∀ b, Bit o [n] b → Bit o [m] b → n = m) →
      ∀ b, Bit o out b → ¬ Bit o vl2 b) := by
  simp only [vecSubtract, Option.bind_eq_bind, Option.bind_eq_some_iff] at e
  obtain ⟨p1, e1, p2, e2, rem, e3, e4⟩ := e
  obtain ⟨a1, a2, a3⟩ := parts_ok h h1 e1
  obtain ⟨b1, b2, b3⟩ := parts_ok h h2 e2
  -- the second list of names of a class
  have hv2 : ∀ s, (∀ n ∈ (p2.lookup s).getD [], P n) ∧
      ∀ b, Bit o ((p2.lookup s).getD []) b ↔ ∃ v ∈ vl2, o.sig v = s ∧ Bit o [v] b := by
    intro s
    cases hl : p2.lookup s with
    | none =>
      refine ⟨by simp, fun b => ?_⟩
      constructor
      · rintro ⟨n, hn, -⟩
        simp at hn
      · rintro ⟨v, hv, hs, -⟩
        exact absurd hs (b3 s hl v hv)
    | some l => exact (b2 s l hl).2
  have hc : ∀ s l, remain o p1 p2 s = some l → ∃ v1, p1.lookup s = some v1 ∧ (∀ n ∈ l, P n) ∧ ∀ b, Bit o l b ↔
      Bit o (sub v1 (inter v1 ((p2.lookup s).getD []))) b ∧
      ¬ Bit o (sub ((p2.lookup s).getD []) (inter v1 ((p2.lookup s).getD []))) b := by
    intro s l hl
    simp only [remain, Option.bind_eq_bind, Option.bind_eq_some_iff] at hl
    obtain ⟨v1, g1, n1, g3, n2, g4, g5⟩ := hl
    obtain ⟨-, q1, q2⟩ := a2 s v1 g1
    obtain ⟨n1', x1, x2, x3⟩ := expandAll_ok h (sub v1 (inter v1 ((p2.lookup s).getD [])))
      fun n hn => q1 n (mem_sub.1 hn).1
    obtain ⟨n2', y1, y2, y3⟩ := expandAll_ok h (sub ((p2.lookup s).getD []) (inter v1 ((p2.lookup s).getD [])))
      fun n hn => (hv2 s).1 n (mem_sub.1 hn).1
    obtain rfl := Option.some.inj (g3.symm.trans x1)
    obtain rfl := Option.some.inj (g4.symm.trans y1)
    obtain ⟨z1, z2⟩ := h.extract _ _ (fun n hn => (x3 n (mem_sub.1 hn).1).1) g5
    refine ⟨v1, g1, z1, fun b => ?_⟩
    rw [z2, bit_of_bits (fun b hb => (x3 b (mem_sub.1 hb).1).2), mem_sub, x2, y2]
  obtain ⟨z1, z2⟩ := h.extract _ _ (by
    intro n hn
    obtain ⟨s, -, l, hl, hnl⟩ := (flatM_ok _ _ _ e3 n).1.1 hn
    obtain ⟨v1, -, q, -⟩ := hc s l hl
    exact q n hnl) e4
  refine ⟨z1, fun b hb => ?_, fun b hb hn => ?_, fun hd b hb hn => ?_⟩
  · obtain ⟨n, hn, r⟩ := (z2 b).1 hb
    obtain ⟨s, -, l, hl, hnl⟩ := (flatM_ok _ _ _ e3 n).1.1 hn
    obtain ⟨v1, g1, -, q⟩ := hc s l hl
    obtain ⟨m, hm, r'⟩ := ((q b).1 ⟨n, hnl, r⟩).1
    obtain ⟨v, hv, -, q'⟩ := ((a2 s v1 g1).2.2 b).1 ⟨m, (mem_sub.1 hm).1, r'⟩
    exact bit_single.2 ⟨v, hv, q'⟩
  · obtain ⟨v, hv, q⟩ := bit_single.1 hb
    have hs : o.sig v ∈ p1.map Prod.fst := (a1 _).2 ⟨v, hv, rfl⟩
    obtain ⟨l, hl⟩ := (flatM_ok _ _ _ e3 v).2 _ hs
    obtain ⟨v1, g1, -, qq⟩ := hc _ l hl
    obtain ⟨m, hm, r⟩ := ((a2 _ v1 g1).2.2 b).2 ⟨v, hv, rfl, q⟩
    have no2 : ∀ k : List N, (∀ x ∈ k, x ∈ (p2.lookup (o.sig v)).getD []) → ¬ Bit o k b := by
      rintro k hk ⟨x, hx, r'⟩
      obtain ⟨w, hw, -, q'⟩ := ((hv2 (o.sig v)).2 b).1 ⟨x, hk x hx, r'⟩
      exact hn (bit_single.2 ⟨w, hw, q'⟩)
    have hm' : m ∈ sub v1 (inter v1 ((p2.lookup (o.sig v)).getD [])) :=
      mem_sub.2 ⟨hm, fun hi => no2 [m] (by simpa using (mem_inter.1 hi).2) ⟨m, by simp, r⟩⟩
    obtain ⟨n, hn', r'⟩ := (qq b).2 ⟨⟨m, hm', r⟩, no2 _ fun x hx => (mem_sub.1 hx).1⟩
    exact (z2 b).2 ⟨n, (flatM_ok _ _ _ e3 n).1.2 ⟨_, hs, l, hl, hn'⟩, r'⟩
  · obtain ⟨n, hn', r⟩ := (z2 b).1 hb
    obtain ⟨s, -, l, hl, hnl⟩ := (flatM_ok _ _ _ e3 n).1.1 hn'
    obtain ⟨v1, g1, -, q⟩ := hc s l hl
    obtain ⟨⟨m, hm, r'⟩, q2⟩ := (q b).1 ⟨n, hnl, r⟩
    obtain ⟨hm1, hm2⟩ := mem_sub.1 hm
    obtain ⟨he, -, hbits⟩ := a2 s v1 g1
    obtain ⟨v, hv, hvs, qv⟩ := (hbits b).1 ⟨m, hm1, r'⟩
    obtain ⟨w, hw, qw⟩ := bit_single.1 hn
    have hsig := h.sig v w b (h1 v hv) (h2 w hw) qv qw
    obtain ⟨x, hx, rx⟩ := ((hv2 s).2 b).2 ⟨w, hw, by rw [← hsig, hvs], qw⟩
    by_cases hxb : x ∈ inter v1 ((p2.lookup s).getD [])
    · have := hd s v1 he m hm1 x (mem_inter.1 hxb).1 b ⟨m, by simp, r'⟩ ⟨x, by simp, rx⟩
      subst this
      exact hm2 hxb
    · exact q2 ⟨x, mem_sub.2 ⟨hx, hxb⟩, rx⟩

/-- C109: `vec_subtract` leaves bits of the second list, because names that both lists have are taken out of the first
list although other names of it may share bits with them. -/
theorem c109_subtract_violated :
    vecSubtract (real id) ["a[1:0][1:0]".toList, "a[1][2:1]".toList] ["a[1:0][1:0]".toList] =
      some ["a[1][2:1]".toList] ∧
    Bit (real id) ["a[1][2:1]".toList] "a[1][1]".toList ∧ Bit (real id) ["a[1:0][1:0]".toList] "a[1][1]".toList :=
  ⟨by decide +kernel, ⟨_, List.mem_singleton.2 rfl, ["a[1][2]".toList, "a[1][1]".toList], by decide +kernel, by decide⟩,
    ⟨_, List.mem_singleton.2 rfl, ["a[1][1]".toList, "a[1][0]".toList, "a[0][1]".toList, "a[0][0]".toList],
      by decide +kernel, by decide⟩⟩

/-- C109: common bits of constants are not found: the signature of a constant is the constant. -/
theorem c109_constant_violated :
    vecOverlap (real id) ["0b01".toList] ["0b1".toList] = some false ∧
    vecIntersect (real id) ["0b01".toList] ["0b1".toList] = some [] ∧
    Bit (real id) ["0b01".toList] "0b1".toList ∧ Bit (real id) ["0b1".toList] "0b1".toList :=
  ⟨by decide +kernel, by decide +kernel,
    ⟨_, List.mem_singleton.2 rfl, ["0b0".toList, "0b1".toList], by decide +kernel, by decide⟩,
    ⟨_, List.mem_singleton.2 rfl, ["0b1".toList], by decide +kernel, by decide⟩⟩

/-- C109: `vec_zip` of a vector of four bits with vectors of three and one bits: the third bit of the first vector is
lost, and a name of two bits is paired with a name of three. -/
theorem c109_zip_violated :
    vecZip (real id) 3 ["m[1:0][1:0]".toList] ["a[2:0]".toList, "b".toList] =
      some [("m[1][1:0]".toList, "a[2:0]".toList), ("m[0][0]".toList, "b".toList)] := by decide +kernel

example : vecZip (real id) 9 ["x[5:0]".toList] ["a[2:0]".toList, "b".toList, "c[1:0]".toList] =
    some [("x[5:3]".toList, "a[2:0]".toList), ("x[2]".toList, "b".toList), ("x[1:0]".toList, "c[1:0]".toList)] := by
  decide +kernel

end Voss.Vset
