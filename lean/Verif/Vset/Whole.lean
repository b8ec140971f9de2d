import Verif.Vset.WholeLemmas

/-!
C109: `vec_zip` of names that do not repeat a bit.
-/
namespace Voss.Vset

open Vec

section
variable {N S : Type} {o : Names N S} {P : N → Prop}

/-- Names of which each part is one name. -/
structure OneName (o : Names N S) (P : N → Prop) : Prop where
  expand : ∀ n, P n → ∃ l, o.expand n = some l
  size : ∀ n l k, P n → o.expand n = some l → o.size n = some k → k = l.length
  first : ∀ n l u vs v, P n → o.expand n = some l → o.merge (l.take u) = some vs → vs.head? = some v →
    o.expand v = some (l.take u)
  rest : ∀ n l u vs, P n → o.expand n = some l → o.merge (l.drop u) = some vs →
    (∀ v ∈ vs, P v) ∧ expandAll o vs = some (l.drop u)

theorem expandAll_some (h : OneName o P) : ∀ l : List N, (∀ n ∈ l, P n) → ∃ A, expandAll o l = some A
  | [], _ => ⟨[], rfl⟩
  | n :: l, hl => by
    obtain ⟨a, ha⟩ := h.expand n (hl n List.mem_cons_self)
    obtain ⟨A, hA⟩ := expandAll_some h l (fun x hx => hl x (List.mem_cons_of_mem _ hx))
    exact ⟨a ++ A, by simp [expandAll, ha, hA]⟩

theorem vecZip_whole [DecidableEq N] [DecidableEq S] (h : OneName o P) : ∀ (k : Nat) (as bs : List N)
    (r : List (N × N)), (∀ n ∈ as, P n) → (∀ n ∈ bs, P n) → vecZip o k as bs = some r →
    expandAll o (r.map Prod.fst) = expandAll o as ∧ expandAll o (r.map Prod.snd) = expandAll o bs ∧
    ∀ x ∈ r, ∃ l m, o.expand x.1 = some l ∧ o.expand x.2 = some m ∧ l.length = m.length := by
  intro k
  induction k with
  | zero => intro as bs r _ _ e; simp [vecZip] at e
  | succ k ih =>
    intro as bs r ha hb e
    cases as with
    | nil =>
      cases bs with
      | nil => simp [vecZip] at e; subst e; exact ⟨rfl, rfl, by simp⟩
      | cons g gs => simp [vecZip] at e
    | cons p ps =>
      cases bs with
      | nil => simp [vecZip] at e
      | cons g gs =>
        simp only [vecZip, Option.bind_eq_bind, Option.bind_eq_some_iff] at e
        obtain ⟨pn, hpn, gn, hgn, e⟩ := e
        have hp := ha p List.mem_cons_self
        have hg := hb g List.mem_cons_self
        obtain ⟨pl, hpl⟩ := h.expand p hp
        obtain ⟨gl, hgl⟩ := h.expand g hg
        have sp := h.size p pl pn hp hpl hpn
        have sg := h.size g gl gn hg hgl hgn
        have ha' : ∀ n ∈ ps, P n := fun n hn => ha n (List.mem_cons_of_mem _ hn)
        have hb' : ∀ n ∈ gs, P n := fun n hn => hb n (List.mem_cons_of_mem _ hn)
        obtain ⟨A, hA⟩ := expandAll_some h ps ha'
        obtain ⟨B, hB⟩ := expandAll_some h gs hb'
        by_cases hsz : pn = gn
        · rw [if_pos hsz] at e
          simp only [Option.bind_eq_some_iff, pure, Option.some.injEq] at e
          obtain ⟨r', e1, rfl⟩ := e
          obtain ⟨z1, z2, z3⟩ := ih ps gs r' ha' hb' e1
          rw [hA] at z1; rw [hB] at z2
          refine ⟨by rw [List.map_cons, expandAll_cons hpl z1, expandAll_cons hpl hA],
            by rw [List.map_cons, expandAll_cons hgl z2, expandAll_cons hgl hB], ?_⟩
          intro x hx
          rcases List.mem_cons.1 hx with rfl | hx
          · exact ⟨pl, gl, hpl, hgl, by omega⟩
          · exact z3 x hx
        · rw [if_neg hsz] at e
          simp only [hpl, hgl, Option.bind_some, Option.bind_eq_some_iff, pure, Option.some.injEq] at e
          obtain ⟨pv, hpv, p1, hp1, gv, hgv, g1, hg1, prem, hprem, grem, hgrem, r', e1, rfl⟩ := e
          have q1 := h.first p pl _ _ _ hp hpl hpv hp1
          have q2 := h.first g gl _ _ _ hg hgl hgv hg1
          obtain ⟨m5, m6⟩ := h.rest p pl _ _ hp hpl hprem
          obtain ⟨m7, m8⟩ := h.rest g gl _ _ hg hgl hgrem
          obtain ⟨z1, z2, z3⟩ := ih (prem ++ ps) (grem ++ gs) r'
            (fun n hn => (List.mem_append.1 hn).elim (m5 n) (ha' n))
            (fun n hn => (List.mem_append.1 hn).elim (m7 n) (hb' n)) e1
          rw [expandAll_append m6 hA] at z1
          rw [expandAll_append m8 hB] at z2
          refine ⟨?_, ?_, ?_⟩
          · rw [List.map_cons, expandAll_cons q1 z1, expandAll_cons hpl hA, ← List.append_assoc, List.take_append_drop]
          · rw [List.map_cons, expandAll_cons q2 z2, expandAll_cons hgl hB, ← List.append_assoc, List.take_append_drop]
          · intro x hx
            rcases List.mem_cons.1 hx with rfl | hx
            · exact ⟨_, _, q1, q2, by simp only [List.length_take]; omega⟩
            · exact z3 x hx
end

/-- Constants, and names with at most one group that do not repeat a bit. -/
def Single (s : List Char) : Prop :=
  ∃ v, Good v ∧ OneDim v ∧ vecText v = s ∧ (isConst v = true ∨ (vbits v).Nodup)

/-- What has bits of a constant is a constant. -/
theorem const_of_bits {v : Vec} (hv : Good v) {b : List Char} {c : Char} (hb : b ∈ vbits v) (e : b = ['0', 'b', c])
    (hc : c = '0' ∨ c = '1' ∨ c = 'x') : isConst v = true := by
  cases h : isConst v with
  | true => rfl
  | false =>
    rw [vbits_nonconst h] at hb
    obtain ⟨w, hw, rfl⟩ := List.mem_map.1 hb
    have hs := (mem_expand _ _).1 hw
    have := nonconst_text (selects_bit hs hv.wf (edge_good v hv.inner)).2
      (by rw [isConst_shape (selects_shape hs)]; exact h)
    rw [e] at this
    rcases hc with rfl | rfl | rfl <;> simp [expandConstant, isConstChar] at this

theorem single_oneName (sort : List Vec → List Vec) : OneName (real sort) Single := by
  have F := flat_inOrder sort
  have flat : ∀ n, Single n → Flat n := fun n ⟨v, h1, h2, h3, _⟩ => ⟨v, h1, h2, h3⟩
  have part : ∀ n l l' vs, Single n → mdExpand n = some l → l'.Sublist l → mdMerge l' = some vs →
      vs.length ≤ 1 ∧ (∀ v ∈ vs, Single v) ∧ expandAll (real sort) vs = some l' := by
    rintro n l l' vs ⟨v, hv, h1, rfl, hn⟩ hl hs hm
    have hb : ∀ b ∈ l', Flat b ∧ (real sort).expand b = some [b] := by
      obtain ⟨l2, e2, h2⟩ := F.expand (vecText v) ⟨v, hv, h1, rfl⟩
      have : l2 = l := Option.some.inj (e2.symm.trans hl)
      subst this
      exact fun b hb => h2 b (hs.subset hb)
    rw [good_expand hv] at hl
    obtain rfl := Option.some.inj hl
    obtain ⟨m1, m2⟩ := F.merge l' vs hb hm
    have hlen := merge_part hv h1 hn hs hm
    refine ⟨hlen, ?_, m2⟩
    intro s hsv
    obtain ⟨w, gw, ow, rfl⟩ := m1 s hsv
    refine ⟨w, gw, ow, rfl, ?_⟩
    have hvs : vs = [vecText w] := by
      cases vs with
      | nil => simp at hsv
      | cons x vs =>
        have : vs = [] := List.length_eq_zero_iff.1 (by simp at hlen ⊢; exact hlen)
        subst this
        rw [List.mem_singleton.1 hsv]
    subst hvs
    have hw : vbits w = l' := by
      have : (real sort).expand (vecText w) = some (vbits w) := good_expand gw
      rw [expandAll_cons this (show expandAll (real sort) [] = some [] from rfl)] at m2
      simpa using m2
    subst hw
    rcases hn with hc | hnd
    · left
      obtain ⟨s, rfl, cs, rfl, hne, hd⟩ := hv.const hc
      cases hx : vbits w with
      | nil =>
        obtain ⟨l3, e3, -⟩ := F.expand _ ⟨w, gw, ow, rfl⟩
        have : mdMerge [] = some [] := rfl
        rw [hx] at hm
        have : [vecText w] = [] := Option.some.inj (hm.symm.trans this)
        simp at this
      | cons b l =>
        have hbm : b ∈ vbits w := by rw [hx]; exact List.mem_cons_self
        have := hs.subset hbm
        simp only [vbits, List.mem_map] at this
        obtain ⟨c, hcm, rfl⟩ := this
        exact const_of_bits gw hbm rfl (hd c hcm)
    · exact .inr (hnd.sublist hs)
  refine ⟨?_, ?_, ?_, ?_⟩
  · intro n hn
    obtain ⟨l, hl, _⟩ := F.expand n (flat n hn)
    exact ⟨l, hl⟩
  · exact fun n l k hn => F.size n l k (flat n hn)
  · intro n l u vs v hn hl hm hv
    obtain ⟨h1, _, h3⟩ := part n l _ vs hn hl (List.take_sublist u l) hm
    cases vs with
    | nil => simp at hv
    | cons x vs =>
      have : vs = [] := List.length_eq_zero_iff.1 (by simp at h1 ⊢; exact h1)
      subst this
      simp only [List.head?_cons, Option.some.injEq] at hv; subst hv
      simp only [expandAll, Option.bind_eq_bind, Option.bind_eq_some_iff] at h3
      obtain ⟨a, ha, b, hb, e⟩ := h3
      simp only [pure, Option.some.injEq] at hb e
      subst hb
      rw [ha, ← e]; simp
  · intro n l u vs hn hl hm
    exact (part n l _ vs hn hl (List.drop_sublist u l) hm).2

/-- C109: `vec_zip` of constants and of names with at most one index group that do not repeat an index keeps all bits of
both lists in their order, and pairs names with the same number of bits.  Missing: that there is an answer. -/
theorem c109_zip_whole_partial (sort : List Vec → List Vec) {as bs : List (List Char)}
    (ha : ∀ s ∈ as, IsConstant s ∨ Proper1 s ∧ ∀ l, mdExpand s = some l → l.Nodup)
    (hb : ∀ s ∈ bs, IsConstant s ∨ Proper1 s ∧ ∀ l, mdExpand s = some l → l.Nodup)
    {k : Nat} {r : List (List Char × List Char)} (e : vecZip (real sort) k as bs = some r) :
    ∃ A B, mdExpandAll as = some A ∧ mdExpandAll bs = some B ∧
      mdExpandAll (r.map Prod.fst) = some A ∧ mdExpandAll (r.map Prod.snd) = some B ∧
      ∀ x ∈ r, ∃ l m, mdExpand x.1 = some l ∧ mdExpand x.2 = some m ∧ l.length = m.length := by
  have conv : ∀ s, (IsConstant s ∨ Proper1 s ∧ ∀ l, mdExpand s = some l → l.Nodup) → Single s := by
    rintro s (h | ⟨h, hn⟩)
    · refine ⟨[.txt s], good_const h, by simp [OneDim, Seg.isIdx], by simp [vecText, Seg.text], .inl ?_⟩
      obtain ⟨cs, rfl, -⟩ := h; rfl
    · obtain ⟨v, hv, h1, rfl⟩ := proper1_good h
      exact ⟨v, hv, h1, rfl, .inr (hn _ (good_expand hv))⟩
  have ha' := fun s hs => conv s (ha s hs)
  have hb' := fun s hs => conv s (hb s hs)
  have O := single_oneName sort
  obtain ⟨A, hA⟩ := expandAll_some O as ha'
  obtain ⟨B, hB⟩ := expandAll_some O bs hb'
  obtain ⟨z1, z2, z3⟩ := vecZip_whole O k as bs r ha' hb' e
  exact ⟨A, B, expandAll_real sort hA, expandAll_real sort hB, expandAll_real sort (z1.trans hA),
    expandAll_real sort (z2.trans hB), z3⟩

example : vecZip (real id) 9 ["x[5:3,0]".toList, "0b11".toList] ["a[1:0]".toList, "b[7,2:0]".toList] =
    some [("x[5:4]".toList, "a[1:0]".toList), ("x[3,0]".toList, "b[7,2]".toList), ("0b11".toList, "b[1:0]".toList)] := by
  decide +kernel

example : IsConstant "0b11".toList := ⟨['1', '1'], rfl, by decide, by decide⟩

example : ∀ l, mdExpand "x[5:0]".toList = some l → l.Nodup := by
  intro l h
  have : mdExpand "x[5:0]".toList = some (["x[5]", "x[4]", "x[3]", "x[2]", "x[1]", "x[0]"].map String.toList) := by
    decide +kernel
  rw [this] at h
  obtain rfl := Option.some.inj h
  decide +kernel

/-- Negation of the same for names that repeat an index: a bit of `x[3,3,2]` is lost, and one bit is paired with two. -/
theorem c109_zip_repeat_violated :
    vecZip (real id) 9 ["x[3,3,2]".toList] ["a[1:0]".toList, "b".toList] =
      some [("x[3]".toList, "a[1:0]".toList), ("x[2]".toList, "b".toList)] := by decide +kernel

end Voss.Vset
