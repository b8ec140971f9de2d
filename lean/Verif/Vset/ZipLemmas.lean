import Verif.Vset.Real
import Verif.Vec.MergeProps

/-! Lemmas for `vec_zip`. -/

namespace Voss.Vset

section
variable {N S : Type} [DecidableEq N] [DecidableEq S]

/-- Names whose bits are merged in order. -/
structure InOrder (o : Names N S) (P : N → Prop) : Prop where
  expand : ∀ n, P n → ∃ l, o.expand n = some l ∧ ∀ b ∈ l, P b ∧ o.expand b = some [b]
  size : ∀ n l k, P n → o.expand n = some l → o.size n = some k → k = l.length
  merge : ∀ l vs, (∀ b ∈ l, P b ∧ o.expand b = some [b]) → o.merge l = some vs →
    (∀ v ∈ vs, P v) ∧ expandAll o vs = some l

variable {o : Names N S} {P : N → Prop}

theorem expandAll_append {a b A B : List N} (ha : expandAll o a = some A) (hb : expandAll o b = some B) :
    expandAll o (a ++ b) = some (A ++ B) := by
  induction a generalizing A with
  | nil => simp [expandAll] at ha; subst ha; simpa using hb
  | cons n a ih =>
    simp only [expandAll, Option.bind_eq_bind, Option.bind_eq_some_iff] at ha
    obtain ⟨l, h1, k, h2, h3⟩ := ha
    simp only [pure, Option.some.injEq] at h3
    subst h3
    simp [expandAll, h1, ih h2]

theorem expandAll_cons {n : N} {a l A : List N} (h : o.expand n = some l) (ha : expandAll o a = some A) :
    expandAll o (n :: a) = some (l ++ A) := by
  simp [expandAll, h, ha]

/-- What is proved of `vec_zip` at each call. -/
structure Zipped (o : Names N S) (as bs : List N) (r : List (N × N)) (A B A' B' : List N) : Prop where
  first : expandAll o as = some A
  second : expandAll o bs = some B
  first' : expandAll o (r.map Prod.fst) = some A'
  second' : expandAll o (r.map Prod.snd) = some B'
  subA : A'.Sublist A
  subB : B'.Sublist B
  len : A.length = B.length
  sizes : A'.length = A.length → B'.length = B.length →
    ∀ x ∈ r, ∃ l m, o.expand x.1 = some l ∧ o.expand x.2 = some m ∧ l.length = m.length

theorem vecZip_spec (h : InOrder o P) : ∀ (k : Nat) (as bs : List N) (r : List (N × N)), (∀ n ∈ as, P n) →
    (∀ n ∈ bs, P n) → vecZip o k as bs = some r → ∃ A B A' B', Zipped o as bs r A B A' B' := by
  intro k
  induction k with
  | zero => intro as bs r _ _ e; simp [vecZip] at e
  | succ k ih =>
    intro as bs r ha hb e
    cases as with
    | nil =>
      cases bs with
      | nil => simp [vecZip] at e; subst e; exact ⟨[], [], [], [], ⟨rfl, rfl, rfl, rfl, .slnil, .slnil, rfl, by simp⟩⟩
      | cons g gs => simp [vecZip] at e
    | cons p ps =>
      cases bs with
      | nil => simp [vecZip] at e
      | cons g gs =>
        simp only [vecZip, Option.bind_eq_bind, Option.bind_eq_some_iff] at e
        obtain ⟨pn, hpn, gn, hgn, e⟩ := e
        obtain ⟨pl, hpl, hpb⟩ := h.expand p (ha p List.mem_cons_self)
        obtain ⟨gl, hgl, hgb⟩ := h.expand g (hb g List.mem_cons_self)
        have sp := h.size p pl pn (ha p List.mem_cons_self) hpl hpn
        have sg := h.size g gl gn (hb g List.mem_cons_self) hgl hgn
        have ha' : ∀ n ∈ ps, P n := fun n hn => ha n (List.mem_cons_of_mem _ hn)
        have hb' : ∀ n ∈ gs, P n := fun n hn => hb n (List.mem_cons_of_mem _ hn)
        by_cases hsz : pn = gn
        · rw [if_pos hsz] at e
          simp only [Option.bind_eq_some_iff, pure, Option.some.injEq] at e
          obtain ⟨r', e1, rfl⟩ := e
          obtain ⟨A, B, A', B', z⟩ := ih ps gs r' ha' hb' e1
          refine ⟨pl ++ A, gl ++ B, pl ++ A', gl ++ B', ⟨expandAll_cons hpl z.first, expandAll_cons hgl z.second,
            expandAll_cons hpl z.first', expandAll_cons hgl z.second', .append (.refl _) z.subA,
            .append (.refl _) z.subB, by simp only [List.length_append]; have := z.len; omega, ?_⟩⟩
          intro l1 l2 x hx
          simp only [List.length_append] at l1 l2
          rcases List.mem_cons.1 hx with rfl | hx
          · exact ⟨pl, gl, hpl, hgl, by omega⟩
          · exact z.sizes (by omega) (by omega) x hx
        · rw [if_neg hsz] at e
          simp only [hpl, hgl, Option.bind_some, Option.bind_eq_some_iff, pure, Option.some.injEq] at e
          obtain ⟨pv, hpv, p1, hp1, gv, hgv, g1, hg1, prem, hprem, grem, hgrem, r', e1, rfl⟩ := e
          obtain ⟨m1, m2⟩ := h.merge _ _ (fun b hb => hpb b (List.mem_of_mem_take hb)) hpv
          obtain ⟨m3, m4⟩ := h.merge _ _ (fun b hb => hgb b (List.mem_of_mem_take hb)) hgv
          obtain ⟨m5, m6⟩ := h.merge _ _ (fun b hb => hpb b (List.mem_of_mem_drop hb)) hprem
          obtain ⟨m7, m8⟩ := h.merge _ _ (fun b hb => hgb b (List.mem_of_mem_drop hb)) hgrem
          obtain ⟨A, B, A', B', z⟩ := ih (prem ++ ps) (grem ++ gs) r'
            (fun n hn => (List.mem_append.1 hn).elim (m5 n) (ha' n))
            (fun n hn => (List.mem_append.1 hn).elim (m7 n) (hb' n)) e1
          have head : ∀ (vs : List N) (v : N) (L : List N), vs.head? = some v → expandAll o vs = some L →
              ∃ l, o.expand v = some l ∧ l.Sublist L := by
            intro vs v L hv hL
            cases vs with
            | nil => simp at hv
            | cons w vs =>
              simp only [List.head?_cons, Option.some.injEq] at hv; subst hv
              simp only [expandAll, Option.bind_eq_bind, Option.bind_eq_some_iff] at hL
              obtain ⟨l, h1, k, h2, h3⟩ := hL
              simp only [pure, Option.some.injEq] at h3; subst h3
              exact ⟨l, h1, List.sublist_append_left _ _⟩
          obtain ⟨l1, q1, s1⟩ := head pv p1 _ hp1 m2
          obtain ⟨l2, q2, s2⟩ := head gv g1 _ hg1 m4
          have rest : ∀ (a b : List N) (L D : List N), expandAll o (a ++ b) = some L → expandAll o a = some D →
              (∀ n ∈ b, P n) → ∃ E, expandAll o b = some E ∧ L = D ++ E := by
            intro a b L D h1 h2 h3
            have : ∃ E, expandAll o b = some E := by
              clear h1 h2
              induction b with
              | nil => exact ⟨[], rfl⟩
              | cons n b ihb =>
                obtain ⟨l, hl, _⟩ := h.expand n (h3 n List.mem_cons_self)
                obtain ⟨E, hE⟩ := ihb (fun x hx => h3 x (List.mem_cons_of_mem _ hx))
                exact ⟨l ++ E, expandAll_cons hl hE⟩
            obtain ⟨E, hE⟩ := this
            rw [expandAll_append h2 hE] at h1
            exact ⟨E, hE, by simpa using h1.symm⟩
          obtain ⟨E, hE, rfl⟩ := rest _ _ _ _ z.first m6 ha'
          obtain ⟨F, hF, rfl⟩ := rest _ _ _ _ z.second m8 hb'
          have t1 := s1.append z.subA
          have t2 := s2.append z.subB
          rw [← List.append_assoc, List.take_append_drop] at t1 t2
          have n1 := s1.length_le; have n2 := s2.length_le
          have n3 := z.subA.length_le; have n4 := z.subB.length_le
          have n5 := z.len
          simp only [List.length_append, List.length_drop, List.length_take] at n1 n2 n3 n4 n5
          refine ⟨pl ++ E, gl ++ F, l1 ++ A', l2 ++ B', ⟨expandAll_cons hpl hE, expandAll_cons hgl hF,
            expandAll_cons q1 z.first', expandAll_cons q2 z.second', t1, t2, ?_, ?_⟩⟩
          · simp only [List.length_append]; omega
          · intro w1 w2 x hx
            simp only [List.length_append] at w1 w2
            rcases List.mem_cons.1 hx with rfl | hx
            · exact ⟨l1, l2, q1, q2, by omega⟩
            · exact z.sizes (by simp only [List.length_append, List.length_drop]; omega)
                (by simp only [List.length_append, List.length_drop]; omega) x hx
end

open Vec

theorem oneDim_shape {v w : Vec} (h : shape w = shape v) (hv : OneDim v) : OneDim w := by
  have key : ∀ v : Vec, (v.filter Seg.isIdx).length = ((shape v).filter Seg.isIdx).length := by
    intro v
    induction v with
    | nil => rfl
    | cons s v ih =>
      cases s with
      | txt s => rw [shape_txt]; simpa [List.filter_cons, Seg.isIdx] using ih
      | idx rs => rw [shape_idx]; simpa [List.filter_cons, Seg.isIdx] using ih
  unfold OneDim at *
  rw [key, h, ← key]; exact hv

/-- Constants and names with at most one group. -/
def Flat (s : List Char) : Prop := ∃ v, Good v ∧ OneDim v ∧ vecText v = s

theorem flat_inOrder (sort : List Vec → List Vec) : InOrder (real sort) Flat := by
  have bits : ∀ v, Good v → OneDim v → vbits v ≠ [] ∧ ∀ b ∈ vbits v, Flat b ∧ mdExpand b = some [b] := by
    intro v hv h1
    cases hc : isConst v with
    | true =>
      obtain ⟨s, rfl, hs⟩ := hv.const hc
      obtain ⟨cs, rfl, hne, hd⟩ := hs
      refine ⟨by simpa [vbits] using hne, ?_⟩
      intro b hb
      simp only [vbits, List.mem_map] at hb
      obtain ⟨c, hcm, rfl⟩ := hb
      have g : Good [.txt ['0', 'b', c]] := good_const ⟨[c], rfl, by simp, by simpa using hd c hcm⟩
      have ht : vecText [.txt ['0', 'b', c]] = ['0', 'b', c] := by simp [vecText, Seg.text]
      refine ⟨⟨_, g, by simp [OneDim, Seg.isIdx], ht⟩, ?_⟩
      have := good_expand g
      rw [ht] at this
      simpa [vbits] using this
    | false =>
      rw [vbits_nonconst hc]
      refine ⟨by simpa using expand_ne v hv.wf, ?_⟩
      intro b hb
      obtain ⟨w, hw, rfl⟩ := List.mem_map.1 hb
      have hs := (mem_expand _ _).1 hw
      obtain ⟨hbit, hwf⟩ := selects_bit hs hv.wf (edge_good v hv.inner)
      have hc' : isConst w = false := by rw [isConst_shape (selects_shape hs)]; exact hc
      have g : Good w := ⟨hwf, (selects_inners hs hv.inner).1, nostar_shape w v (selects_shape hs) hv.nostar,
        fun h => by rw [hc'] at h; cases h⟩
      refine ⟨⟨w, g, oneDim_shape (selects_shape hs) h1, rfl⟩, ?_⟩
      rw [good_expand g, vbits_nonconst hc', expand_bit w hbit]; rfl
  refine ⟨?_, ?_, ?_⟩
  · rintro n ⟨v, hv, h1, rfl⟩
    exact ⟨vbits v, good_expand hv, (bits v hv h1).2⟩
  · rintro n l k ⟨v, hv, h1, rfl⟩ hl hk
    refine c70_size_partial ?_ hl hk
    intro h0
    have h2 := split_text hv.wf
    rw [h0] at h2
    have h3 : split ['0', 'b'] = some [.txt ['0', 'b']] := by decide +kernel
    rw [h3] at h2
    have h4 := good_norm hv
    rw [← Option.some.inj h2] at h4
    obtain ⟨s, h5, cs, rfl, h6, -⟩ := h4.const rfl
    simp at h5
    exact h6 h5
  · intro l vs hl hm
    have hm' : mdMerge l = some vs := hm
    have all : ∀ (ss : List (List Char)) (L : List (List Char)), mdExpandAll ss = some L →
        expandAll (real sort) ss = some L := by
      intro ss
      induction ss with
      | nil => intro L h; simpa [mdExpandAll, expandAll] using h
      | cons s ss ih =>
        intro L h
        simp only [mdExpandAll, Option.bind_eq_bind, Option.bind_eq_some_iff] at h
        obtain ⟨a, ha, b, hb, h⟩ := h
        simp only [Option.some.injEq] at h
        subst h
        exact expandAll_cons ha (ih b hb)
    obtain ⟨us, h1, h2, h3⟩ := splitAll_good oneDim_norm l (fun s hs => (hl s hs).1)
    obtain ⟨ws, e1, e2, e3⟩ := mergeVecs_spec orderInv h2
    have hself : mdExpandAll l = some l := by
      clear hm hm' h1 h3
      induction l with
      | nil => rfl
      | cons b l ih =>
        have := ih (fun x hx => hl x (List.mem_cons_of_mem _ hx))
        simp [mdExpandAll, this, show mdExpand b = some [b] from (hl b List.mem_cons_self).2]
    unfold mdMerge at hm'
    simp only [h1, e1, Option.bind_eq_bind, Option.bind_some] at hm'
    have ht := showAll_text _ _ hm'
    subst ht
    refine ⟨?_, ?_⟩
    · intro s hs
      obtain ⟨w, hw, rfl⟩ := List.mem_map.1 hs
      exact ⟨w, (e2 w hw).1, (e2 w hw).2, rfl⟩
    · apply all
      rw [mdExpandAll_good ws (fun v hv => (e2 v hv).1), e3, ← h3]
      exact hself

end Voss.Vset
