import Verif.Fl.HeapMerge
/-
The reducer as a whole keeps the values of all nodes.
-/
namespace Voss.Fl
variable {B E D : Type} {A : Alg D} {bs : Bools B E} {ar : Nat → Nat} [DecidableEq B]

/-! ### Conditionals -/

theorem fireCond_step (dt : Data A) {tr fo : St B → Nat → Option (St B × Nat)} (htr : TrOk A bs ar tr)
    (hfo : FoOk A bs ar fo) {k : Nat} {st st' : St B} {redex a1 a2 a3 : Nat} {old : Node B}
    (h : fireCond bs tr fo k st redex old a1 a2 a3 = some st') (hi : Inv ar st)
    (hr : RedexOf ar st old .cond [a1, a2, a3]) :
    StepF A bs ar (RedVal A st.size redex .cond [a1, a2, a3]) st st' := by
  unfold fireCond at h
  split at h
  · cases h
  · rename_i st1 x1 h1
    obtain ⟨e1, hw, hs⟩ := htr _ _ _ _ h1 hi
    subst e1
    refine StepF.trans (Q := RedVal A st1.size redex .cond [x1, a2, a3]) hs.any ?_
      (fun v v' _ hp _ he => hp.mono hs.base.size he)
    have hi1 := hs.base.inv hi
    have hr1 := hr.step hs.base
    clear h1 hi hr
    split at h
    · rename_i hf
      exact overwrite_step h hr1 (.inl hf)
    · split at h
      · rename_i f hx
        have cv : ∀ v : Nat → E → D, RedVal A st1.size redex .cond [x1, a2, a3] v → Describes A bs v st1 → ∀ e,
            v redex e = if bs.sat f e then v a2 e else v a3 e := by
          intro v hp hv e
          rw [hp.val e]
          show A.app (A.app (A.app (A.con .cond) (v x1 e)) (v a2 e)) (v a3 e) = _
          rw [hv _ _ hx e]
          exact dt.cond_bool _ _ _
        split at h
        · rename_i hf
          refine (project_step htr h hi1 hr1).weaken fun v hv hp => ⟨hp.lt, hp.args a2 (by simp), fun e => ?_⟩
          rw [cv v hp hv e, hf, bs.sat_one]; rfl
        · split at h
          · rename_i hf
            refine (project_step htr h hi1 hr1).weaken fun v hv hp => ⟨hp.lt, hp.args a3 (by simp), fun e => ?_⟩
            rw [cv v hp hv e, hf, bs.sat_zero]; rfl
          · -- symbolic
            have ctx : ∀ {b : B} {a : Nat} {st' : St B},
                (project tr { st1 with cond := b, taint := true } redex old a).map
                  (fun st => ({ st with cond := st1.cond } : St B)) = some st' →
                StepF A bs ar (RedVal A st1.size redex .cond [x1, a2, a3]) st1 st' := by
              intro b a st' h
              obtain ⟨st2, h2, h3⟩ := Option.map_eq_some_iff.mp h
              have b0 : Step0 ar st1 ({ st1 with cond := b, taint := true } : St B) :=
                Step0.set rfl (fun h => nomatch h)
              have p := (project_step htr h2 (b0.inv hi1) (hr1.step b0)).base
              have b2 : Step0 ar st2 st' := by subst h3; exact Step0.set rfl id
              refine ⟨(b0.trans p).trans b2, fun ht => ?_⟩
              have := p.taint (b2.taint ht)
              cases this
            simp only at h
            split at h
            · exact ctx h
            · split at h
              · exact ctx h
              · split at h
                · cases h
                · rename_i st2 y2 h2
                  have b0 : Step A bs ar st1 ({ st1 with cond := bs.and st1.cond f } : St B) := StepF.set rfl id
                  obtain ⟨e2, hs2⟩ := hfo _ _ _ _ h2 (b0.base.inv hi1)
                  subst e2
                  have s12 : Step A bs ar st1 st2 := b0.trans hs2 (fun _ _ _ _ _ _ => trivial)
                  split at h
                  · rename_i hf
                    have b3 : Step A bs ar st2 ({ st2 with cond := st1.cond } : St B) := StepF.set rfl id
                    have s13 : Step A bs ar st1 _ := s12.trans b3 (fun _ _ _ _ _ _ => trivial)
                    exact StepF.trans (Q := fun _ => True) s13.any
                      (overwrite_step h (hr1.step s13.base) (.inl hf)) (fun _ _ _ _ _ _ => trivial)
                  · split at h
                    · cases h
                    · rename_i st3 y3 h3
                      have b3 : Step A bs ar st2 ({ st2 with cond := bs.and st1.cond (bs.not f) } : St B) :=
                        StepF.set rfl id
                      obtain ⟨e3, hs3⟩ := hfo _ _ _ _ h3 (b3.base.inv (s12.base.inv hi1))
                      subst e3
                      have b4 : Step A bs ar st3 ({ st3 with cond := st1.cond } : St B) := StepF.set rfl id
                      have s14 : Step A bs ar st1 ({ st3 with cond := st1.cond } : St B) :=
                        ((s12.trans b3 (fun _ _ _ _ _ _ => trivial)).trans hs3 (fun _ _ _ _ _ _ => trivial)).trans
                          b4 (fun _ _ _ _ _ _ => trivial)
                      split at h
                      · rename_i hf
                        exact StepF.trans (Q := fun _ => True) s14.any
                          (overwrite_step h (hr1.step s14.base) (.inl hf)) (fun _ _ _ _ _ _ => trivial)
                      · split at h
                        · cases h
                        · rename_i st5 memo5 n h5
                          have m := mergeTo_ok (A := A) (ar := ar) f k h5
                          -- the redex has the merged value
                          have s15 : Step0 ar st1 st5 := s14.base.trans m.base
                          have fin := overwrite_step (A := A) (bs := bs)
                            (P := fun v => st5.isFail n = true ∨ ∀ e, v redex e = v n e) h (hr1.step s15)
                          by_cases hfn : st5.isFail n = true
                          · have fin := fin (.inl hfn)
                            refine ⟨s15.trans fin.base, fun ht v hv hp => ?_⟩
                            obtain ⟨v4, hv4, q4⟩ := s14.val (m.base.taint (fin.base.taint ht)) v hv trivial
                            obtain ⟨v5, hv5, q5, _, _⟩ := m.val (fin.base.taint ht) v4 hv4 (fun _ _ _ h => nomatch h)
                            obtain ⟨v6, hv6, q6⟩ := fin.val ht v5 hv5 (.inl hfn)
                            have z1 := s14.base.size
                            have z2 := m.base.size
                            exact ⟨v6, hv6, fun i hi => by
                              rw [q6 i (by omega), q5 i (by omega), q4 i hi]⟩
                          · have fin := fin (.inr fun _ v _ hp => hp.resolve_left hfn)
                            refine ⟨s15.trans fin.base, fun ht v hv hp => ?_⟩
                            obtain ⟨v4, hv4, q4⟩ := s14.val (m.base.taint (fin.base.taint ht)) v hv trivial
                            obtain ⟨v5, hv5, q5, _, g⟩ := m.val (fin.base.taint ht) v4 hv4 (fun _ _ _ h => nomatch h)
                            have z1 := s14.base.size
                            have z2 := m.base.size
                            have q : ∀ i < st1.size, v5 i = v i := fun i hi => by rw [q5 i (by omega), q4 i hi]
                            obtain ⟨_, g⟩ := g.resolve_left hfn
                            have key : ∀ e, v5 redex e = v5 n e := by
                              intro e
                              rw [g e, q _ hp.lt, cv v hp hv e, q _ (hp.args y2 (by simp)), q _ (hp.args y3 (by simp))]
                              rfl
                            obtain ⟨v6, hv6, q6⟩ := fin.val ht v5 hv5 (.inr key)
                            exact ⟨v6, hv6, fun i hi => by rw [q6 i (by omega), q i hi]⟩
      · cases h

omit [DecidableEq B] in
theorem RedexOf.length {st : St B} {old c as} (h : RedexOf ar st old c as) : as.length = arity ar c := by
  obtain ⟨l, r, as0, h1, h2, h3, h4⟩ := h
  subst h2; simp; omega

theorem fire_step {dt : Data A} {ext : Ext B} (ops : Ops A dt bs ext) {tr fo : St B → Nat → Option (St B × Nat)}
    (htr : TrOk A bs ext.arity tr) (hfo : FoOk A bs ext.arity fo) {k : Nat} {st st' : St B} {redex : Nat}
    {old : Node B} {c as} (h : fire bs ext tr fo k st redex old c as = some st') (hi : Inv ext.arity st)
    (hn : st.node redex = some old) (hr : RedexOf ext.arity st old c as) : Step A bs ext.arity st st' := by
  have main : StepF A bs ext.arity (RedVal A st.size redex c as) st st' := by
    unfold fire at h
    split at h
    · refine (project_step htr h hi hr).weaken fun v _ hp => ⟨hp.lt, hp.args _ (by simp), fun e => ?_⟩
      rw [hp.val e]; exact A.law_K _ _
    · refine (project_step htr h hi hr).weaken fun v _ hp => ⟨hp.lt, hp.args _ (by simp), fun e => ?_⟩
      rw [hp.val e]; exact A.law_I _
    · refine (project_step htr h hi hr).weaken fun v _ hp => ⟨hp.lt, hp.args _ (by simp), fun e => ?_⟩
      rw [hp.val e]; exact dt.namedArg _ _ _
    · exact fireSeq_step htr dt h hi hr
    · exact firePcatch_step ops htr h hi hr
    · exact fireError_step htr h hi hr _
    · exact fireCond_step dt htr hfo h hi hr
    · exact fireCmp_step ops htr h hi hr
    · exact fireCmp_step ops htr h hi hr
    · exact fireCmp_step ops htr h hi hr
    · exact fireTest_step dt htr h hi hr
    · exact fireTest_step dt htr h hi hr
    · exact fireTest_step dt htr h hi hr
    · exact fireField_step dt htr (by simp) h hi hr
    · exact fireField_step dt htr (by simp) h hi hr
    · exact fireField_step dt htr (by simp) h hi hr
    · exact fireField_step dt htr (by simp) h hi hr
    · exact fireExt_step ops htr h hi hr hr.length
    · exact contract_step dt h hn hr
  exact main.weaken fun v hv _ => hr.val hn hv

/-! ### The spine -/

omit [DecidableEq B] in
theorem rights_part {st : St B} {c : Con} : ∀ {spine : List Nat} {root : Nat} {as0 as : List Nat},
    Part st root c as0 → rights st root spine = some as →
    Part st (spine.getLastD root) c (as0 ++ as) ∧ as.length = spine.length
  | [], root, as0, as, hp, h => by cases h; exact ⟨by simpa using hp, rfl⟩
  | n :: ns, root, as0, as, hp, h => by
    unfold rights at h
    split at h
    · rename_i l r hn
      split at h
      · rename_i hl
        subst hl
        obtain ⟨as1, h1, h2⟩ := Option.map_eq_some_iff.mp h
        subst h2
        obtain ⟨g1, g2⟩ := rights_part (.app hn hp) h1
        refine ⟨?_, by simp [g2]⟩
        rw [List.getLastD_cons]
        simpa using g1
      · cases h
    · cases h

omit [DecidableEq B] in
theorem rights_take {st : St B} : ∀ {spine : List Nat} {root : Nat} {as : List Nat} (k : Nat),
    rights st root spine = some as → rights st root (spine.take k) = some (as.take k)
  | [], root, as, k, h => by cases h; simp [rights]
  | n :: ns, root, as, 0, h => by simp [rights]
  | n :: ns, root, as, k + 1, h => by
    unfold rights at h
    split at h
    · rename_i l r hn
      split at h
      · rename_i hl
        obtain ⟨as1, h1, h2⟩ := Option.map_eq_some_iff.mp h
        subst h2
        rw [List.take_succ_cons, List.take_succ_cons, rights, hn]
        simp only [hl, if_true]
        rw [rights_take k h1]; rfl
      · cases h
    · cases h

omit [DecidableEq B] in
/-- If the node at the bottom of the spine is no function, the top of the spine is not evaluated. -/
theorem rights_head {st : St B} {c : Con} : ∀ {spine : List Nat} {root : Nat} {as bs : List Nat},
    rights st root spine = some as → Part st (spine.getLastD root) c bs → ∃ bs', Part st root c bs'
  | [], root, as, bs, _, hp => ⟨bs, hp⟩
  | n :: ns, root, as, bs, h, hp => by
    unfold rights at h
    split at h
    · rename_i l r hn
      split at h
      · rename_i hl
        obtain ⟨as1, h1, h2⟩ := Option.map_eq_some_iff.mp h
        rw [List.getLastD_cons] at hp
        obtain ⟨bs', g⟩ := rights_head h1 hp
        cases g with
        | con g => rw [hn] at g; cases g
        | app g g' => rw [hn] at g; cases g; subst hl; exact ⟨_, g'⟩
      · cases h
    · cases h

omit [DecidableEq B] in
theorem rights_node {st : St B} : ∀ {spine : List Nat} {root : Nat} {as : List Nat},
    rights st root spine = some as → spine ≠ [] → ∃ l r, st.node (spine.getLastD root) = some (.app l r)
  | [], root, as, _, h => absurd rfl h
  | n :: ns, root, as, h, _ => by
    unfold rights at h
    split at h
    · rename_i l r hn
      split at h
      · obtain ⟨as1, h1, h2⟩ := Option.map_eq_some_iff.mp h
        rw [List.getLastD_cons]
        by_cases hns : ns = []
        · subst hns; exact ⟨l, r, hn⟩
        · exact rights_node h1 hns
      · cases h
    · cases h

theorem getLastD_take {l : List Nat} {d x : Nat} {n : Nat} (h : l[n - 1]? = some x) (hn : 0 < n) :
    (l.take n).getLastD d = x := by
  obtain ⟨h1, h2⟩ := List.getElem?_eq_some_iff.mp h
  have hl : (l.take n).length = n := by simp; omega
  rw [List.getLastD_eq_getLast?, List.getLast?_eq_getElem?, hl, List.getElem?_take_of_lt (by omega), h]
  rfl

theorem getLastD_drop {l : List Nat} {d x : Nat} {n : Nat} (h : l[n - 1]? = some x) (hn : 0 < n) :
    (l.drop n).getLastD x = l.getLastD d := by
  obtain ⟨h1, h2⟩ := List.getElem?_eq_some_iff.mp h
  rw [List.getLastD_eq_getLast?, List.getLastD_eq_getLast?, List.getLast?_drop]
  split
  · rename_i hle
    rw [List.getLast?_eq_getElem?]
    have : l.length - 1 = n - 1 := by omega
    rw [this, h]; rfl
  · rename_i hle
    have : l ≠ [] := by intro h; subst h; simp at h1
    rw [List.getLast?_eq_some_getLast this]; rfl

/-! ### The reducer -/

omit [DecidableEq B] in
theorem part_ne_nil {st : St B} {n : Nat} {c : Con} {as : List Nat} (h : Part st n c as) (ha : as ≠ []) :
    ∃ l r as0, st.node n = some (.app l r) ∧ as = as0 ++ [r] ∧ Part st l c as0 := by
  cases h with
  | con h => exact absurd rfl ha
  | app h hp => exact ⟨_, _, _, h, rfl, hp⟩

theorem loop_ok {dt : Data A} {ext : Ext B} (ops : Ops A dt bs ext) {tr fo : St B → Nat → Option (St B × Nat)}
    (htr : TrOk A bs ext.arity tr) (hfo : FoOk A bs ext.arity fo) :
    ∀ (k : Nat) {st st' : St B} {root n : Nat} {spine : List Nat},
      loop bs ext tr fo k st root spine = some (st', n) → Inv ext.arity st →
      n = spine.getLastD root ∧ Whnf ext.arity st' n ∧ Step A bs ext.arity st st'
  | 0, _, _, _, _, _, h, _ => by cases h
  | k + 1, st, st', root, n, spine, h, hi => by
    unfold loop at h
    split at h
    · cases h
    · cases h
    · rename_i l r hn
      obtain ⟨g1, g2, g3⟩ := loop_ok ops htr hfo k h hi
      refine ⟨?_, g2, g3⟩
      rw [g1, List.getLastD_cons]
    · rename_i hn
      split at h
      · rename_i hs; subst hs; cases h
        exact ⟨rfl, .cons hn, StepF.refl _ _⟩
      · cases h
    · rename_i hn
      split at h
      · rename_i hs; subst hs; cases h
        exact ⟨rfl, .bool hn, StepF.refl _ _⟩
      · cases h
    · rename_i hn
      split at h
      · cases h
      · rename_i as hr hl
        cases h
        have : spine = [] := by simpa using hl
        subst this
        exact ⟨rfl, .fail hn, StepF.refl _ _⟩
      · rename_i as r hr hl
        cases h
        have hlast : spine.getLastD root = n := by
          rw [List.getLastD_eq_getLast?, hl]; rfl
        have hne : spine ≠ [] := by intro h; subst h; cases hl
        obtain ⟨l1, r1, hnode⟩ := rights_node hr hne
        rw [hlast] at hnode
        have hnw : ¬ Whnf ext.arity st n := by
          intro hw
          cases hw with
          | cons h' => rw [hnode] at h'; cases h'
          | bool h' => rw [hnode] at h'; cases h'
          | fail h' => rw [hnode] at h'; cases h'
          | leaf h' _ => rw [hnode] at h'; cases h'
          | part hp _ =>
            obtain ⟨_, hp'⟩ := rights_head hr (hlast.symm ▸ hp)
            cases hp' with
            | con h' => rw [hn] at h'; cases h'
            | app h' _ => rw [hn] at h'; cases h'
        have hlt := St.node_lt hnode
        refine ⟨hlast.symm, .fail (st.node_put_same hlt _ _), Step0.put_plain hnw _ hlt, fun _ v hv _ => ?_⟩
        exact ⟨v, hv.put _ trivial, fun _ _ => rfl⟩
    · rename_i c hn
      split at h
      · cases h
      · rename_i as hr
        simp only at h
        split at h
        · rename_i h0
          split at h
          · rename_i p
            have hnw : ¬ Whnf ext.arity st root := by
              intro hw
              cases hw with
              | cons h' => rw [hn] at h'; cases h'
              | bool h' => rw [hn] at h'; cases h'
              | fail h' => rw [hn] at h'; cases h'
              | leaf h' hl => rw [hn] at h'; cases h'; cases hl
              | part hp hl =>
                obtain ⟨e1, e2⟩ := Part.det (.con hn) hp
                subst e1; subst e2
                rw [h0] at hl; cases hl
            have hlt := St.node_lt hn
            have s1 : Step A bs ext.arity st (st.put root (ext.node p []) true) := by
              refine ⟨Step0.put hnw _ _ hlt (fun _ st' h' => ext_node_whnf ext p [] st' root h'), fun _ v hv _ => ?_⟩
              refine ⟨v, hv.put _ (ext_node_val ops (p := p) (ss := []) h0.symm (fun e => ?_)), fun _ _ => rfl⟩
              exact hv _ _ hn e
            obtain ⟨g1, g2, g3⟩ := loop_ok ops htr hfo k h (s1.base.inv hi)
            exact ⟨g1, g2, s1.trans g3 (fun _ _ _ _ _ _ => trivial)⟩
          · rename_i hnp
            split at h
            · rename_i hs; subst hs; cases h
              refine ⟨rfl, .leaf hn ?_, StepF.refl _ _⟩
              cases c <;> first | rfl | (exact absurd rfl (hnp _)) | (simp [arity] at h0)
            · cases h
        · rename_i h0
          obtain ⟨hp, hlen⟩ := rights_part (.con hn) hr
          split at h
          · rename_i hlt
            cases h
            exact ⟨rfl, .part hp (by simpa [hlen] using hlt), StepF.refl _ _⟩
          · rename_i hlt
            split at h
            · cases h
            · rename_i redex hred
              split at h
              · cases h
              · rename_i old hold
                split at h
                · cases h
                · rename_i st1 hf
                  have hpos : 0 < arity ext.arity c := by omega
                  obtain ⟨hp1, hlen1⟩ := rights_part (.con hn) (rights_take (arity ext.arity c) hr)
                  rw [getLastD_take hred hpos, List.nil_append] at hp1
                  have hl2 : (as.take (arity ext.arity c)).length = arity ext.arity c := by
                    rw [hlen1]; simp; omega
                  obtain ⟨l, r, as0, q1, q2, q3⟩ := part_ne_nil hp1 (by
                    intro h; rw [h] at hl2; simp at hl2; omega)
                  rw [hold] at q1; cases q1
                  have hro : RedexOf ext.arity st (.app l r) c (as.take (arity ext.arity c)) :=
                    ⟨l, r, as0, rfl, q2, q3, by rw [q2] at hl2; simpa using hl2⟩
                  have s1 := fire_step ops htr hfo hf hi hold hro
                  obtain ⟨g1, g2, g3⟩ := loop_ok ops htr hfo k h (s1.base.inv hi)
                  exact ⟨g1.trans (getLastD_drop hred hpos), g2, s1.trans g3 (fun _ _ _ _ _ _ => trivial)⟩

omit [DecidableEq B] in
/-- A list or pair whose forcing fails. -/
theorem fail_step {st : St B} {n : Nat}
    (h : (∃ a b, st.node n = some (.cons a b)) ∨ st.node n = some .fail) :
    Step A bs ar st (st.put n .fail false) := by
  have hlt : n < st.size := by
    rcases h with ⟨a, b, h⟩ | h
    · exact St.node_lt h
    · exact St.node_lt h
  have hs : Stable ar st (st.put n .fail false) := by
    intro m hm
    by_cases hmn : m = n
    · subst hmn
      rcases h with h | h
      · exact .inr ⟨h, st.node_put_same hlt _ _⟩
      · exact .inl ((st.node_put_same hlt _ _).trans h.symm)
    · exact .inl (st.node_put_ne hmn _ _)
  refine ⟨⟨Nat.le_of_eq (st.size_put _ _ _).symm, hs, fun hi m hm => ?_, id⟩,
    fun _ v hv _ => ⟨v, hv.put _ trivial, fun _ _ => rfl⟩⟩
  by_cases hmn : m = n
  · subst hmn; exact .fail (st.node_put_same hlt _ _)
  · rw [st.forced_put_ne hmn] at hm; exact hs.whnf (hi m hm)

omit [DecidableEq B] in
theorem mark_step {st : St B} {n : Nat} (h : Whnf ar st n) : Step A bs ar st (st.mark n) := by
  refine ⟨Step0.mark h, fun _ v hv _ => ⟨v, ?_, fun _ _ => rfl⟩⟩
  intro m nd hm
  rw [st.node_mark] at hm
  rw [st.size_mark]; exact hv m nd hm

omit [DecidableEq B] in
theorem stable_cons {st st' : St B} {n : Nat} (hs : Stable ar st st')
    (h : (∃ a b, st.node n = some (.cons a b)) ∨ st.node n = some .fail) :
    (∃ a b, st'.node n = some (.cons a b)) ∨ st'.node n = some .fail := by
  rcases h with ⟨a, b, h⟩ | h
  · rcases hs n (.cons h) with g | ⟨_, g⟩
    · exact .inl ⟨a, b, g.trans h⟩
    · exact .inr g
  · rcases hs n (.fail h) with g | ⟨_, g⟩
    · exact .inr (g.trans h)
    · exact .inr g

omit [DecidableEq B] in
theorem forceLoop_ok {tr : St B → Nat → Option (St B × Nat)} (htr : TrOk A bs ar tr) (node : Nat) :
    ∀ (k : Nat) {st st' : St B} {todo : List Nat} {n : Nat},
      forceLoop tr node k st todo = some (st', n) → Inv ar st →
      ((∃ a b, st.node node = some (.cons a b)) ∨ st.node node = some .fail) ∨ todo = [] →
      n = node ∧ Step A bs ar st st'
  | 0, _, _, _, _, h, _, _ => by cases h
  | k + 1, st, st', [], n, h, hi, _ => by cases h; exact ⟨rfl, StepF.refl _ _⟩
  | k + 1, st, st', cur :: todo, n, h, hi, hz0 => by
    have hz := hz0.resolve_right (by simp)
    clear hz0
    unfold forceLoop at h
    split at h
    · exact forceLoop_ok htr node k h hi (.inl hz)
    · split at h
      · cases h
      · rename_i st1 cur1 h1
        obtain ⟨e1, hw, hs⟩ := htr _ _ _ _ h1 hi
        subst e1
        have hz1 := stable_cons hs.base.stable hz
        split at h
        · cases h
          exact ⟨rfl, hs.trans (fail_step hz1) (fun _ _ _ _ _ _ => trivial)⟩
        · have s2 : Step A bs ar st (st1.mark cur1) := hs.trans (mark_step hw) (fun _ _ _ _ _ _ => trivial)
          have hz2 : (∃ a b, (st1.mark cur1).node node = some (.cons a b)) ∨
              (st1.mark cur1).node node = some .fail := by rw [st1.node_mark]; exact hz1
          simp only at h
          split at h
          · obtain ⟨g1, g2⟩ := forceLoop_ok htr node k h (s2.base.inv hi) (.inl hz2)
            exact ⟨g1, s2.trans g2 (fun _ _ _ _ _ _ => trivial)⟩
          · obtain ⟨g1, g2⟩ := forceLoop_ok htr node k h (s2.base.inv hi) (.inl hz2)
            exact ⟨g1, s2.trans g2 (fun _ _ _ _ _ _ => trivial)⟩

omit [DecidableEq B] in
theorem force_ok {tr : St B → Nat → Option (St B × Nat)} (htr : TrOk A bs ar tr) (k : Nat) :
    FoOk A bs ar (force tr k) := by
  intro st node st' n h hi
  unfold force at h
  split at h
  · cases h; exact ⟨rfl, StepF.refl _ _⟩
  · rename_i hnf
    cases k with
    | zero => cases h
    | succ k =>
      unfold forceLoop at h
      rw [if_neg hnf] at h
      split at h
      · cases h
      · rename_i st1 cur1 h1
        obtain ⟨e1, hw, hs⟩ := htr _ _ _ _ h1 hi
        subst e1
        split at h
        · rename_i hf
          cases h
          rw [St.isFail_iff] at hf
          exact ⟨rfl, hs.trans (fail_step (.inr hf)) (fun _ _ _ _ _ _ => trivial)⟩
        · have s2 : Step A bs ar st (st1.mark cur1) := hs.trans (mark_step hw) (fun _ _ _ _ _ _ => trivial)
          simp only at h
          split at h
          · rename_i a b hn
            obtain ⟨g1, g2⟩ := forceLoop_ok htr cur1 k h (s2.base.inv hi) (.inl (.inl ⟨a, b, hn⟩))
            exact ⟨g1, s2.trans g2 (fun _ _ _ _ _ _ => trivial)⟩
          · obtain ⟨g1, g2⟩ := forceLoop_ok htr cur1 k h (s2.base.inv hi) (.inr rfl)
            exact ⟨g1, s2.trans g2 (fun _ _ _ _ _ _ => trivial)⟩

theorem trav_ok {dt : Data A} {ext : Ext B} (ops : Ops A dt bs ext) : ∀ k : Nat, TrOk A bs ext.arity (trav bs ext k)
  | 0 => fun _ _ _ _ h _ => by cases h
  | k + 1 => fun st n st' n' h hi => by
    unfold trav at h
    split at h
    · rename_i hf; cases h
      exact ⟨rfl, hi n hf, StepF.refl _ _⟩
    · obtain ⟨g1, g2, g3⟩ := loop_ok ops (trav_ok ops k) (force_ok (trav_ok ops k) k) k h hi
      have : n' = n := g1
      subst this
      exact ⟨rfl, g2, g3⟩

/-! ### Loading code -/

omit [DecidableEq B] in
theorem alloc_leaf {v : Nat → E → D} {st : St B} (hv : Describes A bs v st) (nd : Node B) (mk : Bool) (d : E → D)
    (hd : ∀ (w : Nat → E → D) s n, (∀ e, w n e = d e) → Holds A bs s w n nd) :
    ∃ v', Describes A bs v' (st.alloc nd mk).1 ∧ (∀ m < st.size, v' m = v m) ∧ ∀ e, v' st.size e = d e :=
  ⟨_, hv.alloc mk d (hd _ _ _ (fun e => by rw [extend_eq])), fun m hm => extend_lt v _ hm, fun e => by rw [extend_eq]⟩

omit [DecidableEq B] in
theorem load_ok {link : Name → Option Nat} {ρ : E → Env D} : ∀ (c : Code) {st st' : St B} {n : Nat}
    {v : Nat → E → D}, load bs link c st = some (st', n) → Describes A bs v st →
    (∀ x m, link x = some m → m < st.size ∧ ∀ e, ρ e x = v m e) →
    Step0 ar st st' ∧ st'.taint = st.taint ∧ n < st'.size ∧ ∃ v', Describes A bs v' st' ∧ (∀ m < st.size, v' m = v m) ∧
      ∀ e, v' n e = c.ev A (ρ e)
  | .var x, st, st', n, v, h, hv, hl => by
    obtain ⟨m, h1, h2⟩ := Option.map_eq_some_iff.mp h
    cases h2
    obtain ⟨g1, g2⟩ := hl x n h1
    exact ⟨Step0.refl _ _, rfl, g1, v, hv, fun _ _ => rfl, fun e => (g2 e).symm⟩
  | .con c, st, st', n, v, h, hv, _ => by
    have fin : ∀ (nd : Node B) (mk : Bool), st.alloc nd mk = (st', n) →
        (mk = true → ∀ (st' : St B) n, st'.node n = some nd → Whnf ar st' n) →
        (∀ (w : Nat → E → D) s n, (∀ e, w n e = A.con c) → Holds A bs s w n nd) →
        Step0 ar st st' ∧ st'.taint = st.taint ∧ n < st'.size ∧ ∃ v', Describes A bs v' st' ∧
          (∀ m < st.size, v' m = v m) ∧ ∀ e, v' n e = (Code.con c).ev A (ρ e) := by
      intro nd mk h hmk hd
      obtain ⟨v', g1, g2, g3⟩ := alloc_leaf hv nd mk (fun _ => A.con c) hd
      have e1 : st' = (st.alloc nd mk).1 := by rw [h]
      have e2 : n = st.size := by rw [← st.alloc_id nd mk, h]
      subst e1; subst e2
      exact ⟨Step0.alloc _ _ _ _ hmk, rfl, by rw [st.size_alloc]; omega, v', g1, g2, g3⟩
    cases c with
    | tt =>
      refine fin _ _ (Option.some.inj h) (fun _ st' n hn => .bool hn) (fun w s n hw e => ?_)
      rw [hw e, bs.sat_one]; rfl
    | ff =>
      refine fin _ _ (Option.some.inj h) (fun _ st' n hn => .bool hn) (fun w s n hw e => ?_)
      rw [hw e, bs.sat_zero]; rfl
    | int i => exact fin _ _ (Option.some.inj h) (fun _ st' n hn => .leaf hn rfl) (fun w s n hw e => hw e)
    | str i => exact fin _ _ (Option.some.inj h) (fun _ st' n hn => .leaf hn rfl) (fun w s n hw e => hw e)
    | _ => exact fin _ _ (Option.some.inj h) (fun h => nomatch h) (fun w s n hw e => hw e)
  | .app a b, st, st', n, v, h, hv, hl => by
    unfold load at h
    split at h
    · cases h
    · rename_i st1 l h1
      obtain ⟨s1, t1, l1, v1, d1, e1, f1⟩ := load_ok (ρ := ρ) a h1 hv hl
      split at h
      · cases h
      · rename_i st2 r h2
        obtain ⟨s2, t2, l2, v2, d2, e2, f2⟩ := load_ok (ρ := ρ) b h2 d1 (fun x m hm => by
          obtain ⟨g1, g2⟩ := hl x m hm
          exact ⟨Nat.lt_of_lt_of_le g1 s1.size, fun e => by rw [e1 _ g1]; exact g2 e⟩)
        have z2 := s2.size
        have z1 := s1.size
        obtain ⟨v3, d3, e3, f3⟩ := d2.alloc_ex (l := l) (r := r) (by omega) l2
        have sz := st2.size_alloc (.app l r) false
        cases h
        refine ⟨(s1.trans s2).trans (Step0.alloc_plain _ _ _), t2.trans t1, ?_, v3, d3, fun m hm => ?_, fun e => ?_⟩
        · show st2.size < (st2.alloc (.app l r) false).1.size
          omega
        · rw [e3 m (by omega), e2 m (by omega), e1 m hm]
        · show v3 st2.size e = _
          rw [f3 e, f2 e, e2 _ l1, f1 e]; rfl

omit [DecidableEq B] in
/-- What is read from a heap is the value. -/
theorem reads_val {v : Nat → E → D} {st : St B} (hv : Describes A bs v st) (e : E) : ∀ (d : Dat) (n : Nat),
    Reads bs st e n d → v n e = d.val A
  | .int i, n, h => hv _ _ h e
  | .str s, n, h => hv _ _ h e
  | .bool b, n, ⟨f, h1, h2⟩ => by rw [hv _ _ h1 e, h2]; rfl
  | .nil, n, h => hv _ _ h e
  | .cons a b, n, ⟨x, y, h1, h2, h3⟩ => by
    rw [(hv _ _ h1).2.2 e, reads_val hv e a x h2, reads_val hv e b y h3]; rfl

theorem evaluate_ok {dt : Data A} {ext : Ext B} (ops : Ops A dt bs ext) {k : Nat} {link : Name → Option Nat}
    {ρ : E → Env D} {c : Code} {st st' : St B} {n : Nat} {v : Nat → E → D}
    (h : evaluate bs ext k link c st = some (st', n)) (hi : Inv ext.arity st) (hv : Describes A bs v st)
    (hl : ∀ x m, link x = some m → m < st.size ∧ ∀ e, ρ e x = v m e) (ht : st'.taint = false) :
    Inv ext.arity st' ∧ ∃ v', Describes A bs v' st' ∧ (∀ m < st.size, v' m = v m) ∧ ∀ e, v' n e = c.ev A (ρ e) := by
  unfold evaluate at h
  split at h
  · cases h
  · rename_i st1 n1 h1
    obtain ⟨s1, _, l1, v1, d1, e1, f1⟩ := load_ok (ar := ext.arity) (ρ := ρ) c h1 hv hl
    obtain ⟨g1, g2⟩ := force_ok (trav_ok ops k) k _ _ _ _ h (s1.inv hi)
    subst g1
    obtain ⟨v2, d2, e2⟩ := g2.val ht v1 d1 trivial
    have := s1.size
    exact ⟨g2.base.inv (s1.inv hi), v2, d2, fun m hm => by rw [e2 m (by omega), e1 m hm], fun e => by
      rw [e2 _ l1, f1 e]⟩

end Voss.Fl
