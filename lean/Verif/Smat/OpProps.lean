import Verif.Smat.Props
/-
C101: operations on symbolic matrices.
-/
namespace Voss.Smat
open Voss.Pre

variable {o : Order}

/-- Both substitutions of indices. -/
theorem both_spec {sm : SMat o} {rn cn : List String} (h : Indexed sm rn cn) (row col : List (Fn o)) :
    ∃ s1 s2 w, mkSub sm.ridx row = .ok s1 ∧ mkSub sm.cidx col = .ok s2 ∧ substitute (s1 ++ s2) sm.v = .ok w ∧ w ≠ [] ∧
      ∀ η, 0 ≤ Bv.sv row η → Bv.sv row η < 2 ^ rn.length → 0 ≤ Bv.sv col η → Bv.sv col η < 2 ^ cn.length →
        Bv.sv w η = entry sm rn cn η (Bv.sv row η).toNat (Bv.sv col η).toNat := by
  obtain ⟨f1, a1, a2, _, a3⟩ := mkSub_eq (o := o) rn row
  obtain ⟨f2, b1, b2, _, b3⟩ := mkSub_eq (o := o) cn col
  obtain ⟨w, w1, w2, w3⟩ := sv_substitute (rn.zip f1 ++ cn.zip f2) (l := sm.v)
    (by rw [List.map_append, zip_fst a2, zip_fst b2]; exact h.nodup) h.some
  refine ⟨_, _, w, by rw [h.ridx]; exact a1, by rw [h.cidx]; exact b1, w1, w2, fun η h1 h2 h3 h4 => ?_⟩
  rw [w3, under_zip _ η _ rn f1 (a3 η h1 h2)]
  have := under_zip [] η _ cn f2 (b3 η h3 h4)
  rw [List.append_nil] at this
  rw [this]
  rfl

/-- C101: `get_element` at any index that is not negative, which may depend on any variables: the element, and zero outside
of the matrix. -/
theorem c101_get_partial (sm : SMat o) (rn cn : List String) (h : Indexed sm rn cn) (row col : List (Fn o)) (hr : row ≠ [])
    (hc : col ≠ []) : ∃ r, getElement sm row col = .ok r ∧ r ≠ [] ∧ ∀ η, 0 ≤ Bv.sv row η → 0 ≤ Bv.sv col η →
      Bv.sv r η = if Bv.sv row η < sm.rows ∧ Bv.sv col η < sm.cols then
        entry sm rn cn η (Bv.sv row η).toNat (Bv.sv col η).toNat else 0 := by
  obtain ⟨c1, p1, p2⟩ := geq_spec hr (intBv_ne_nil (o := o) (sm.rows : Int))
  obtain ⟨c2, q1, q2⟩ := geq_spec hc (intBv_ne_nil (o := o) (sm.cols : Int))
  obtain ⟨s1, s2, w, w1, w2, w3, w4, w5⟩ := both_spec h row col
  have hrows : (sm.rows : Int) ≤ 2 ^ rn.length := by exact_mod_cast h.rows
  have hcols : (sm.cols : Int) ≤ 2 ^ cn.length := by exact_mod_cast h.cols
  have key : Slist.Yields True (getElement sm row col) fun r => r ≠ [] ∧ ∀ η, (Fn.tt o).ev η = true →
      (0 ≤ Bv.sv row η → 0 ≤ Bv.sv col η → Bv.sv r η = if Bv.sv row η < sm.rows ∧ Bv.sv col η < sm.cols then
        entry sm rn cn η (Bv.sv row η).toNat (Bv.sv col η).toNat else 0) := by
    have hm : ∀ (c : Fn o) (x y : List (Fn o)), x ≠ [] → y ≠ [] → Slist.Yields True (mergeBv c x y) fun z => z ≠ [] ∧
        ∀ η, (c.ev η = true → (0 ≤ Bv.sv row η → 0 ≤ Bv.sv col η → Bv.sv x η = if Bv.sv row η < sm.rows ∧ Bv.sv col η < sm.cols then
            entry sm rn cn η (Bv.sv row η).toNat (Bv.sv col η).toNat else 0) → (0 ≤ Bv.sv row η → 0 ≤ Bv.sv col η →
            Bv.sv z η = if Bv.sv row η < sm.rows ∧ Bv.sv col η < sm.cols then
            entry sm rn cn η (Bv.sv row η).toNat (Bv.sv col η).toNat else 0)) ∧
          (c.ev η = false → (0 ≤ Bv.sv row η → 0 ≤ Bv.sv col η → Bv.sv y η = if Bv.sv row η < sm.rows ∧ Bv.sv col η < sm.cols then
            entry sm rn cn η (Bv.sv row η).toNat (Bv.sv col η).toNat else 0) → (0 ≤ Bv.sv row η → 0 ≤ Bv.sv col η →
            Bv.sv z η = if Bv.sv row η < sm.rows ∧ Bv.sv col η < sm.cols then
            entry sm rn cn η (Bv.sv row η).toNat (Bv.sv col η).toNat else 0)) := by
      intro c x y hx hy
      refine ⟨Bv.iteList_ne_nil _ _ _ hx hy, fun η => ⟨fun h1 h2 h3 h4 => ?_, fun h1 h2 h3 h4 => ?_⟩⟩
      · rw [Bv.sv_iteList c x y hx hy η, show Bv.Fml.den c η = true from h1, ← h2 h3 h4]; rfl
      · rw [Bv.sv_iteList c x y hx hy η, show Bv.Fml.den c η = false from h1, ← h2 h3 h4]; rfl
    unfold getElement
    rw [p1, of_some, bind_ok]
    refine Slist.branch_yields (R := fun x => x ≠ []) ⟨fun _ => true, rfl⟩ ?_ ?_ (hm c1)
    · intro p' _ h2
      refine ⟨intBv_ne_nil 0, fun η hη _ _ => ?_⟩
      have := ((h2 η).1 hη).2
      rw [p2, sv_intBv] at this
      rw [sv_intBv, if_neg]
      intro hcon
      simp at this
      omega
    · intro p' h1 h2
      rw [q1, of_some, bind_ok]
      refine Slist.branch_yields (R := fun x => x ≠ []) h1 ?_ ?_ (hm c2)
      · intro p'' _ h4
        refine ⟨intBv_ne_nil 0, fun η hη _ _ => ?_⟩
        have := ((h4 η).1 hη).2
        rw [q2, sv_intBv] at this
        rw [sv_intBv, if_neg]
        intro hcon
        simp at this
        omega
      · intro p'' _ h4
        rw [w1, bind_ok, w2, bind_ok, w3]
        refine ⟨w4, fun η hη g1 g2 => ?_⟩
        have a := ((h4 η).1 hη)
        have b := ((h2 η).1 a.1).2
        have a := a.2
        rw [q2, sv_intBv] at a
        rw [p2, sv_intBv] at b
        simp at a b
        rw [if_pos ⟨b, a⟩]
        exact w5 η g1 (by omega) g2 (by omega)
  obtain ⟨r, r1, r2, r3⟩ := key.exists trivial
  exact ⟨r, r1, r2, fun η => r3 η rfl⟩

/-- C101: `set_element`: the element at the index, which may depend on other variables, is the new one, and the others are
as before.  If the index is in the matrix, the elements outside are as before. -/
theorem c101_set (sm : SMat o) (rn cn : List String) (h : Indexed sm rn cn) (row col new : List (Fn o)) (hr : row ≠ [])
    (hc : col ≠ []) (hn : new ≠ []) (hi : ∀ n ∈ rn ++ cn, Independent row n ∧ Independent col n ∧ Independent new n) :
    ∃ m, setElement sm row col new = .ok m ∧ m.rows = sm.rows ∧ m.cols = sm.cols ∧ Indexed m rn cn ∧
      (∀ η i j, i < 2 ^ rn.length → j < 2 ^ cn.length → entry m rn cn η i j =
        if Bv.sv row η = i ∧ Bv.sv col η = j then Bv.sv new η else entry sm rn cn η i j) ∧
      (ZeroOutside sm rn cn → (∀ η, Bv.sv row η < sm.rows ∧ Bv.sv col η < sm.cols) → ZeroOutside m rn cn) ∧
      (∀ n, n ∉ rn ++ cn → Independent row n → Independent col n → Independent new n → Independent sm.v n →
        Independent m.v n) := by
  obtain ⟨c1, p1, p2⟩ := eq_spec hr h.ridx_ne
  obtain ⟨c2, q1, q2⟩ := eq_spec hc h.cidx_ne
  obtain ⟨x, x1, x2, x3⟩ := branch_top (c1.and c2) (x := new) (y := sm.v) (t := fun _ => .ok new) (e := fun _ => .ok sm.v) hn h.some
    (fun _ => rfl) (fun _ => rfl)
  have hx : ∀ η, Bv.sv x η = if Bv.sv row η = Bv.sv sm.ridx η ∧ Bv.sv col η = Bv.sv sm.cidx η then Bv.sv new η else Bv.sv sm.v η :=
    fun η => by rw [x3, Fn.and_ev, p2, q2]; simp
  have hent : ∀ η i j, i < 2 ^ rn.length → j < 2 ^ cn.length → entry { sm with v := x } rn cn η i j =
      if Bv.sv row η = i ∧ Bv.sv col η = j then Bv.sv new η else entry sm rn cn η i j := by
    intro η i j hi' hj'
    unfold entry
    dsimp only
    rw [hx, h.row_at hi' j η, h.col_at i hj' η, indep_cell fun n hn => (hi n hn).1, indep_cell fun n hn => (hi n hn).2.1,
      indep_cell fun n hn => (hi n hn).2.2]
  refine ⟨{ sm with v := x }, ?_, rfl, rfl, ⟨h.ridx, h.cidx, h.nodup, h.rowVar, h.colVar, h.rows, h.cols, x2⟩, hent, ?_, ?_⟩
  · unfold setElement
    rw [p1, of_some, bind_ok, q1, of_some, bind_ok, x1, bind_ok]
  · intro hz hin η i j hi' hj' hout
    rw [hent η i j hi' hj', if_neg]
    · exact hz η i j hi' hj' hout
    · intro ⟨a, b⟩
      have := hin η
      dsimp only at hout
      omega
  · intro n hn' i1 i2 i3 i4 η b
    simp only [List.mem_append, not_or] at hn'
    dsimp only
    rw [hx, hx, i1, i2, i3, i4, h.ridx_indep hn'.1, h.cidx_indep hn'.2]

/-- C101: `maybe_set_element` counts, and sets the element unless the count is one of the listed values. -/
theorem c101_maybe_set (fails : List (List (Fn o))) (cnt : List (Fn o)) (sm : SMat o) (rn cn : List String) (h : Indexed sm rn cn)
    (row col new : List (Fn o)) (hr : row ≠ []) (hc : col ≠ []) (hn : new ≠ []) (hcnt : cnt ≠ []) (hf : ∀ f ∈ fails, f ≠ [])
    (hi : ∀ n ∈ rn ++ cn, Independent row n ∧ Independent col n ∧ Independent new n ∧ Independent cnt n ∧
      ∀ f ∈ fails, Independent f n) :
    ∃ cnt' m, maybeSetElement fails cnt sm row col new = .ok (cnt', m) ∧ cnt' ≠ [] ∧ (∀ η, Bv.sv cnt' η = Bv.sv cnt η + 1) ∧
      m.rows = sm.rows ∧ m.cols = sm.cols ∧ Indexed m rn cn ∧
      (∀ η i j, i < 2 ^ rn.length → j < 2 ^ cn.length → entry m rn cn η i j =
        if (∀ f ∈ fails, Bv.sv f η ≠ Bv.sv cnt η) ∧ Bv.sv row η = i ∧ Bv.sv col η = j then Bv.sv new η
        else entry sm rn cn η i j) := by
  obtain ⟨c1, p1, p2⟩ := eq_spec hr h.ridx_ne
  obtain ⟨c2, q1, q2⟩ := eq_spec hc h.cidx_ne
  obtain ⟨d, d1, d2⟩ : ∃ d, (fails.foldr (fun c (r : Out (Fn o)) => r.bind fun r =>
      (Out.ofOption (Bv.bvEq c cnt)).bind fun e => .ok (e.or r)) (Out.ok (Fn.ff o))) = .ok d ∧
      ∀ η, d.ev η = true ↔ ∃ f ∈ fails, Bv.sv f η = Bv.sv cnt η := by
    clear hi
    induction fails with
    | nil => exact ⟨_, rfl, fun η => by simp⟩
    | cons f l ih =>
      obtain ⟨d, d1, d2⟩ := ih fun f hf' => hf f (by simp [hf'])
      obtain ⟨e, e1, e2⟩ := eq_spec (hf f (by simp)) hcnt
      refine ⟨e.or d, ?_, fun η => ?_⟩
      · rw [List.foldr_cons, d1, bind_ok, e1, of_some, bind_ok]
      · rw [Fn.or_ev, Bool.or_eq_true, e2, d2]
        simp
  obtain ⟨x, x1, x2, x3⟩ := branch_top ((d.not.and c1).and c2) (x := new) (y := sm.v) (t := fun _ => .ok new) (e := fun _ => .ok sm.v)
    hn h.some (fun _ => rfl) (fun _ => rfl)
  obtain ⟨k, k1, _, k2⟩ := (Bv.c08_add_sub cnt (intBv o 1) hcnt (intBv_ne_nil 1)).1
  refine ⟨k, { sm with v := x }, ?_, Slist.bvAdd_ne_nil hcnt (intBv_ne_nil 1) k1, fun η => by rw [k2, sv_intBv], rfl, rfl,
    ⟨h.ridx, h.cidx, h.nodup, h.rowVar, h.colVar, h.rows, h.cols, x2⟩, fun η i j hi' hj' => ?_⟩
  · unfold maybeSetElement
    rw [d1, bind_ok, p1, of_some, bind_ok, q1, of_some, bind_ok, x1, bind_ok, k1, of_some, bind_ok]
  · have hd : d.ev (load rn i (load cn j η)) = true ↔ ∃ f ∈ fails, Bv.sv f η = Bv.sv cnt η := by
      rw [d2]
      refine exists_congr fun f => and_congr_right fun hf' => ?_
      rw [indep_cell fun n hn => (hi n hn).2.2.2.1, indep_cell fun n hn => (hi n hn).2.2.2.2 f hf']
    unfold entry
    dsimp only
    rw [x3, Fn.and_ev, Fn.and_ev, Fn.not_ev, p2, q2, h.row_at hi' j η, h.col_at i hj' η, indep_cell fun n hn => (hi n hn).1,
      indep_cell fun n hn => (hi n hn).2.1, indep_cell fun n hn => (hi n hn).2.2.1]
    refine if_congr ?_ rfl rfl
    rw [Bool.and_eq_true, Bool.and_eq_true, decide_eq_true_eq, decide_eq_true_eq, Bool.not_eq_true', ← Bool.not_eq_true, hd]
    push Not
    exact ⟨fun ⟨⟨a, b⟩, c⟩ => ⟨a, b, c⟩, fun ⟨a, b, c⟩ => ⟨⟨a, b⟩, c⟩⟩

/-- The two operations. -/
theorem op_spec {op : List (Fn o) → List (Fn o) → Option (List (Fn o))} {f : Int → Int → Int}
    (hop : ∀ a b : List (Fn o), a ≠ [] → b ≠ [] → ∃ r, op a b = some r ∧ r ≠ [] ∧ ∀ η, Bv.sv r η = f (Bv.sv a η) (Bv.sv b η))
    (m1 m2 : SMat o) (rn cn : List String) (h1 : Indexed m1 rn cn) (h2 : Indexed m2 rn cn) (hr : m1.rows = m2.rows)
    (hc : m1.cols = m2.cols) : ∃ m, matOp op m1 m2 = .ok m ∧ m.rows = m1.rows ∧ m.cols = m1.cols ∧ Indexed m rn cn ∧
      ∀ η, Bv.sv m.v η = f (Bv.sv m1.v η) (Bv.sv m2.v η) := by
  obtain ⟨x, x1, x2, x3⟩ := hop m1.v m2.v h1.some h2.some
  refine ⟨{ m1 with v := x }, ?_, rfl, rfl, ⟨h1.ridx, h1.cidx, h1.nodup, h1.rowVar, h1.colVar, h1.rows, h1.cols, x2⟩, x3⟩
  obtain ⟨c1, p1, p2⟩ := eq_spec h1.ridx_ne h2.ridx_ne
  obtain ⟨c2, q1, q2⟩ := eq_spec h1.cidx_ne h2.cidx_ne
  have e1 : c1.not = Fn.ff o := Fn.ext fun η => by rw [Fn.not_ev, p2, h1.ridx, h2.ridx]; simp
  have e2 : c2.not = Fn.ff o := Fn.ext fun η => by rw [Fn.not_ev, q2, h1.cidx, h2.cidx]; simp
  have hft : Fn.ff o ≠ Fn.tt o := fun h => by
    have := congrArg (fun f => f.ev fun _ => true) h
    exact absurd this (by show false ≠ true; simp)
  unfold matOp
  rw [if_neg (by simp [hr]), if_neg (by simp [hc]), p1, of_some, bind_ok, branch, if_neg (by rw [e1]; exact hft), if_pos e1, q1, of_some, bind_ok,
    branch, if_neg (by rw [e2]; exact hft), if_pos e2, x1, of_some, bind_ok]

theorem op_fail (op : List (Fn o) → List (Fn o) → Option (List (Fn o))) (m1 m2 : SMat o) (rn cn rn' cn' : List String)
    (h1 : Indexed m1 rn cn) (h2 : Indexed m2 rn' cn')
    (h : m1.rows ≠ m2.rows ∨ m1.cols ≠ m2.cols ∨ (∃ η, Bv.sv m1.ridx η ≠ Bv.sv m2.ridx η) ∨ ∃ η, Bv.sv m1.cidx η ≠ Bv.sv m2.cidx η) :
    matOp op m1 m2 = .fail := by
  unfold matOp
  by_cases hr : m1.rows ≠ m2.rows
  · rw [if_pos hr]
  rw [if_neg hr]
  by_cases hc : m1.cols ≠ m2.cols
  · rw [if_pos hc]
  rw [if_neg hc]
  obtain ⟨c1, p1, p2⟩ := eq_spec h1.ridx_ne h2.ridx_ne
  obtain ⟨c2, q1, q2⟩ := eq_spec h1.cidx_ne h2.cidx_ne
  have key : ∀ (p c : Fn o) (e : Fn o → Out (SMat o)), p.and c.not ≠ Fn.ff o → branch p c.not (fun _ => .fail) e mergeNone = .fail := by
    intro p c e hne
    unfold branch
    by_cases a1 : c.not = Fn.tt o
    · rw [if_pos a1]
    rw [if_neg a1, if_neg, if_neg hne]
    · split <;> rfl
    · intro h
      refine hne (Fn.ext fun η => ?_)
      rw [h]
      simp
  rw [p1, of_some, bind_ok]
  by_cases hri : ∃ η, Bv.sv m1.ridx η ≠ Bv.sv m2.ridx η
  · obtain ⟨η, hη⟩ := hri
    refine key _ _ _ fun h => ?_
    have := congrArg (fun f => f.ev η) h
    rw [Fn.and_ev, Fn.not_ev, p2] at this
    simp [hη] at this
  · push Not at hri
    obtain ⟨η, hη⟩ : ∃ η, Bv.sv m1.cidx η ≠ Bv.sv m2.cidx η := by
      rcases h with h | h | h | h
      · exact absurd h hr
      · exact absurd h hc
      · obtain ⟨η, h⟩ := h
        exact absurd (hri η) h
      · exact h
    have e1 : c1.not = Fn.ff o := Fn.ext fun η => by rw [Fn.not_ev, p2, hri]; simp
    have hft : Fn.ff o ≠ Fn.tt o := fun h => by
      have := congrArg (fun f => f.ev fun _ => true) h
      exact absurd this (by show false ≠ true; simp)
    rw [branch, if_neg (by rw [e1]; exact hft), if_pos e1, q1, of_some, bind_ok]
    refine key _ _ _ fun h => ?_
    have := congrArg (fun f => f.ev η) h
    rw [Fn.and_ev, Fn.not_ev, q2] at this
    simp [hη] at this

/-- C101: addition and subtraction, element by element, of matrices of the same size with the same index variables;
they fail for different sizes and for different indices. -/
theorem c101_add_sub (m1 m2 : SMat o) (rn cn : List String) (h1 : Indexed m1 rn cn) :
    (Indexed m2 rn cn → m1.rows = m2.rows → m1.cols = m2.cols →
      (∃ m, matAdd m1 m2 = .ok m ∧ m.rows = m1.rows ∧ m.cols = m1.cols ∧ Indexed m rn cn ∧
        (∀ η i j, entry m rn cn η i j = entry m1 rn cn η i j + entry m2 rn cn η i j) ∧
        ∀ n, Independent m1.v n → Independent m2.v n → Independent m.v n) ∧
      (∃ m, matSub m1 m2 = .ok m ∧ m.rows = m1.rows ∧ m.cols = m1.cols ∧ Indexed m rn cn ∧
        (∀ η i j, entry m rn cn η i j = entry m1 rn cn η i j - entry m2 rn cn η i j) ∧
        ∀ n, Independent m1.v n → Independent m2.v n → Independent m.v n)) ∧
    (∀ rn' cn', Indexed m2 rn' cn' → (m1.rows ≠ m2.rows ∨ m1.cols ≠ m2.cols ∨ (∃ η, Bv.sv m1.ridx η ≠ Bv.sv m2.ridx η) ∨
      ∃ η, Bv.sv m1.cidx η ≠ Bv.sv m2.cidx η) → matAdd m1 m2 = .fail ∧ matSub m1 m2 = .fail) := by
  refine ⟨fun h2 hr hc => ⟨?_, ?_⟩, fun rn' cn' h2 h => ⟨op_fail _ _ _ _ _ _ _ h1 h2 h, op_fail _ _ _ _ _ _ _ h1 h2 h⟩⟩
  · obtain ⟨m, a1, a2, a3, a4, a5⟩ := op_spec (f := (· + ·)) (fun a b ha hb => by
      obtain ⟨r, r1, _, r2⟩ := (Bv.c08_add_sub a b ha hb).1
      exact ⟨r, r1, Slist.bvAdd_ne_nil ha hb r1, r2⟩) m1 m2 rn cn h1 h2 hr hc
    exact ⟨m, a1, a2, a3, a4, fun η i j => a5 _, fun n i1 i2 η b => by rw [a5, a5, i1, i2]⟩
  · obtain ⟨m, a1, a2, a3, a4, a5⟩ := op_spec (f := (· - ·)) (fun a b ha hb => bvSub_spec a b ha hb) m1 m2 rn cn h1 h2 hr hc
    exact ⟨m, a1, a2, a3, a4, fun η i j => a5 _, fun n i1 i2 η b => by rw [a5, a5, i1, i2]⟩

/-- C101: `scalar_mult`: every element times the factor. -/
theorem c101_scale (k : List (Fn o)) (m : SMat o) (rn cn : List String) (h : Indexed m rn cn) (hk : k ≠ [])
    (hi : ∀ n ∈ rn ++ cn, Independent k n) : ∃ m', scalarMult k m = .ok m' ∧ m'.rows = m.rows ∧ m'.cols = m.cols ∧
      Indexed m' rn cn ∧ (∀ η i j, entry m' rn cn η i j = Bv.sv k η * entry m rn cn η i j) ∧
      ∀ n, Independent k n → Independent m.v n → Independent m'.v n := by
  obtain ⟨r, r1, _, r2⟩ := Bv.c09_mul k m.v hk h.some
  refine ⟨{ m with v := r }, by rw [scalarMult, r1, of_some, bind_ok], rfl, rfl,
    ⟨h.ridx, h.cidx, h.nodup, h.rowVar, h.colVar, h.rows, h.cols, bvMul_ne_nil r1⟩, fun η i j => ?_, fun n i1 i2 η b => ?_⟩
  · unfold entry
    dsimp only
    rw [r2, indep_cell hi]
  · dsimp only
    rw [r2, r2, i1, i2]

/-- C101: `abs` of a matrix: the absolute values of the elements. -/
theorem c101_abs (m : SMat o) (rn cn : List String) (h : Indexed m rn cn) : ∃ m', matAbs m = .ok m' ∧ m'.rows = m.rows ∧
      m'.cols = m.cols ∧ Indexed m' rn cn ∧ (∀ η i j, entry m' rn cn η i j = |entry m rn cn η i j|) ∧
      ∀ n, Independent m.v n → Independent m'.v n := by
  obtain ⟨c, p1, p2⟩ := geq_spec h.some (intBv_ne_nil (o := o) 0)
  obtain ⟨r, r1, _, r2⟩ := Bv.c09_mul (intBv o (-1)) m.v (intBv_ne_nil _) h.some
  obtain ⟨x, x1, x2, x3⟩ := branch_top c (x := m.v) (y := r) (t := fun _ => .ok m.v)
    (e := fun _ => Out.ofOption (Bv.bvMul (intBv o (-1)) m.v)) h.some (bvMul_ne_nil r1)
    (fun _ => rfl) (fun _ => by rw [r1]; rfl)
  have hx : ∀ η, Bv.sv x η = |Bv.sv m.v η| := fun η => by
    rw [x3, p2, r2, sv_intBv, sv_intBv]
    by_cases hs : 0 ≤ Bv.sv m.v η
    · simp [hs, abs_of_nonneg hs]
    · simp [hs, abs_of_neg (lt_of_not_ge hs)]
  refine ⟨{ m with v := x }, by rw [matAbs, p1, of_some, bind_ok, x1, bind_ok], rfl, rfl,
    ⟨h.ridx, h.cidx, h.nodup, h.rowVar, h.colVar, h.rows, h.cols, x2⟩, fun η i j => hx _, fun n i1 η b => ?_⟩
  dsimp only
  rw [hx, hx, i1]

theorem Width.le {n w w' : Nat} (h : Width n w) (h0 : 0 < w') (h1 : n ≤ 2 ^ w') : w ≤ w' := h.2.2 w' h0 h1

theorem length_pos {ns : List String} (h : ns ≠ []) : 0 < ns.length := List.length_pos_iff.2 h

/-- C101: `transpose` exchanges rows and columns, if the elements do not depend on the new index variables (which have
the names r and c). -/
theorem c101_transpose (m : SMat o) (rn cn : List String) (h : Indexed m rn cn) (hr : 0 < m.rows) (hc : 0 < m.cols)
    (hi : ∀ n w, n ∈ idxNames "r" w ∨ n ∈ idxNames "c" w → n ∈ rn ++ cn ∨ Independent m.v n) :
    ∃ m' wr wc, transpose m = .ok m' ∧ m'.rows = m.cols ∧ m'.cols = m.rows ∧ Width m.cols wr ∧ Width m.rows wc ∧
      Indexed m' (idxNames "r" wr) (idxNames "c" wc) ∧
      (∀ η i j, i < 2 ^ wr → j < 2 ^ wc → entry m' (idxNames "r" wr) (idxNames "c" wc) η i j = entry m rn cn η j i) ∧
      (ZeroOutside m rn cn → ZeroOutside m' (idxNames "r" wr) (idxNames "c" wc)) ∧
      ∀ n, n ∉ idxNames "r" wr ++ idxNames "c" wc → n ∈ rn ++ cn ∨ Independent m.v n → Independent m'.v n := by
  obtain ⟨wr, a1, a2⟩ := width_ubits hc
  obtain ⟨wc, b1, b2⟩ := width_ubits hr
  have hwr : wr ≤ cn.length := a2.le (length_pos h.colVar) h.cols
  have hwc : wc ≤ rn.length := b2.le (length_pos h.rowVar) h.rows
  generalize hR : idxNames "r" wr = R
  generalize hC : idxNames "c" wc = C
  have hRl : R.length = wr := by rw [← hR, idxNames_length]
  have hCl : C.length = wc := by rw [← hC, idxNames_length]
  have hRd : R.Nodup := by rw [← hR]; exact idxNames_nodup _ _
  have hCd : C.Nodup := by rw [← hC]; exact idxNames_nodup _ _
  have hRC : ∀ n ∈ R, n ∉ C := by
    rw [← hR, ← hC]
    exact idxNames_disjoint (by decide) (by decide) (by decide)
  obtain ⟨s1, s2, w, w1, w2, w3, w4, w5⟩ := both_spec h (Fn.ff o :: C.map (Fn.var o)) (Fn.ff o :: R.map (Fn.var o))
  have hval : ∀ η, Bv.sv w η = entry m rn cn η (Bv.uv (C.map η)) (Bv.uv (R.map η)) := by
    intro η
    have l1 := Bv.uv_lt (C.map η)
    have l2 := Bv.uv_lt (R.map η)
    rw [List.length_map, hCl] at l1
    rw [List.length_map, hRl] at l2
    have p1 : 2 ^ wc ≤ 2 ^ rn.length := Nat.pow_le_pow_right (by omega) hwc
    have p2 : 2 ^ wr ≤ 2 ^ cn.length := Nat.pow_le_pow_right (by omega) hwr
    have e1 : ((Bv.uv (C.map η) : Nat) : Int) < 2 ^ rn.length := by exact_mod_cast lt_of_lt_of_le l1 p1
    have e2 : ((Bv.uv (R.map η) : Nat) : Int) < 2 ^ cn.length := by exact_mod_cast lt_of_lt_of_le l2 p2
    have := w5 η
    rw [sv_index, sv_index] at this
    rw [this (by omega) e1 (by omega) e2]
    simp
  have hI : Indexed (⟨m.cols, m.rows, Fn.ff o :: R.map (Fn.var o), Fn.ff o :: C.map (Fn.var o), w⟩ : SMat o) R C :=
    { ridx := rfl, cidx := rfl,
      nodup := List.nodup_append.2 ⟨hRd, hCd, fun x hx y hy e => hRC x hx (e ▸ hy)⟩
      rowVar := fun e => by rw [e] at hRl; exact absurd hRl.symm (Nat.ne_of_gt a2.1)
      colVar := fun e => by rw [e] at hCl; exact absurd hCl.symm (Nat.ne_of_gt b2.1)
      rows := by rw [hRl]; exact a2.2.1
      cols := by rw [hCl]; exact b2.2.1
      some := w4 }
  have hent : ∀ η i j, i < 2 ^ wr → j < 2 ^ wc → entry (⟨m.cols, m.rows, Fn.ff o :: R.map (Fn.var o),
      Fn.ff o :: C.map (Fn.var o), w⟩ : SMat o) R C η i j = entry m rn cn η j i := by
    intro η i j hi' hj'
    have e1 := hI.row_at (by rw [hRl]; exact hi') j η
    have e2 := hI.col_at i (by rw [hCl]; exact hj') η
    dsimp only at e1 e2
    rw [sv_index] at e1 e2
    have e1' : Bv.uv (R.map (load R i (load C j η))) = i := by exact_mod_cast e1
    have e2' : Bv.uv (C.map (load R i (load C j η))) = j := by exact_mod_cast e2
    show Bv.sv w _ = _
    rw [hval, e1', e2']
    unfold entry
    refine sv_indep (R ++ C) (fun n hn => ?_) fun n hn => ?_
    · simp only [List.mem_append, not_or] at hn
      by_cases g1 : n ∈ rn
      · exact load_in g1
      · rw [load_notin g1, load_notin g1]
        by_cases g2 : n ∈ cn
        · exact load_in g2
        · rw [load_notin g2, load_notin g2, load_notin hn.1, load_notin hn.2]
    · have : n ∈ rn ++ cn ∨ Independent m.v n := by
        rcases List.mem_append.1 hn with hn | hn
        · exact hi n wr (.inl (by rw [hR]; exact hn))
        · exact hi n wc (.inr (by rw [hC]; exact hn))
      refine this.imp (fun g => ?_) id
      by_cases g1 : n ∈ rn
      · exact load_in g1
      · rw [load_notin g1, load_notin g1]
        exact load_in ((List.mem_append.1 g).resolve_left g1)
  refine ⟨_, wr, wc, ?_, rfl, rfl, a2, b2, by rw [hR, hC]; exact hI, by rw [hR, hC]; exact hent, ?_, ?_⟩
  · unfold transpose
    rw [a1, bind_ok, b1, bind_ok]
    dsimp only
    rw [uvector_eq a2.1, uvector_eq b2.1, hR, hC, w1, bind_ok, w2, bind_ok, w3, bind_ok]
  · rw [hR, hC]
    intro hz η i j hi' hj' hout
    rw [hRl] at hi'
    rw [hCl] at hj'
    rw [hent η i j hi' hj']
    exact hz η j i (lt_of_lt_of_le hj' (Nat.pow_le_pow_right (by omega) hwc))
      (lt_of_lt_of_le hi' (Nat.pow_le_pow_right (by omega) hwr)) hout.symm
  · rw [hR, hC]
    intro n hn g η b
    simp only [List.mem_append, not_or] at hn
    show Bv.sv w _ = Bv.sv w _
    have u : ∀ l : List String, n ∉ l → l.map (η.set n b) = l.map η := fun l hl =>
      List.map_congr_left fun x hx => by
        have : x ≠ n := fun e => hl (e ▸ hx)
        simp [Env.set, this]
    rw [hval, hval, u R hn.1, u C hn.2]
    unfold entry
    by_cases g1 : n ∈ cn
    · rw [load_set_in g1]
    · rw [load_set_out g1]
      by_cases g2 : n ∈ rn
      · rw [load_set_in g2]
      · rw [load_set_out g2]
        exact (g.resolve_left (by simp [g1, g2])) _ _

/-- C101: `mat_mult`: the sums of the products of the elements, if the elements of one of the matrices that have an index
outside of the matrix are zero; the index variables and the variables of the elements must be different from those
named mid, the elements of a matrix may not depend on the outer index of the other one, and the record of the constants may
not have the number of one of those named mid (see C100). -/
theorem c101_mult_partial (z : Option String) (m1 m2 : SMat o) (rn1 cn1 rn2 cn2 : List String) (h1 : Indexed m1 rn1 cn1)
    (h2 : Indexed m2 rn2 cn2) (hd : m1.cols = m2.rows) (hpos : 0 < m1.cols) (hz : ∀ v w, z = some v → v ∉ idxNames "mid" w)
    (hmid : ∀ n w, n ∈ idxNames "mid" w → n ∉ rn1 ++ cn1 ∧ n ∉ rn2 ++ cn2 ∧ Independent m1.v n ∧ Independent m2.v n)
    (hnd : (rn1 ++ cn2).Nodup) (h12 : ∀ n ∈ cn2, n ∈ cn1 ∨ Independent m1.v n)
    (h21 : ∀ n ∈ rn1, n ∈ rn2 ∨ Independent m2.v n) :
    ∃ m w, matMult z m1 m2 = .ok m ∧ Width m1.cols w ∧ m.rows = m1.rows ∧ m.cols = m2.cols ∧ Indexed m rn1 cn2 ∧
      (∀ η i j, entry m rn1 cn2 η i j =
        sumTo (2 ^ w) fun k => entry m1 rn1 cn1 η i k * entry m2 rn2 cn2 η k j) ∧
      (ZeroOutside m1 rn1 cn1 ∨ ZeroOutside m2 rn2 cn2 → ∀ η i j, i < 2 ^ rn1.length → j < 2 ^ cn2.length →
        entry m rn1 cn2 η i j = sumTo m1.cols fun k => entry m1 rn1 cn1 η i k * entry m2 rn2 cn2 η k j) ∧
      (ZeroOutside m1 rn1 cn1 → ZeroOutside m2 rn2 cn2 → ZeroOutside m rn1 cn2) ∧
      ∀ n, n ∈ cn1 ∨ Independent m1.v n → n ∈ rn2 ∨ Independent m2.v n → Independent m.v n := by
  obtain ⟨w, a1, a2⟩ := width_ubits hpos
  have hw1 : w ≤ cn1.length := a2.le (length_pos h1.colVar) h1.cols
  have hw2 : w ≤ rn2.length := a2.le (length_pos h2.rowVar) (hd ▸ h2.rows)
  obtain ⟨M, hM⟩ : ∃ M, idxNames "mid" w = M := ⟨_, rfl⟩
  have hMl : M.length = w := by rw [← hM, idxNames_length]
  have hMd : M.Nodup := by rw [← hM]; exact idxNames_nodup _ _
  have hmid' : ∀ n ∈ M, n ∉ rn1 ++ cn1 ∧ n ∉ rn2 ++ cn2 ∧ Independent m1.v n ∧ Independent m2.v n := fun n hn =>
    hmid n w (by rw [hM]; exact hn)
  have hp1 : 2 ^ w ≤ 2 ^ cn1.length := Nat.pow_le_pow_right (by omega) hw1
  have hp2 : 2 ^ w ≤ 2 ^ rn2.length := Nat.pow_le_pow_right (by omega) hw2
  -- the substituted matrices
  have hsub : ∀ (ns : List String) (v : List (Fn o)), ns.Nodup → v ≠ [] → w ≤ ns.length →
      ∃ s v', mkSub (Fn.ff o :: ns.map (Fn.var o)) (Fn.ff o :: M.map (Fn.var o)) = .ok s ∧ substitute s v = .ok v' ∧ v' ≠ [] ∧
        ∀ η, Bv.sv v' η = Bv.sv v (load ns (Bv.uv (M.map η)) η) := by
    intro ns v hns hv hw
    obtain ⟨fs, f1, f2, _, f3⟩ := mkSub_eq (o := o) ns (Fn.ff o :: M.map (Fn.var o))
    obtain ⟨v', v1, v2, v3⟩ := sv_substitute (ns.zip fs) (l := v) (by rw [zip_fst f2]; exact hns) hv
    refine ⟨_, v', f1, v1, v2, fun η => ?_⟩
    have hl := Bv.uv_lt (M.map η)
    rw [List.length_map, hMl] at hl
    have hl2 : Bv.uv (M.map η) < 2 ^ ns.length := lt_of_lt_of_le hl (Nat.pow_le_pow_right (by omega) hw)
    have g := f3 η
    rw [sv_index] at g
    have := under_zip [] η _ ns fs (g (by omega) (by exact_mod_cast hl2))
    rw [List.append_nil, Int.toNat_natCast] at this
    rw [v3, this]
    rfl
  obtain ⟨s1, v1, p1, p2, p3, p4⟩ := hsub cn1 m1.v h1.cnd h1.some hw1
  obtain ⟨s2, v2, q1, q2, q3, q4⟩ := hsub rn2 m2.v h2.rnd h2.some hw2
  obtain ⟨prod, r1, _, r2⟩ := Bv.c09_mul v1 v2 p3 q3
  have hdep : ∀ n, n ∈ Fn.depends (Fn.ff o :: M.map (Fn.var o)) ↔ n ∈ M := by
    intro n
    rw [← depends_vars (o := o) (l := M), Fn.mem_depends, Fn.mem_depends]
    constructor
    · rintro ⟨f, hf, η, hne⟩
      rcases List.mem_cons.1 hf with rfl | hf
      · exact absurd rfl hne
      · exact ⟨f, hf, η, hne⟩
    · rintro ⟨f, hf, η, hne⟩
      exact ⟨f, List.mem_cons_of_mem _ hf, η, hne⟩
  have hMne : M ≠ [] := fun e => by rw [e] at hMl; exact absurd hMl.symm (Nat.ne_of_gt a2.1)
  obtain ⟨x, x1, x2, x3⟩ := Sum.c100_sum_partial z (Fn.depends (Fn.ff o :: M.map (Fn.var o))) prod (bvMul_ne_nil r1)
    (.inl fun e => by
      obtain ⟨n, l, hl⟩ := List.exists_cons_of_ne_nil hMne
      have := (hdep n).2 (by rw [hl]; simp)
      rw [e] at this
      exact absurd this (by simp))
    (fun v hv hin => absurd (by rw [hM]; exact (hdep v).1 hin) (hz v w hv))
  have hperm : (Fn.depends (Fn.ff o :: M.map (Fn.var o))).dedup.Perm M :=
    (List.perm_ext_iff_of_nodup (List.nodup_dedup _) hMd).2 fun n => by rw [List.mem_dedup, hdep]
  have hval : ∀ η, Bv.sv x η = sumTo (2 ^ w) fun k =>
      Bv.sv m1.v (load cn1 k (load M k η)) * Bv.sv m2.v (load rn2 k (load M k η)) := by
    intro η
    rw [x3, Sum.total_perm _ hperm, total_load _ _ _ hMd, hMl]
    refine sumTo_congr _ fun k hk => ?_
    have e : Bv.uv (M.map (load M k η)) = k := by
      rw [map_load k η hMd, (uv_digitsOf _ _).1, hMl, Nat.mod_eq_of_lt hk]
    rw [r2, p4, q4, e]
  have hM1 : ∀ n ∈ M, n ∉ cn1 ∧ n ∉ rn1 := fun n hn => by
    have := (hmid' n hn).1
    simp only [List.mem_append, not_or] at this
    exact ⟨this.2, this.1⟩
  have hM2 : ∀ n ∈ M, n ∉ cn2 ∧ n ∉ rn2 := fun n hn => by
    have := (hmid' n hn).2.1
    simp only [List.mem_append, not_or] at this
    exact ⟨this.2, this.1⟩
  have hdj : ∀ n ∈ rn1, n ∉ cn2 := fun n hn hc => (List.nodup_append.1 hnd).2.2 n hn n hc rfl
  -- the elements
  have hent : ∀ η i j, Bv.sv x (load rn1 i (load cn2 j η)) =
      sumTo (2 ^ w) fun k => entry m1 rn1 cn1 η i k * entry m2 rn2 cn2 η k j := by
    intro η i j
    rw [hval]
    refine sumTo_congr _ fun k _ => ?_
    congr 1
    · unfold entry
      refine sv_indep (M ++ cn2) (fun n hn => ?_) fun n hn => ?_
      · simp only [List.mem_append, not_or] at hn
        by_cases g1 : n ∈ rn1
        · rw [load_notin (h1.disj n g1), load_notin hn.1]
          exact load_in g1
        · rw [load_notin (ns := rn1) g1]
          by_cases g2 : n ∈ cn1
          · exact load_in g2
          · rw [load_notin g2, load_notin g2, load_notin hn.1, load_notin g1, load_notin hn.2]
      · rcases List.mem_append.1 hn with hn | hn
        · exact .inr (hmid' n hn).2.2.1
        · refine (h12 n hn).imp (fun g => ?_) id
          have g1 : n ∉ rn1 := fun g1 => h1.disj n g1 g
          rw [load_notin (ns := rn1) g1]
          exact load_in g
    · unfold entry
      refine sv_indep (M ++ rn1) (fun n hn => ?_) fun n hn => ?_
      · simp only [List.mem_append, not_or] at hn
        by_cases g1 : n ∈ rn2
        · exact load_in g1
        · rw [load_notin g1, load_notin g1, load_notin hn.1, load_notin hn.2]
      · rcases List.mem_append.1 hn with hn | hn
        · exact .inr (hmid' n hn).2.2.2
        · refine (h21 n hn).imp (fun g => ?_) id
          exact load_in g
  have hcut : ZeroOutside m1 rn1 cn1 ∨ ZeroOutside m2 rn2 cn2 → ∀ η i j, i < 2 ^ rn1.length → j < 2 ^ cn2.length →
      Bv.sv x (load rn1 i (load cn2 j η)) = sumTo m1.cols fun k => entry m1 rn1 cn1 η i k * entry m2 rn2 cn2 η k j := by
    intro hzo η i j hi hj
    rw [hent]
    refine sumTo_cut a2.2.1 fun k hk1 hk2 => ?_
    rcases hzo with g | g
    · rw [g η i k hi (lt_of_lt_of_le hk2 hp1) (.inr hk1), Int.zero_mul]
    · rw [g η k j (lt_of_lt_of_le hk2 hp2) hj (.inl (hd ▸ hk1)), Int.mul_zero]
  refine ⟨⟨m1.rows, m2.cols, m1.ridx, m2.cidx, x⟩, w, ?_, a2, rfl, rfl,
    ⟨h1.ridx, h2.cidx, hnd, h1.rowVar, h2.colVar, h1.rows, h2.cols, x2⟩, hent, hcut, ?_, ?_⟩
  · unfold matMult
    rw [if_neg (by simp [hd]), a1, bind_ok]
    dsimp only
    rw [uvector_eq a2.1, hM, h1.cidx, p1, bind_ok, h2.ridx, q1, bind_ok, p2, bind_ok, q2, bind_ok, r1, of_some, bind_ok, x1, bind_ok]
  · intro g1 g2 η i j hi hj hout
    show Bv.sv x _ = 0
    rw [hcut (.inl g1) η i j hi hj, sumTo_congr _ (g := fun _ => 0), sumTo_zero]
    intro k hk
    rcases hout with ho | ho
    · rw [g1 η i k hi (lt_of_lt_of_le hk h1.cols) (.inl ho), Int.zero_mul]
    · rw [g2 η k j (lt_of_lt_of_le (hd ▸ hk) h2.rows) hj (.inr ho), Int.mul_zero]
  · intro n g1 g2 η b
    show Bv.sv x _ = Bv.sv x _
    rw [hval, hval]
    refine sumTo_congr _ fun k _ => ?_
    by_cases gm : n ∈ M
    · rw [load_set_in gm]
    · rw [load_set_out gm]
      congr 1
      · by_cases gc : n ∈ cn1
        · rw [load_set_in gc]
        · rw [load_set_out gc]
          exact (g1.resolve_left gc) _ _
      · by_cases gc : n ∈ rn2
        · rw [load_set_in gc]
        · rw [load_set_out gc]
          exact (g2.resolve_left gc) _ _

/-- C101: the product is refused when the sizes do not fit. -/
theorem c101_mult_fail (z : Option String) (m1 m2 : SMat o) (h : m1.cols ≠ m2.rows) : matMult z m1 m2 = .fail := by
  rw [matMult, if_pos h]

/-! ### Examples and violations -/

/-- The matrix with the rows 1, 2, 3 and 4, 5, 6, times the column 7, 8, 9: the hypotheses are met, and the result is 50, 122. -/
example : ((matrix2smatrix (o := codeOrder) intMatrix2symb [[1, 2, 3], [4, 5, 6]] "r" "c").bind fun a =>
    (matrix2smatrix intMatrix2symb [[7], [8], [9]] "r" "c").bind fun b =>
      (matMult none a b).bind smatrix2matrix) = .ok [[50], [122]] := by decide +kernel

/-- The transposed matrix, its sum with a matrix, twice a matrix, and the absolute values. -/
example : ((matrix2smatrix (o := codeOrder) intMatrix2symb [[1, -2, 3], [4, 5, -6]] "r" "c").bind fun a =>
    (transpose a).bind smatrix2matrix) = .ok [[1, 4], [-2, 5], [3, -6]] ∧
    ((matrix2smatrix (o := codeOrder) intMatrix2symb [[1, -2, 3], [4, 5, -6]] "r" "c").bind fun a =>
    (matAdd a a).bind fun s => (matSub s a).bind fun d => (scalarMult (intBv _ 2) d).bind fun t => (matAbs t).bind smatrix2matrix) =
    .ok [[2, 4, 6], [8, 10, 12]] := by decide +kernel

/-- An element at an index that depends on a variable `i`, and a matrix that is changed there. -/
example : ((matrix2smatrix (o := codeOrder) intMatrix2symb [[1, 2], [3, 4]] "r" "c").bind fun a =>
    (setElement a [Fn.ff _, Fn.var _ "i"] (intBv _ 1) (intBv _ 7)).bind fun b =>
    (getElement b (intBv _ 0) (intBv _ 1)).bind fun x => (getElement b (intBv _ 1) [Fn.ff _, Fn.var _ "i"]).bind fun y => .ok (x, y)) =
    .ok (Bv.iteList (Fn.var codeOrder "i") (intBv _ 2) (intBv _ 7), Bv.iteList (Fn.var codeOrder "i") (intBv _ 7) (intBv _ 3)) := by
  decide +kernel

/-- The hypotheses of the product are met by matrices that `matrix2smatrix` makes. -/
example (z : Option String) (hz : ∀ v w, z = some v → v ∉ idxNames "mid" w) : ∃ a b m : SMat o,
    matrix2smatrix intMatrix2symb [[1, 2, 3], [4, 5, 6]] "r" "c" = .ok a ∧
    matrix2smatrix intMatrix2symb [[7], [8], [9]] "r" "c" = .ok b ∧ matMult z a b = .ok m ∧
    smatrix2matrix m = .ok [[50], [122]] := by
  obtain ⟨a, wr, wc, a1, a2, a3, a4, a5, a6, a7, a8, a9⟩ := c101_make (o := o) [[1, 2, 3], [4, 5, 6]] "r" "c" (by decide) (by decide)
    (by decide) (by decide) 3 (by decide) (by decide)
  obtain ⟨b, xr, xc, b1, b2, b3, b4, b5, b6, b7, b8, b9⟩ := c101_make (o := o) [[7], [8], [9]] "r" "c" (by decide) (by decide)
    (by decide) (by decide) 1 (by decide) (by decide)
  have hmr : ∀ n w w', n ∈ idxNames "mid" w → n ∉ idxNames "r" w' := fun n w w' =>
    idxNames_disjoint (by decide) (by decide) (by decide) n
  have hmc : ∀ n w w', n ∈ idxNames "mid" w → n ∉ idxNames "c" w' := fun n w w' =>
    idxNames_disjoint (by decide) (by decide) (by decide) n
  have hrc : ∀ n w w', n ∈ idxNames "r" w → n ∉ idxNames "c" w' := fun n w w' =>
    idxNames_disjoint (by decide) (by decide) (by decide) n
  obtain ⟨m, w, m1, m2, m3, m4, m5, m6, m7, m8, m9⟩ := c101_mult_partial z a b _ _ _ _ a6 b6 (by rw [a3, b2]; rfl) (by rw [a3]; decide) hz
    (fun n w hn => by
      have g1 : n ∉ idxNames "r" wr ++ idxNames "c" wc := by simp [hmr n w wr hn, hmc n w wc hn]
      have g2 : n ∉ idxNames "r" xr ++ idxNames "c" xc := by simp [hmr n w xr hn, hmc n w xc hn]
      exact ⟨g1, g2, a9 n g1, b9 n g2⟩)
    (List.nodup_append.2 ⟨idxNames_nodup _ _, idxNames_nodup _ _, fun x hx y hy e => hrc x _ _ hx (e ▸ hy)⟩)
    (fun n hn => by
      by_cases g : n ∈ idxNames "c" wc
      · exact .inl g
      · exact .inr (a9 n (by rw [List.mem_append, not_or]; exact ⟨fun h => hrc n wr xc h hn, g⟩)))
    (fun n hn => by
      by_cases g : n ∈ idxNames "r" xr
      · exact .inl g
      · exact .inr (b9 n (by simp [g, hrc n wr xc hn])))
  refine ⟨a, b, m, a1, b1, m1, ?_⟩
  rw [(c101_read m _ _ m5).1 (fun n hn => m9 n ?_ ?_) (fun _ => false), m3, m4, a2, b3]
  · have g1 : 2 ≤ 2 ^ wr := a4.2.1
    have g2 : 3 ≤ 2 ^ wc := a5.2.1
    have g3 : 3 ≤ 2 ^ xr := b4.2.1
    have g4 : 1 ≤ 2 ^ xc := b5.2.1
    have e : ∀ i, i < 2 → entry m (idxNames "r" wr) (idxNames "c" xc) (fun _ => false) i 0 =
        sumTo 3 fun k => (([[1, 2, 3], [4, 5, 6]] : List (List Int))[i]?.bind fun row => row[k]?).getD 0 *
          (([[7], [8], [9]] : List (List Int))[k]?.bind fun row => row[0]?).getD 0 := by
      intro i hi
      rw [m7 (.inl a8) _ i 0 (by rw [idxNames_length]; omega) (by rw [idxNames_length]; omega), a3]
      refine sumTo_congr _ fun k hk => ?_
      rw [a7 _ i k (by omega) (by omega), b7 _ k 0 (by omega) (by omega)]
    have e0 := e 0 (by omega)
    have e1 := e 1 (by omega)
    simp only [show List.range 1 = [0] from rfl, List.map_cons, List.map_nil,
      show List.range ([[1, 2, 3], [4, 5, 6]] : List (List Int)).length = [0, 1] from rfl, e0, e1]
    decide +kernel
  · simp only [List.mem_append, not_or] at hn
    by_cases g : n ∈ idxNames "c" wc
    · exact .inl g
    · exact .inr (a9 n (by simp [g, hn.1]))
  · simp only [List.mem_append, not_or] at hn
    by_cases g : n ∈ idxNames "r" xr
    · exact .inl g
    · exact .inr (b9 n (by simp [g, hn.2]))

/-- C101 fails for elements outside of the matrix: `get_element` gives zero for them also after `set_element`, but the
product counts them (smatrix.fl:160-164, 229-243: nothing tests the index, and the sum is over all values of the variables).
A row of three ones times a column of three ones is 3; it is 38 after 5 and 7 have been put in position 3, which neither has. -/
theorem c101_outside_violated :
    ((matrix2smatrix (o := codeOrder) intMatrix2symb [[1, 1, 1]] "r" "c").bind fun a =>
    (matrix2smatrix intMatrix2symb [[1], [1], [1]] "r" "c").bind fun b =>
    (matMult none a b).bind smatrix2matrix) = .ok [[3]] ∧
    ((matrix2smatrix (o := codeOrder) intMatrix2symb [[1, 1, 1]] "r" "c").bind fun a =>
    (matrix2smatrix intMatrix2symb [[1], [1], [1]] "r" "c").bind fun b =>
    (setElement a (intBv _ 0) (intBv _ 3) (intBv _ 5)).bind fun a' =>
    (setElement b (intBv _ 3) (intBv _ 0) (intBv _ 7)).bind fun b' =>
    (getElement a' (intBv _ 0) (intBv _ 3)).bind fun e =>
    (smatrix2matrix a').bind fun ra => (smatrix2matrix b').bind fun rb =>
    (matMult none a' b').bind fun p => (smatrix2matrix p).bind fun rp => .ok (e, ra, rb, rp)) =
    .ok (intBv _ 0, [[1, 1, 1]], [[1], [1], [1]], [[38]]) := by decide +kernel

/-- C101 fails for negative indices: they are outside of the matrix, but `get_element` gives an element of the matrix
(smatrix.fl:106-116, 152-158: there is no test, and only the last bits of the index are used). -/
theorem c101_negative_violated :
    ((matrix2smatrix (o := codeOrder) intMatrix2symb [[1, 2], [3, 4]] "r" "c").bind fun a =>
      getElement a (intBv _ (-1)) (intBv _ 0)) = .ok (intBv codeOrder 3) := by decide +kernel

end Voss.Smat
