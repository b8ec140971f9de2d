import Verif.Smat.MoreLemmas
/-
C101: symbolic matrices.

`Indexed`, `entry`, `ZeroOutside`, `Independent`, `Width` and `sumTo` are in Verif/Smat/Spec.lean.
-/
namespace Voss.Smat
open Voss.Pre

variable {o : Order}

theorem depends_iff {l : List (Fn o)} {n : String} : n ∉ Fn.depends l ↔ Independent l n := by
  refine ⟨indep_of_depends, fun h hn => ?_⟩
  obtain ⟨f, hf, η, hne⟩ := Fn.mem_depends.1 hn
  have := (h η true).trans (h η false).symm
  have := Bv.tc_inj_len _ _ (by simp) this
  exact hne (List.map_inj_left.1 this f hf)

theorem scalar_of_sv {l : List (Fn o)} (h : ∀ η ζ, Bv.sv l η = Bv.sv l ζ) : Bv.isScalar l = true := by
  unfold Bv.isScalar
  rw [List.all_eq_true]
  intro f hf
  have hc : ∀ η ζ, f.ev η = f.ev ζ := fun η ζ =>
    List.map_inj_left.1 (Bv.tc_inj_len _ _ (by simp) (h η ζ)) f hf
  have : f = Fn.tt o ∨ f = Fn.ff o := by
    cases hb : f.ev fun _ => true
    · exact .inr (Fn.ext fun η => (hc η _).trans hb)
    · exact .inl (Fn.ext fun η => (hc η _).trans hb)
  have e : ∀ g : Fn o, Bv.Fml.eqb g g = true := fun g => (Bv.Fml.eqb_iff g g).2 fun _ => rfl
  rcases this with rfl | rfl
  · simp only [Bv.isSymbolic, show (Bv.Fml.one : Fn o) = Fn.tt o from rfl, e]; rfl
  · simp only [Bv.isSymbolic, show (Bv.Fml.zero : Fn o) = Fn.ff o from rfl, e]; simp

/-- What is made from a matrix with elements of any type. -/
theorem make_spec {α : Type} {conv : List (Fn o) → List (Fn o) → List (List α) → Out (List (Fn o))} {m : List (List α)}
    {rb cb : String} (hr : '[' ∉ rb.toList) (hc : '[' ∉ cb.toList) (hne : rb ≠ cb) (hm : m ≠ []) {cols : Nat}
    (hcols : ∀ row ∈ m, row.length = cols) (hpos : 0 < cols) {val : Env → Nat → Nat → Int}
    (hconv : ∀ r c : List (Fn o), r ≠ [] → c ≠ [] → (∀ η, 0 ≤ Bv.sv r η) → (∀ η, 0 ≤ Bv.sv c η) →
      ∃ v, conv r c m = .ok v ∧ v ≠ [] ∧ ∀ η (i j : Nat), Bv.sv r η = i → Bv.sv c η = j → Bv.sv v η = val η i j) :
    ∃ sm wr wc, matrix2smatrix conv m rb cb = .ok sm ∧ sm.rows = m.length ∧ sm.cols = cols ∧ Width m.length wr ∧
      Width cols wc ∧ Indexed sm (idxNames rb wr) (idxNames cb wc) ∧
      (∀ η i j, i < 2 ^ wr → j < 2 ^ wc → entry sm (idxNames rb wr) (idxNames cb wc) η i j =
        val (load (idxNames rb wr) i (load (idxNames cb wc) j η)) i j) ∧
      ∀ n, n ∉ idxNames rb wr ++ idxNames cb wc → (∀ η b i j, val (η.set n b) i j = val η i j) → Independent sm.v n := by
  obtain ⟨row, rest, rfl⟩ := List.exists_cons_of_ne_nil hm
  obtain ⟨wr, r1, r2⟩ := width_ubits (n := (row :: rest).length) (by simp)
  obtain ⟨wc, c1, c2⟩ := width_ubits hpos
  have hrow : row.length = cols := hcols row (by simp)
  have hall : rest.all (fun l => l.length == row.length) = true := by
    rw [List.all_eq_true]
    intro l hl
    rw [hcols l (by simp [hl]), hrow]
    simp
  obtain ⟨v, v1, v2, v3⟩ := hconv (Fn.ff o :: (idxNames rb wr).map (Fn.var o)) (Fn.ff o :: (idxNames cb wc).map (Fn.var o))
    (by simp) (by simp) (fun η => by rw [sv_index]; omega) (fun η => by rw [sv_index]; omega)
  have hnd : (idxNames rb wr ++ idxNames cb wc).Nodup := List.nodup_append.2
    ⟨idxNames_nodup _ _, idxNames_nodup _ _, fun x hx y hy e => idxNames_disjoint hr hc hne x hx (e ▸ hy)⟩
  have hI : Indexed (⟨(row :: rest).length, cols, Fn.ff o :: (idxNames rb wr).map (Fn.var o),
      Fn.ff o :: (idxNames cb wc).map (Fn.var o), v⟩ : SMat o) (idxNames rb wr) (idxNames cb wc) :=
    { ridx := rfl, cidx := rfl, nodup := hnd,
      rowVar := fun e => by have := congrArg List.length e; rw [idxNames_length] at this; exact absurd this (Nat.ne_of_gt r2.1)
      colVar := fun e => by have := congrArg List.length e; rw [idxNames_length] at this; exact absurd this (Nat.ne_of_gt c2.1)
      rows := by rw [idxNames_length]; exact r2.2.1
      cols := by rw [idxNames_length]; exact c2.2.1
      some := v2 }
  refine ⟨_, wr, wc, ?_, rfl, rfl, r2, c2, hI, ?_, ?_⟩
  · unfold matrix2smatrix
    dsimp only
    rw [if_pos hall, r1, bind_ok, hrow, c1, bind_ok, uvector_eq r2.1, uvector_eq c2.1]
    rw [v1, bind_ok]
  · intro η i j hi hj
    unfold entry
    refine v3 _ i j ?_ ?_
    · exact hI.row_at (by rw [idxNames_length]; exact hi) j η
    · exact hI.col_at i (by rw [idxNames_length]; exact hj) η
  · intro n hn hv η b
    simp only [List.mem_append, not_or] at hn
    have e1 := hI.ridx_indep hn.1 η b
    have e2 := hI.cidx_indep hn.2 η b
    dsimp only at e1 e2 ⊢
    rw [sv_index, sv_index] at e1 e2
    rw [v3 η _ _ (sv_index _ _) (sv_index _ _), v3 (η.set n b) _ _ ((sv_index _ _).trans e1) ((sv_index _ _).trans e2), hv]

/-- C101: `matrix2smatrix` of a matrix of integers with rows of the same length. -/
theorem c101_make (m : List (List Int)) (rb cb : String) (hr : '[' ∉ rb.toList) (hc : '[' ∉ cb.toList) (hne : rb ≠ cb)
    (hm : m ≠ []) (cols : Nat) (hcols : ∀ row ∈ m, row.length = cols) (hpos : 0 < cols) :
    ∃ (sm : SMat o) (wr wc : Nat), matrix2smatrix intMatrix2symb m rb cb = .ok sm ∧ sm.rows = m.length ∧ sm.cols = cols ∧
      Width m.length wr ∧ Width cols wc ∧ Indexed sm (idxNames rb wr) (idxNames cb wc) ∧
      (∀ η i j, i < 2 ^ wr → j < 2 ^ wc → entry sm (idxNames rb wr) (idxNames cb wc) η i j =
        (m[i]?.bind fun row => row[j]?).getD 0) ∧
      ZeroOutside sm (idxNames rb wr) (idxNames cb wc) ∧
      ∀ n, n ∉ idxNames rb wr ++ idxNames cb wc → Independent sm.v n := by
  obtain ⟨sm, wr, wc, h1, h2, h3, h4, h5, h6, h7, h8⟩ := make_spec (o := o) (conv := intMatrix2symb) (m := m) hr hc hne hm hcols hpos
    (val := fun _ i j => (m[i]?.bind fun row => row[j]?).getD 0) (fun r c hr hc _ _ => int_spec hr hc m)
  refine ⟨sm, wr, wc, h1, h2, h3, h4, h5, h6, h7, ?_, fun n hn => h8 n hn fun _ _ _ _ => rfl⟩
  intro η i j hi hj hout
  rw [idxNames_length] at hi hj
  rw [h7 η i j hi hj]
  rw [h2, h3] at hout
  cases hrow : m[i]? with
  | none => rfl
  | some row =>
    have hlt : i < m.length := (List.getElem?_eq_some_iff.1 hrow).1
    have hlen := hcols row (List.mem_of_getElem? hrow)
    rcases hout with h | h
    · omega
    · simp [List.getElem?_eq_none_iff.2 (show row.length ≤ j by omega)]

/-- C101: `matrix2smatrix` of a matrix of bit-vectors that do not depend on the index variables. -/
theorem c101_make_bv (m : List (List (List (Fn o)))) (rb cb : String) (hr : '[' ∉ rb.toList) (hc : '[' ∉ cb.toList) (hne : rb ≠ cb)
    (hm : m ≠ []) (cols : Nat) (hcols : ∀ row ∈ m, row.length = cols) (hpos : 0 < cols) (hv : ∀ row ∈ m, ∀ v ∈ row, v ≠ [])
    (hi : ∀ row ∈ m, ∀ v ∈ row, ∀ n w, n ∈ idxNames rb w ∨ n ∈ idxNames cb w → Independent v n) :
    ∃ (sm : SMat o) (wr wc : Nat), matrix2smatrix (fun r c m => doRow r c 0 m (Fn.tt o)) m rb cb = .ok sm ∧
      sm.rows = m.length ∧ sm.cols = cols ∧
      Width m.length wr ∧ Width cols wc ∧ Indexed sm (idxNames rb wr) (idxNames cb wc) ∧
      (∀ η i j, i < 2 ^ wr → j < 2 ^ wc → entry sm (idxNames rb wr) (idxNames cb wc) η i j =
        ((m[i]?.bind fun row => row[j]?).map fun v => Bv.sv v η).getD 0) ∧
      ZeroOutside sm (idxNames rb wr) (idxNames cb wc) ∧
      ∀ n, n ∉ idxNames rb wr ++ idxNames cb wc → (∀ row ∈ m, ∀ v ∈ row, Independent v n) → Independent sm.v n := by
  obtain ⟨sm, wr, wc, h1, h2, h3, h4, h5, h6, h7, h8⟩ := make_spec (o := o) (conv := fun r c m => doRow r c 0 m (Fn.tt o)) (m := m)
    hr hc hne hm hcols hpos
    (val := fun η i j => ((m[i]?.bind fun row => row[j]?).map fun v => Bv.sv v η).getD 0)
    (fun r c hr hc h0 h1 => bv_spec hr hc h0 h1 m hv)
  have hat : ∀ (i j : Nat) v, (m[i]?.bind fun row => row[j]?) = some v → ∃ row ∈ m, v ∈ row := by
    intro i j v h
    obtain ⟨row, hr1, hr2⟩ := Option.bind_eq_some_iff.1 h
    exact ⟨row, List.mem_of_getElem? hr1, List.mem_of_getElem? hr2⟩
  have key : ∀ η i j, i < 2 ^ wr → j < 2 ^ wc → entry sm (idxNames rb wr) (idxNames cb wc) η i j =
      ((m[i]?.bind fun row => row[j]?).map fun v => Bv.sv v η).getD 0 := by
    intro η i j hi' hj'
    rw [h7 η i j hi' hj']
    cases hx : (m[i]?.bind fun row => row[j]?) with
    | none => rfl
    | some v =>
      obtain ⟨row, hr1, hr2⟩ := hat i j v hx
      simp only [Option.map_some, Option.getD_some]
      refine indep_cell (fun n hn => ?_) i j η
      rcases List.mem_append.1 hn with h | h
      · exact hi row hr1 v hr2 n wr (.inl h)
      · exact hi row hr1 v hr2 n wc (.inr h)
  refine ⟨sm, wr, wc, h1, h2, h3, h4, h5, h6, key, ?_, fun n hn hind => h8 n hn ?_⟩
  · intro η i j hi' hj' hout
    rw [idxNames_length] at hi' hj'
    rw [key η i j hi' hj']
    rw [h2, h3] at hout
    cases hrow : m[i]? with
    | none => rfl
    | some row =>
      have hlt : i < m.length := (List.getElem?_eq_some_iff.1 hrow).1
      have hlen := hcols row (List.mem_of_getElem? hrow)
      rcases hout with h | h
      · omega
      · simp [List.getElem?_eq_none_iff.2 (show row.length ≤ j by omega)]
  · intro η b i j
    cases hx : (m[i]?.bind fun row => row[j]?) with
    | none => rfl
    | some v =>
      obtain ⟨row, hr1, hr2⟩ := hat i j v hx
      exact hind row hr1 v hr2 η b

/-- C101: a list of rows of different lengths, without rows or without columns is refused. -/
theorem c101_make_fail {α : Type} (conv : List (Fn o) → List (Fn o) → List (List α) → Out (List (Fn o))) (m : List (List α))
    (rb cb : String) (h : m = [] ∨ (∃ a ∈ m, ∃ b ∈ m, a.length ≠ b.length) ∨ [] ∈ m) : matrix2smatrix conv m rb cb = .fail := by
  cases m with
  | nil => rfl
  | cons row rest =>
    unfold matrix2smatrix
    dsimp only
    split
    · next hall =>
      rw [List.all_eq_true] at hall
      have he : ∀ l ∈ row :: rest, l.length = row.length := by
        intro l hl
        rcases List.mem_cons.1 hl with rfl | hl
        · rfl
        · simpa using hall l hl
      rcases h with h | ⟨a, ha, b, hb, hab⟩ | h
      · exact absurd h (by simp)
      · exact absurd ((he a ha).trans (he b hb).symm) hab
      · have h0 := he [] h
        obtain ⟨wr, r1, _⟩ := width_ubits (n := (row :: rest).length) (by simp)
        rw [r1, bind_ok, ← h0]
        have : ubits (0 : Nat) = .fail := by decide +kernel
        rw [show ([] : List α).length = 0 from rfl, this]
        rfl
    · rfl

/-- C101: `smatrix2matrix` gives the elements, if they depend on no other variables, and fails otherwise. -/
theorem c101_read (sm : SMat o) (rn cn : List String) (h : Indexed sm rn cn) :
    ((∀ n, n ∉ rn ++ cn → Independent sm.v n) → ∀ η, smatrix2matrix sm =
      .ok ((List.range sm.rows).map fun i => (List.range sm.cols).map fun j => entry sm rn cn η i j)) ∧
    ((∃ n, n ∉ rn ++ cn ∧ ¬ Independent sm.v n) → smatrix2matrix sm = .fail) := by
  have hdep : ∀ n, n ∈ Fn.depends (sm.ridx ++ sm.cidx) ↔ n ∈ rn ++ cn := by
    intro n
    have e : n ∈ Fn.depends (sm.ridx ++ sm.cidx) ↔ n ∈ Fn.depends ((rn ++ cn).map (Fn.var o)) := by
      rw [Fn.mem_depends, Fn.mem_depends, h.ridx, h.cidx]
      constructor
      · rintro ⟨f, hf, η, hne⟩
        have : f = Fn.ff o ∨ f ∈ (rn ++ cn).map (Fn.var o) := by
          simp only [List.mem_append, List.mem_cons, List.map_append] at hf ⊢
          tauto
        rcases this with rfl | hf
        · exact absurd rfl hne
        · exact ⟨f, hf, η, hne⟩
      · rintro ⟨f, hf, η, hne⟩
        refine ⟨f, ?_, η, hne⟩
        simp only [List.mem_append, List.mem_cons, List.map_append] at hf ⊢
        tauto
    rw [e, depends_vars]
  constructor
  · intro hi η
    have hv : ∀ n ∈ Fn.depends sm.v, n ∈ rn ++ cn := fun n hn => by
      by_contra hc
      exact depends_iff.2 (hi n hc) hn
    have hcell : ∀ i < sm.rows, ∀ j < sm.cols, readCell sm i j = .ok (entry sm rn cn η i j) := by
      intro i hi' j hj'
      have hi2 : i < 2 ^ rn.length := lt_of_lt_of_le hi' h.rows
      have hj2 : j < 2 ^ cn.length := lt_of_lt_of_le hj' h.cols
      obtain ⟨rc, r1, r2⟩ := eq_spec h.ridx_ne (intBv_ne_nil (o := o) (i : Int))
      obtain ⟨cc, c1, c2⟩ := eq_spec h.cidx_ne (intBv_ne_nil (o := o) (j : Int))
      have hcond : ∀ ζ, (rc.and cc).ev ζ = true ↔ Bv.sv sm.ridx ζ = i ∧ Bv.sv sm.cidx ζ = j := fun ζ => by
        rw [Fn.and_ev, r2, c2, sv_intBv, sv_intBv]
        simp
      obtain ⟨sub, s1, s2, _, s3, _⟩ := c86_param (rc.and cc)
        ⟨load rn i (load cn j η), (hcond _).2 ⟨h.row_at hi2 j η, h.col_at i hj2 η⟩⟩
      obtain ⟨w, w1, _, w3⟩ := sv_substitute sub (l := sm.v) (by rw [s2]; exact (Fn.depends_sorted _).nodup) h.some
      have hval : ∀ ζ, Bv.sv w ζ = entry sm rn cn η i j := by
        intro ζ
        rw [w3, entry]
        obtain ⟨a, b⟩ := (hcond _).1 (s3 ζ)
        rw [h.ridx, sv_index] at a
        rw [h.cidx, sv_index] at b
        have a' : Bv.uv (rn.map (Fn.under sub ζ)) = i := by exact_mod_cast a
        have b' : Bv.uv (cn.map (Fn.under sub ζ)) = j := by exact_mod_cast b
        have e1 := load_self h.rnd (Fn.under sub ζ)
        have e2 := load_self h.cnd (Fn.under sub ζ)
        rw [a'] at e1
        rw [b'] at e2
        refine sv_agree fun n hn => ?_
        rcases List.mem_append.1 (hv n hn) with hr | hc
        · rw [← e1]
          exact load_in hr
        · have hnr : n ∉ rn := fun hr => h.disj n hr hc
          rw [load_notin hnr]
          conv_lhs => rw [← e2]
          exact load_in hc
      unfold readCell
      rw [r1, of_some, bind_ok, c1, of_some, bind_ok, s1, of_some, bind_ok, w1, bind_ok, bv2int,
        if_pos (scalar_of_sv fun a b => (hval a).trans (hval b).symm), hval]
    unfold smatrix2matrix
    rw [if_neg]
    · have hl : ∀ {α : Type} (l : List α), collect (l.map Out.ok) = .ok l := by
        intro α l
        induction l with
        | nil => rfl
        | cons a l ih => rw [List.map_cons, collect, bind_ok, ih]; rfl
      have h1 : ∀ i < sm.rows, collect ((List.range sm.cols).map fun j => readCell sm i j) =
          .ok ((List.range sm.cols).map fun j => entry sm rn cn η i j) := by
        intro i hi'
        rw [List.map_congr_left (g := Out.ok ∘ fun j => entry sm rn cn η i j) fun j hj =>
          hcell i hi' j (List.mem_range.1 hj), ← List.map_map, hl]
      rw [List.map_congr_left (g := Out.ok ∘ fun i => (List.range sm.cols).map fun j => entry sm rn cn η i j)
        fun i hi' => h1 i (List.mem_range.1 hi'), ← List.map_map, hl]
    · rw [not_not, List.filter_eq_nil_iff]
      intro n hn
      simp [hdep, List.mem_append.1 (hv n hn)]
  · rintro ⟨n, hn, hni⟩
    unfold smatrix2matrix
    rw [if_pos]
    intro hc
    rw [List.filter_eq_nil_iff] at hc
    have hd : n ∈ Fn.depends sm.v := by
      by_contra hcon
      exact hni (depends_iff.1 hcon)
    have := hc n hd
    rw [decide_eq_true_eq, not_not, hdep] at this
    exact hn this

/-- C101: reading a matrix of integers back gives the matrix. -/
theorem c101_round_trip (m : List (List Int)) (rb cb : String) (hr : '[' ∉ rb.toList) (hc : '[' ∉ cb.toList) (hne : rb ≠ cb)
    (hm : m ≠ []) (cols : Nat) (hcols : ∀ row ∈ m, row.length = cols) (hpos : 0 < cols) :
    ∃ sm : SMat o, matrix2smatrix intMatrix2symb m rb cb = .ok sm ∧ smatrix2matrix sm = .ok m := by
  obtain ⟨sm, wr, wc, h1, h2, h3, h4, h5, h6, h7, _, h9⟩ := c101_make (o := o) m rb cb hr hc hne hm cols hcols hpos
  refine ⟨sm, h1, ?_⟩
  rw [(c101_read sm _ _ h6).1 h9 (fun _ => false), h2, h3]
  congr 1
  refine List.ext_getElem (by simp) fun i hi hi' => ?_
  have hrow := hcols m[i] (List.getElem_mem _)
  simp only [List.getElem_map, List.getElem_range]
  refine List.ext_getElem (by simp [hrow]) fun j hj hj' => ?_
  simp only [List.getElem_map, List.getElem_range]
  rw [h7 _ i j (lt_of_lt_of_le hi' h4.2.1) (lt_of_lt_of_le (by omega) h5.2.1)]
  simp [hi', hj']

end Voss.Smat
