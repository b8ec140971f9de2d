import Verif.Node.MapLemmas

/- C73: names and nodes of a circuit. -/
namespace Voss.Node
open Voss.Vec

theorem of_run {xs : List Sg} {st : State} (h : Circuit xs) (hd : declareAll ⟨[], []⟩ (xs.map Sg.decl) = some st) :
    ∃ ps : List (Sg × Info), Inv ps st ∧ ps.map Prod.fst = xs ∧ (∀ p ∈ ps, p.1.Ok) ∧
      ((ps.map Prod.fst).flatMap Sg.bits).Nodup := by
  obtain ⟨ps, h1, h2⟩ := run_inv h hd
  refine ⟨ps, h1, h2, ?_, h2 ▸ h.once⟩
  intro p hp
  exact h.ok p.1 (h2 ▸ List.mem_map.mpr ⟨p, hp, rfl⟩)

/-- Declaring succeeds if the formals have as many bits as their actuals have nodes. -/
theorem c73_total {xs : List Sg} (h : Circuit xs)
    (hl : ∀ x ∈ xs, ∀ m, x.act = some m → (nodesOf m).length = x.bits.length) :
    ∃ st, declareAll ⟨[], []⟩ (xs.map Sg.decl) = some st := by
  have : ∀ (xs : List Sg) (s0 : State), (∀ x ∈ xs, x.Ok) →
      (∀ x ∈ xs, ∀ m, x.act = some m → (nodesOf m).length = x.bits.length) →
      ∃ st, declareAll s0 (xs.map Sg.decl) = some st := by
    intro xs
    induction xs with
    | nil => intro s0 _ _; exact ⟨s0, rfl⟩
    | cons x xs ih =>
      intro s0 hok hl
      have hx := hok x List.mem_cons_self
      have h1 : ∃ s1, declare s0 x.decl = some s1 := by
        unfold declare
        rw [show x.decl.name = vecText x.name from rfl, split_name hx, show x.decl.act = x.act from rfl]
        cases ha : x.act with
        | none => exact ⟨_, rfl⟩
        | some m =>
          have hm := hl x List.mem_cons_self m ha
          rw [nodesOf_length m (hx.act m ha), bits_norm, List.length_map, expand_length] at hm
          have : size (norm x.name) = (m.map Run.size).sum := by rw [hm]; rfl
          simp only [this, ne_eq, not_true_eq_false, if_false]
          exact ⟨_, rfl⟩
      obtain ⟨s1, h1⟩ := h1
      rw [List.map_cons, declareAll, h1]
      exact ih s1 (fun y hy => hok y (List.mem_cons_of_mem _ hy)) fun y hy => hl y (List.mem_cons_of_mem _ hy)
  exact this xs _ h.ok hl

/-- Every node has a name under which it is found. -/
theorem c73_node_partial {xs : List Sg} {st : State} (h : Circuit xs)
    (hd : declareAll ⟨[], []⟩ (xs.map Sg.decl) = some st) {n : Nat} (hn : n < st.nodes.length) :
    ∃ s, idx2name st n = some s ∧ name2idx st s = .ok n := by
  obtain ⟨ps, hi, _, hok, hnd⟩ := of_run h hd
  obtain ⟨x, hx, ha, n0, j, hm, hj, rfl⟩ := hi.node n _ (List.getElem?_eq_getElem hn)
  have hlt : j < x.bits.length := by
    rw [bits_norm, List.length_map, expand_length]
    exact hj
  refine ⟨_, node_named hi hok hx ha hm (List.getElem?_eq_getElem hlt), ?_⟩
  rw [name_found hi hok hnd hx (List.getElem_mem hlt) hm]
  have := nodup_of_flatMap hnd (List.mem_map.mpr ⟨_, hx, rfl⟩)
  rw [this.idxOf_getElem]
  simp

/-- The bits of a declared signal have consecutive nodes, in the order in which they are written, and go by their
names. -/
theorem c73_bits_partial {xs : List Sg} {st : State} (h : Circuit xs)
    (hd : declareAll ⟨[], []⟩ (xs.map Sg.decl) = some st) {x : Sg} (hx : x ∈ xs) (ha : x.act = none) :
    ∃ n : Nat, ∀ (k : Nat) (b : Vec), x.bits[k]? = some b →
      name2idx st (vecText b) = .ok (n + k : Nat) ∧ idx2name st (n + k) = some (vecText b) := by
  obtain ⟨ps, hi, hfst, hok, hnd⟩ := of_run h hd
  rw [← hfst] at hx
  obtain ⟨p, hp, rfl⟩ := List.mem_map.mp hx
  obtain ⟨n, hm⟩ := (hi.entry p hp).own ha
  refine ⟨n, fun k b hk => ⟨?_, node_named hi hok hp ha hm hk⟩⟩
  obtain ⟨hlt, rfl⟩ := List.getElem?_eq_some_iff.mp hk
  rw [name_found hi hok hnd hp (List.getElem_mem hlt) hm]
  have := nodup_of_flatMap hnd (List.mem_map.mpr ⟨_, hp, rfl⟩)
  rw [this.idxOf_getElem]
  simp

/-- Different bits are different nodes. -/
theorem c73_distinct_partial {xs : List Sg} {st : State} (h : Circuit xs)
    (hd : declareAll ⟨[], []⟩ (xs.map Sg.decl) = some st) {x y : Sg} (hx : x ∈ xs) (hy : y ∈ xs) (hxa : x.act = none)
    (hya : y.act = none) {b c : Vec} (hb : b ∈ x.bits) (hc : c ∈ y.bits)
    (he : name2idx st (vecText b) = name2idx st (vecText c)) : b = c := by
  obtain ⟨n, h1⟩ := c73_bits_partial h hd hx hxa
  obtain ⟨m, h2⟩ := c73_bits_partial h hd hy hya
  obtain ⟨i, hi, rfl⟩ := List.getElem_of_mem hb
  obtain ⟨j, hj, rfl⟩ := List.getElem_of_mem hc
  have g1 := h1 i _ (List.getElem?_eq_getElem hi)
  have g2 := h2 j _ (List.getElem?_eq_getElem hj)
  rw [g1.1, g2.1] at he
  simp only [Res.ok.injEq] at he
  have e : n + i = m + j := by omega
  rw [e] at g1
  have ht := g1.2.symm.trans g2.2
  simp only [Option.some.injEq] at ht
  have w1 := bit_of (h.ok x hx) hb
  have w2 := bit_of (h.ok y hy) hc
  exact vecText_inj ⟨w1.1, w1.2.1⟩ ⟨w2.1, w2.2.1⟩ ht

/-- A vector stands for the nodes of its bits, in order. -/
theorem c73_vector_partial {xs : List Sg} {st : State} (h : Circuit xs)
    (hd : declareAll ⟨[], []⟩ (xs.map Sg.decl) = some st) {x : Sg} (hx : x ∈ xs) (ha : x.act = none)
    {v : Vec} (hv : WF v) (hs : '*' ∉ vecText v) (hb : ∀ b ∈ expand v, b ∈ x.bits) :
    ∃ m, vec2indices st (vecText v) = .ok m ∧
      (expand v).map (fun b => name2idx st (vecText b)) = (nodesOf m).map Res.ok := by
  obtain ⟨ps, hi, hfst, hok, hnd⟩ := of_run h hd
  rw [← hfst] at hx
  obtain ⟨p, hp, rfl⟩ := List.mem_map.mp hx
  obtain ⟨n, hm⟩ := (hi.entry p hp).own ha
  obtain ⟨m, h1, h2⟩ := vec_found hi hok hnd hp hv hs hb
  refine ⟨m, h1, ?_⟩
  have hnb := nodup_of_flatMap hnd (List.mem_map.mpr ⟨_, hp, rfl⟩)
  generalize hN : nodesOf m = N at h2
  generalize expand v = E at h2
  clear hN hb
  induction h2 with
  | nil => rfl
  | cons hh _ ih =>
    obtain ⟨k, hk1, hk2⟩ := hh
    rw [List.map_cons, List.map_cons, ih]
    obtain ⟨hlt, rfl⟩ := List.getElem?_eq_some_iff.mp hk1
    have hk1' : k < p.1.bits.length := hlt
    rw [name_found hi hok hnd hp (List.getElem_mem hlt) hm]
    rw [show (p.1.bits.idxOf (expand p.1.full)[k]) = k from hnb.idxOf_getElem k hlt]
    congr 2
    have e : (nodesOf p.2.map) = Rng.bits ⟨n, n + size (norm p.1.name) - 1⟩ := by
      rw [hm]; simp [nodesOf]
    rw [e] at hk2
    have hkl := (List.getElem?_eq_some_iff.mp hk2).1
    have hsz := size_name (hok p hp)
    rw [bits_get _ _ hkl] at hk2
    simp only [Option.some.injEq] at hk2
    rw [← hk2]
    simp only
    split
    · omega
    · rfl

/-- A formal of an instance stands for the nodes of its actuals: bit by bit the same nodes in the same order. -/
theorem c73_formal_partial {xs : List Sg} {st : State} (h : Circuit xs)
    (hd : declareAll ⟨[], []⟩ (xs.map Sg.decl) = some st) {x : Sg} (hx : x ∈ xs) {a : List Run} (ha : x.act = some a)
    {v : Vec} (hv : WF v) (hs : '*' ∉ vecText v) (hb : ∀ b ∈ expand v, b ∈ x.bits) :
    ∃ m, vec2indices st (vecText v) = .ok m ∧ List.Forall₂ (NodeOf x.full a) (expand v) (nodesOf m) := by
  obtain ⟨ps, hi, hfst, hok, hnd⟩ := of_run h hd
  rw [← hfst] at hx
  obtain ⟨p, hp, rfl⟩ := List.mem_map.mp hx
  obtain ⟨m, h1, h2⟩ := vec_found hi hok hnd hp hv hs hb
  rw [(hi.entry p hp).act a ha] at h2
  exact ⟨m, h1, h2⟩

/-- The vectors declared in an instance form a table in which actuals are looked up. -/
theorem c73_table {xs : List Sg} {st : State} (h : Circuit xs)
    (hd : declareAll ⟨[], []⟩ (xs.map Sg.decl) = some st) (hier : List Char) :
    Table (st.infos.filter fun e => e.hier = hier) := by
  obtain ⟨ps, hi, hfst, hok, hnd⟩ := of_run h hd
  have hmem : ∀ e ∈ st.infos.filter (fun e => e.hier = hier), ∃ p ∈ ps, p.2 = e ∧ p.1.hier = hier := by
    intro e he
    simp only [List.mem_filter, decide_eq_true_eq, hi.infos, List.mem_map] at he
    obtain ⟨⟨p, hp, rfl⟩, hk⟩ := he
    exact ⟨p, hp, rfl, by rw [← (hi.entry p hp).hier, hk]⟩
  refine ⟨?_, ?_, ?_, ?_, ?_, ?_⟩
  · intro e he
    obtain ⟨p, hp, rfl, _⟩ := hmem e he
    rw [(hi.entry p hp).decl]
    exact splitLoop_wf _ _ _ (splitLoop_text _ _ (hok p hp).wfName (Nat.le_refl _))
  · intro e he
    obtain ⟨p, hp, rfl, _⟩ := hmem e he
    rw [(hi.entry p hp).decl]
    have h1 := nostar_of_text _ (hok p hp).star
    refine star_of_nostar _ (nostar_shape (v := p.1.name) (shape_norm _).symm ⟨?_, h1.2⟩)
    exact fun hc => h1.1 (List.mem_append_right _ hc)
  · intro e he
    obtain ⟨p, hp, rfl, _⟩ := hmem e he
    rw [(hi.entry p hp).decl]
    exact (hok p hp).down
  · intro e he
    obtain ⟨p, hp, rfl, _⟩ := hmem e he
    exact (hi.entry p hp).runs
  · intro e he
    obtain ⟨p, hp, rfl, _⟩ := hmem e he
    rw [(hi.entry p hp).len, (hi.entry p hp).decl, expand_length]
  · rw [hi.infos]
    clear hmem
    have hent := hi.entry
    clear hi hfst
    induction ps with
    | nil => simp
    | cons p ps ih =>
      rw [List.map_cons, List.flatMap_cons, List.nodup_append] at hnd
      obtain ⟨h1, h2, h3⟩ := hnd
      have ih' := ih (fun q hq => hok q (List.mem_cons_of_mem _ hq)) h2 fun q hq => hent q (List.mem_cons_of_mem _ hq)
      rw [List.map_cons, List.filter_cons]
      split
      · rename_i hk
        simp only [decide_eq_true_eq] at hk
        have hp := hent p List.mem_cons_self
        have hdecl : ∀ q ∈ p :: ps, expand q.2.decl = (expand (norm q.1.rest)).map (.txt q.1.base :: ·) := by
          intro q hq
          rw [(hent q hq).decl]
          rfl
        rw [List.flatMap_cons, List.nodup_append]
        refine ⟨?_, ih', ?_⟩
        · rw [hdecl p List.mem_cons_self]
          rw [bits_norm] at h1
          refine List.Nodup.map ?_ (List.Nodup.of_map _ h1)
          intro a b hab
          simpa using hab
        · intro a ha b hb'
          rintro rfl
          obtain ⟨e, he, hbe⟩ := List.mem_flatMap.mp hb'
          simp only [List.mem_filter, decide_eq_true_eq, List.mem_map] at he
          obtain ⟨⟨q, hq, rfl⟩, hkq⟩ := he
          rw [hdecl p List.mem_cons_self] at ha
          rw [hdecl q (List.mem_cons_of_mem _ hq)] at hbe
          obtain ⟨b1, hb1, rfl⟩ := List.mem_map.mp ha
          obtain ⟨b2, hb2, heq⟩ := List.mem_map.mp hbe
          simp only [List.cons.injEq, Seg.txt.injEq] at heq
          obtain ⟨hbase, rfl⟩ := heq
          have hh : p.1.hier = q.1.hier := by
            rw [← hp.hier, ← (hent q (List.mem_cons_of_mem _ hq)).hier, hk, hkq]
          refine h3 (.txt (p.1.hier ++ p.1.base) :: b2) ?_ (.txt (p.1.hier ++ p.1.base) :: b2) ?_ rfl
          · rw [bits_norm]
            exact List.mem_map.mpr ⟨b2, hb1, rfl⟩
          · refine List.mem_flatMap.mpr ⟨q.1, List.mem_map.mpr ⟨q, hq, rfl⟩, ?_⟩
            rw [bits_norm, hh, ← hbase]
            exact List.mem_map.mpr ⟨b2, hb2, rfl⟩
      · exact ih'

/-- An actual, which may be spread over several declarations, stands for the nodes of its bits in order. -/
theorem c73_actual_partial {es : List Info} (ht : Table es) {v : Vec} (hv : WF v) (hs : '*' ∉ vecText v)
    (hc : ∀ cs, vecText v ≠ '0' :: 'b' :: cs) (hb : ∀ b ∈ expand v, ∃ e ∈ es, b ∈ expand e.decl) :
    ∃ m, mapVector es (vecText v) = .ok m ∧
      List.Forall₂ (fun b n => ∃ e ∈ es, NodeOf e.decl e.map b n) (expand v) (nodesOf m) := by
  have hne := wf_idx v hv
  have hns := nostar_of_text v hs
  have ht' := table_filter ht fun e => sig e.decl = sig (norm v)
  have hf : ∀ e ∈ es.filter (fun e => sig e.decl = sig (norm v)), Fits e.decl (norm v) := by
    intro e he
    have hk := (List.mem_filter.mp he).2
    simp only [decide_eq_true_eq, sig_norm] at hk
    exact fits_norm (table_fits (ht'.wf e he) (ht'.star e he) hv hns hk hne) hne
  have hb' : ∀ b ∈ expand (norm v), ∃ e ∈ es.filter (fun e => sig e.decl = sig (norm v)), b ∈ expand e.decl := by
    intro b hbv
    rw [expand_norm] at hbv
    obtain ⟨e, he, hbe⟩ := hb b hbv
    refine ⟨e, List.mem_filter.mpr ⟨he, ?_⟩, hbe⟩
    simp only [decide_eq_true_eq, sig_norm]
    refine sig_of_shape _ _ ?_
    rw [selects_shape ((mem_expand _ _).mp hbe), selects_shape ((mem_expand _ _).mp hbv)]
  have hsub : ∀ e ∈ es.filter (fun e => sig e.decl = sig (norm v)), e ∈ es := fun e he => (List.mem_filter.mp he).1
  unfold mapVector
  split
  · rename_i cs hcs
    exact absurd hcs (hc cs)
  · rw [split_text hv]
    simp only
    by_cases h1 : ∃ e ∈ es.filter (fun e => sig e.decl = sig (norm v)), ∀ b ∈ expand (norm v), b ∈ expand e.decl
    · obtain ⟨e, he, ha⟩ := h1
      obtain ⟨m, g1, g2⟩ := declLoop_found ht' hf he ha
      rw [g1]
      simp only
      refine ⟨m, rfl, ?_⟩
      rw [expand_norm] at g2
      exact g2.imp fun b n hh => ⟨e, hsub e he, hh⟩
    · rw [declLoop_miss _ fun e he => mapOne_miss (hf e he) (ht'.down e he) (ht'.runs e he) (ht'.len e he)
        fun hall => h1 ⟨e, he, hall⟩]
      simp only
      obtain ⟨m, g1, g2, _⟩ := bitLoop_found ht' hf (expand (norm v)) (fun _ hb => hb) hb'
      refine ⟨m, g1, ?_⟩
      rw [expand_norm] at g2
      exact g2.imp fun b n ⟨e, he, hh⟩ => ⟨e, hsub e he, hh⟩

/-- A constant stands for the nodes 0, 1 and 2 digit by digit. -/
theorem c73_constant (es : List Info) (cs : List Char) (h : ∀ c ∈ cs, c = '0' ∨ c = '1' ∨ c = 'x') :
    ∃ m, mapVector es ('0' :: 'b' :: cs) = .ok m ∧ Runs m ∧
      nodesOf m = cs.map fun c => if c = '0' then 0 else if c = '1' then 1 else 2 := by
  rw [mapVector]
  induction cs with
  | nil => exact ⟨[], rfl, by simp [Runs], rfl⟩
  | cons c cs ih =>
    obtain ⟨m, h1, h2, h3⟩ := ih fun d hd => h d (List.mem_cons_of_mem _ hd)
    rw [mapConst, h1]
    have e : ∀ n : Int, nodesOf (⟨n, n, 1⟩ :: m) = n :: nodesOf m := by
      intro n
      simp [nodesOf, bits_one]
    have hr : ∀ n : Int, 0 ≤ n → Runs (⟨n, n, 1⟩ :: m) := by
      intro n hn r hr
      rcases List.mem_cons.mp hr with rfl | hr
      · simp [hn]
      · exact h2 r hr
    rcases h c List.mem_cons_self with rfl | rfl | rfl
    · exact ⟨_, rfl, hr 0 (by omega), by rw [e, h3]; rfl⟩
    · exact ⟨_, rfl, hr 1 (by omega), by rw [e, h3]; rfl⟩
    · exact ⟨_, rfl, hr 2 (by omega), by rw [e, h3]; rfl⟩

/-- A slice of a vector stands for those of its nodes. -/
theorem c73_slice {m : List Run} (h : Runs m) {a b : Nat} (hab : a ≤ b) (hb : b < (nodesOf m).length) :
    ∃ m', translate m a b = some m' ∧ Runs m' ∧ nodesOf m' = ((nodesOf m).drop a).take (b - a + 1) := by
  obtain ⟨c, m1, m2, h1, h2, h3, h4, h5⟩ := seek_spec a m 0 h (by omega) (by omega)
  have hr2 : Runs m2 := fun r hr => h r (by rw [h2]; exact List.mem_append_right _ hr)
  have e : nodesOf m = nodesOf m1 ++ nodesOf m2 := by rw [h2]; exact List.flatMap_append
  have hlen : (nodesOf m).length = (nodesOf m1).length + (nodesOf m2).length := by rw [e, List.length_append]
  obtain ⟨m', g1, g2, g3⟩ := take_spec m2 c (a - c) (b - a + 1) [] hr2 (by simp [Runs]) (by omega) h5 (by omega)
  refine ⟨m', ?_, g2, ?_⟩
  · unfold translate
    rw [if_pos (by omega)]
    have : seek (a : Int) m 0 = some ((c : Int), m2) := h1
    rw [this]
    simp only
    have e1 : (((c + (a - c) : Nat)) : Int) = (a : Int) := by omega
    have e2 : (((b - a + 1 : Nat)) : Int) = (b : Int) - (a : Int) + 1 := by omega
    rw [e1, e2] at g1
    exact g1
  · rw [g3, e]
    have hc : c = (nodesOf m1).length := by omega
    have ea : a = (nodesOf m1).length + (a - c) := by omega
    conv => rhs; rw [ea]
    rw [List.drop_append]
    have h0 : (nodesOf m1).drop ((nodesOf m1).length + (a - c)) = [] := List.drop_eq_nil_of_le (by omega)
    rw [h0, List.nil_append, Nat.add_sub_cancel_left, ← ea]
    rfl

/-! ### Violations -/

/-- A declaration in the form in which it is called. -/
def d (hier name : String) (act : Option (List Run)) : Decl := ⟨hier.toList, name.toList, act⟩

/-- Ranges from the lower to the higher index: two bits are the same node. -/
theorem c73_ascending_violated : ∃ st, declareAll ⟨[], []⟩ [d "" "m[1:0][0:3]" none] = some st ∧
    name2idx st "m[0][0]".toList = name2idx st "m[1][2]".toList ∧
    idx2name st 2 = some "m[0][0]".toList := by
  refine ⟨_, rfl, ?_⟩
  decide +kernel

/-- A node without a name. -/
theorem c73_stride_violated : ∃ st, declareAll ⟨[], []⟩ [d "" "m[1:0][0:1]" none] = some st ∧
    st.nodes.length = 4 ∧ idx2name st 0 = none := by
  refine ⟨_, rfl, ?_⟩
  decide +kernel

/-- The bits of a formal bound to two signals: the second bit resolves to the node after the first. -/
theorem c73_formal_violated : ∃ st, declareAll ⟨[], []⟩ [d "" "a" none, d "" "b" none, d "" "c" none,
      d "i/" "x[1:0]" (some [⟨1, 1, 1⟩, ⟨0, 0, 1⟩])] = some st ∧
    name2idx st "i/x[0]".toList = name2idx st "c".toList ∧
    vec2indices st "i/x[0]".toList = .ok [⟨0, 0, 1⟩] ∧ name2idx st "a".toList = .ok 0 := by
  refine ⟨_, rfl, ?_⟩
  decide +kernel

/-- A signal with an escaped name in an instance is not found under its own name. -/
theorem c73_escaped_violated : ∃ st, declareAll ⟨[], []⟩ [d "i/" "\\a[3] " none] = some st ∧
    idx2name st 0 = some "i/\\a[3] ".toList ∧ name2idx st "i/\\a[3] ".toList = .miss := by
  refine ⟨_, rfl, ?_⟩
  decide +kernel

/-- A vector with an escaped name in an instance: the text is read as ranges. -/
theorem c73_escaped_vector_violated : ∃ st, declareAll ⟨[], []⟩ [d "i/" "\\a [1:0]" none] = some st ∧
    idx2name st 0 = some "i/\\a [1]".toList ∧ name2idx st "i/\\a [1]".toList = .ub := by
  refine ⟨_, rfl, ?_⟩
  decide +kernel

/-- A name of several bits is taken for its first bit. -/
theorem c73_multi_violated : ∃ st, declareAll ⟨[], []⟩ [d "" "x[3:0]" none] = some st ∧
    name2idx st "x[3:2]".toList = name2idx st "x[3]".toList := by
  refine ⟨_, rfl, ?_⟩
  decide +kernel

/-! ### Examples -/

/-- A circuit with a memory, an instance, and a formal bound to a row of the memory backwards. -/
def exs : List Sg :=
  [⟨[], "m[".toList, [.idx [⟨0, 1⟩], .txt "][".toList, .idx [⟨1, 0⟩], .txt "]".toList], none⟩,
   ⟨[], "clk".toList, [], none⟩,
   ⟨"i/".toList, "x[".toList, [.idx [⟨1, 0⟩], .txt "]".toList], some [⟨4, 4, 1⟩, ⟨0, 0, 1⟩]⟩]

theorem exs_circuit : Circuit exs := by
  refine ⟨?_, by decide +kernel⟩
  intro x hx
  simp only [exs, List.mem_cons, List.not_mem_nil, or_false] at hx
  rcases hx with rfl | rfl | rfl
  · exact ⟨⟨.inr ⟨⟨by decide, by decide, by decide, by decide⟩, .inr ⟨⟨['m'], rfl⟩, _, _, rfl⟩⟩, by simp, by decide,
        ⟨_, _, rfl⟩, .inr ⟨⟨by decide, by decide, by decide, by decide⟩, .inr ⟨⟨[']'], rfl⟩, _, _, rfl⟩⟩, by simp, by decide,
        ⟨_, _, rfl⟩, .inr ⟨⟨by decide, by decide, by decide, by decide⟩, .inl rfl⟩, trivial⟩,
      ⟨.inr ⟨⟨by decide, by decide, by decide, by decide⟩, .inr ⟨⟨['m'], rfl⟩, _, _, rfl⟩⟩, by simp, by decide,
        ⟨_, _, rfl⟩, .inr ⟨⟨by decide, by decide, by decide, by decide⟩, .inr ⟨⟨[']'], rfl⟩, _, _, rfl⟩⟩, by simp, by decide,
        ⟨_, _, rfl⟩, .inr ⟨⟨by decide, by decide, by decide, by decide⟩, .inl rfl⟩, trivial⟩,
      ⟨by simp [Inner], by simp [Inner], trivial⟩, by decide +kernel,
      by simp [norm, TailDown, Down, mergeIndices, mergeTail], by simp⟩
  · exact ⟨⟨.inr ⟨⟨by decide, by decide, by decide, by decide⟩, .inl rfl⟩, trivial⟩,
      ⟨.inr ⟨⟨by decide, by decide, by decide, by decide⟩, .inl rfl⟩, trivial⟩, trivial, by decide, trivial, by simp⟩
  · exact ⟨⟨.inr ⟨⟨by decide, by decide, by decide, by decide⟩, .inr ⟨⟨['x'], rfl⟩, _, _, rfl⟩⟩, by simp, by decide,
        ⟨_, _, rfl⟩, .inr ⟨⟨by decide, by decide, by decide, by decide⟩, .inl rfl⟩, trivial⟩,
      ⟨.inr ⟨⟨by decide, by decide, by decide, by decide⟩, .inr ⟨⟨"i/x".toList, rfl⟩, _, _, rfl⟩⟩, by simp, by decide,
        ⟨_, _, rfl⟩, .inr ⟨⟨by decide, by decide, by decide, by decide⟩, .inl rfl⟩, trivial⟩,
      ⟨by simp [Inner], trivial⟩, by decide +kernel, by simp [norm, TailDown, Down, mergeIndices, mergeTail],
      by simp [Runs]⟩

/-- The circuit is declared, and has five nodes. -/
example : ∃ st, declareAll ⟨[], []⟩ (exs.map Sg.decl) = some st ∧ st.nodes.length = 5 ∧
    name2idx st "m[1][0]".toList = .ok 3 ∧ idx2name st 3 = some "m[1][0]".toList ∧
    vec2indices st "m[0:1][0]".toList = .ok [⟨1, 1, 1⟩, ⟨3, 3, 1⟩] ∧
    vec2indices st "i/x[0]".toList = .ok [⟨0, 0, 1⟩] := by
  refine ⟨_, rfl, ?_⟩
  decide +kernel

example : ∃ st, declareAll ⟨[], []⟩ (exs.map Sg.decl) = some st ∧
    mapVector (st.infos.filter fun e => e.hier = []) "m[1][1:0]".toList = .ok [⟨2, 3, 2⟩] := by
  refine ⟨_, rfl, ?_⟩
  decide +kernel

example : translate [⟨4, 7, 4⟩, ⟨3, 1, 3⟩] 2 5 = some [⟨6, 7, 2⟩, ⟨3, 2, 2⟩] := by decide

end Voss.Node
