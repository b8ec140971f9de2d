import Verif.Cache.TableSpec
import Verif.Cache.MemoLemmas
import Verif.Lib.HashLemmas
/-
Lemmas on fl tables.
-/
namespace Voss.Tab
open Voss.Lib (Tbl HashOK Bucketed)
open Voss.Cache (V Leaf HashEnv)

variable {K D : Type} {h : K → Nat → Nat} {eq : K → K → Bool}

/-- An entry of the map as it is stored. -/
def stored (m : Map K D) : List (K × Option D) := m.map fun e => (e.1, some e.2)

/-- The table stands for the map. -/
structure TRel (h : K → Nat → Nat) (eq : K → K → Bool) (t : Tbl K D) (m : Map K D) : Prop where
  bk : Bucketed h t.size t.table
  perm : t.table.flatten.Perm (stored m)
  uniq : m.Pairwise fun a b => eq a.1 b.1 = false
  cnt : t.elements = m.length

theorem get_none {m : Map K D} {k : K} : m.get eq k = none ↔ ∀ e ∈ m, eq k e.1 = false := by
  simp [Map.get]

/-- Entries with equal keys are the same entry. -/
theorem uniq_inj (H : HashOK h eq) : ∀ {m : Map K D}, m.Pairwise (fun a b => eq a.1 b.1 = false) →
    ∀ {a b : K × D}, a ∈ m → b ∈ m → eq a.1 b.1 = true → a = b
  | [], _, _, _, ha, _, _ => by cases ha
  | e :: m, hp, a, b, ha, hb, hab => by
    rw [List.pairwise_cons] at hp
    rcases List.mem_cons.1 ha with rfl | ha' <;> rcases List.mem_cons.1 hb with rfl | hb'
    · rfl
    · rw [hp.1 b hb'] at hab; cases hab
    · have := H.symm _ _ hab
      rw [hp.1 a ha'] at this; cases this
    · exact uniq_inj H hp.2 ha' hb' hab

theorem create_ok {n : Nat} (hn : n ≤ 2147483629) : ∃ t, Lib.create n = some t ∧ TRel h eq (t : Tbl K D) [] := by
  obtain ⟨p, e, hp⟩ := Lib.nextPrime_spec hn
  refine ⟨⟨true, p, 0, List.replicate p []⟩, by simp only [Lib.create, e, Option.bind_eq_bind, Option.bind_some],
    Lib.bucketed_empty hp, ?_, List.Pairwise.nil, rfl⟩
  simp [Lib.flatten_replicate_nil, stored]

theorem find_ok (H : HashOK h eq) {t : Tbl K D} {m : Map K D} (R : TRel h eq t m) (k : K) :
    Lib.find h eq t k = some (m.get eq k) := by
  obtain ⟨chain, hc, hall⟩ := Lib.chain_of H R.bk k
  simp only [Lib.find, hc, Option.bind_eq_bind, Option.bind_some, Map.get]
  congr 1
  have hmem : ∀ e, e ∈ t.table.flatten ↔ ∃ e' ∈ m, e = (e'.1, some e'.2) := by
    intro e
    rw [R.perm.mem_iff]
    simp only [stored, List.mem_map]
    constructor
    · rintro ⟨a, ha, rfl⟩; exact ⟨a, ha, rfl⟩
    · rintro ⟨a, ha, rfl⟩; exact ⟨a, ha, rfl⟩
  cases hf : chain.find? (fun e => eq k e.1) with
  | some e =>
    have h1 := List.find?_some hf
    have h2 := List.mem_of_find?_eq_some hf
    obtain ⟨e', he', rfl⟩ := (hmem e).1 (List.mem_flatten.2 ⟨chain, List.mem_of_getElem? hc, h2⟩)
    cases hg : m.find? (fun e => eq k e.1) with
    | none => exact absurd h1 (by simpa using List.find?_eq_none.1 hg e' he')
    | some e'' =>
      have h3 := List.find?_some hg
      have h4 := List.mem_of_find?_eq_some hg
      have : e' = e'' := uniq_inj H R.uniq he' h4 (H.trans _ _ _ (H.symm _ _ h1) h3)
      subst this
      rfl
  | none =>
    cases hg : m.find? (fun e => eq k e.1) with
    | none => rfl
    | some e =>
      have h3 : eq k e.1 = true := by simpa using List.find?_some hg
      have h4 := List.mem_of_find?_eq_some hg
      have := List.find?_eq_none.1 hf (e.1, some e.2) (hall _ ((hmem _).2 ⟨e, h4, rfl⟩) h3)
      exact absurd h3 this

theorem insert_ok (H : HashOK h eq) {t : Tbl K D} {m : Map K D} (R : TRel h eq t m) (hn : m.length ≤ 2147483629)
    {k : K} {d : D} (hk : m.get eq k = none) :
    ∃ t', Lib.insert h t k (some d) = some t' ∧ TRel h eq t' ((k, d) :: m) := by
  have hres : ∃ t1, Lib.resize h t = some t1 ∧ TRel h eq t1 m := by
    unfold Lib.resize
    split
    · obtain ⟨p, e, hp⟩ := Lib.nextPrime_spec (n := t.elements) (by rw [R.cnt]; exact hn)
      obtain ⟨tbl, e2, B, P⟩ := Lib.placeAll_spec H t.table.flatten _ (Lib.bucketed_empty (V := D) (h := h) hp)
      refine ⟨{ t with size := p, table := tbl }, by simp only [e, Option.bind_eq_bind, Option.bind_some, e2], B, ?_, R.uniq, R.cnt⟩
      have P' : tbl.flatten.Perm t.table.flatten := by simpa [Lib.flatten_replicate_nil] using P
      exact P'.trans R.perm
    · exact ⟨t, rfl, R⟩
  obtain ⟨t1, e1, R1⟩ := hres
  obtain ⟨tbl, e2, B, P⟩ := Lib.place_spec H R1.bk (k, some d)
  refine ⟨{ t1 with elements := t1.elements + 1, table := tbl },
    by simp only [Lib.insert, e1, Option.bind_eq_bind, Option.bind_some, e2], B, ?_, ?_, ?_⟩
  · exact P.trans (R1.perm.cons _)
  · exact List.Pairwise.cons (get_none.1 hk) R.uniq
  · show t1.elements + 1 = _
    rw [R1.cnt]
    rfl

theorem erase_stored (k : K) : ∀ (m : Map K D), (stored m).eraseP (fun e => eq k e.1) = stored (m.del eq k)
  | [] => rfl
  | e :: m => by
    simp only [stored, List.map_cons, Map.del, List.eraseP_cons]
    cases hk : eq k e.1 with
    | true => simp
    | false =>
      simp only [cond_false, List.map_cons]
      exact congrArg _ (erase_stored k m)

theorem delete_ok (H : HashOK h eq) {t : Tbl K D} {m : Map K D} (R : TRel h eq t m) {k : K} (hk : (m.get eq k).isSome) :
    ∃ t', Lib.delete h eq t k = some t' ∧ TRel h eq t' (m.del eq k) := by
  obtain ⟨chain, hc, hall⟩ := Lib.chain_of H R.bk k
  have hex : ∃ e ∈ stored m, eq k e.1 = true := by
    obtain ⟨d, hd⟩ := Option.isSome_iff_exists.1 hk
    simp only [Map.get, Option.map_eq_some_iff] at hd
    obtain ⟨e, he, _⟩ := hd
    exact ⟨(e.1, some e.2), List.mem_map.2 ⟨e, List.mem_of_find?_eq_some he, rfl⟩, by simpa using List.find?_some he⟩
  obtain ⟨e0, he0, hk0⟩ := hex
  have he0' := R.perm.mem_iff.2 he0
  obtain ⟨c', e, e1, hke, P⟩ := Lib.unlink_spec chain ⟨e0, hall e0 he0' hk0, hk0⟩
  have PF := Lib.flatten_set' t.table _ chain c' e hc P
  have Q : (e :: (t.table.set (h k t.size) c').flatten).Perm (stored m) := PF.trans R.perm
  obtain ⟨a, l1, l2, h1, h2, h3, h4⟩ := List.exists_of_eraseP (p := fun e => eq k e.1) he0 hk0
  have hmema : a ∈ stored m := by rw [h3]; simp
  have hmeme : e ∈ stored m := Q.mem_iff.1 (by simp)
  have hae : a = e := by
    obtain ⟨a', ha', rfl⟩ := List.mem_map.1 hmema
    obtain ⟨e', he', rfl⟩ := List.mem_map.1 hmeme
    have h5 : eq a'.1 e'.1 = true := H.trans _ _ _ (H.symm _ _ h2) hke
    rw [uniq_inj H R.uniq ha' he' h5]
  subst hae
  have Q2 : (a :: (t.table.set (h k t.size) c').flatten).Perm (a :: stored (m.del eq k)) := by
    refine Q.trans ?_
    rw [← erase_stored, h4, h3]
    exact List.perm_middle
  have Q3 := List.Perm.cons_inv Q2
  have hlen : (m.del eq k).length + 1 = m.length := by
    have := Q2.length_eq
    have q := Q.length_eq
    simp [stored] at this q
    omega
  refine ⟨{ t with elements := t.elements - 1, table := t.table.set (h k t.size) c' },
    by simp only [Lib.delete, hc, e1, Option.bind_eq_bind, Option.bind_some], ⟨by simpa using R.bk.1, R.bk.2.1, ?_⟩, Q3, ?_, ?_⟩
  · intro i ch hi e' he'
    rw [List.getElem?_set] at hi
    split at hi
    · next h1 =>
      subst h1
      split at hi
      · cases hi
        exact R.bk.2.2 _ _ hc _ (P.mem_iff.2 (List.mem_cons_of_mem _ he'))
      · exact absurd hi (by simp)
    · exact R.bk.2.2 _ _ hi _ he'
  · exact R.uniq.sublist List.eraseP_sublist
  · show t.elements - 1 = _
    rw [R.cnt]
    omega

theorem insertAll_ok (H : HashOK h eq) : ∀ (kds : List (K × D)) {t : Tbl K D} {m : Map K D}, TRel h eq t m →
    m.length + kds.length ≤ 2147483630 → ∃ t' ok, insertAll h eq t kds = some (t', ok) ∧
      match Map.putAll eq m kds with
      | some m' => ok = true ∧ TRel h eq t' m' ∧ m'.length = m.length + kds.length
      | none => ok = false
  | [], t, m, R, _ => ⟨t, true, rfl, rfl, R, rfl⟩
  | (k, d) :: kds, t, m, R, hn => by
    simp only [List.length_cons] at hn
    simp only [insertAll, find_ok H R, Option.bind_eq_bind, Option.bind_some, Map.putAll]
    cases hg : m.get eq k with
    | some d' => exact ⟨t, false, by simp, by simp⟩
    | none =>
      obtain ⟨t1, e1, R1⟩ := insert_ok H R (by omega) (d := d) hg
      obtain ⟨t2, ok, e2, h2⟩ := insertAll_ok H kds R1 (by simp only [List.length_cons]; omega)
      refine ⟨t2, ok, by simp [e1, e2], ?_⟩
      simp only [Option.isSome_none, Bool.false_eq_true, if_false]
      cases hp : Map.putAll eq ((k, d) :: m) kds with
      | none => rw [hp] at h2; exact h2
      | some m' =>
        rw [hp] at h2
        refine ⟨h2.1, h2.2.1, ?_⟩
        rw [h2.2.2]
        simp only [List.length_cons]
        omega

theorem scan_ok {t : Tbl K D} {m : Map K D} (R : TRel h eq t m) :
    ((Lib.scan t).filterMap fun e => e.2.map fun d => (e.1, d)).Perm m := by
  have := R.perm.filterMap (fun e : K × Option D => e.2.map fun d => (e.1, d))
  refine this.trans ?_
  have : (stored m).filterMap (fun e : K × Option D => e.2.map fun d => (e.1, d)) = m := by
    rw [stored, List.filterMap_map]
    have : ((fun e : K × Option D => Option.map (fun d => (e.1, d)) e.2) ∘ fun e : K × D => (e.1, some e.2)) = some := by
      funext e; rfl
    rw [this, List.filterMap_some]
  rw [this]

/-! ### Nodes -/

/-- The nodes stand for the maps, and no two live nodes hold the same table. -/
structure HRel (h : K → Nat → Nat) (eq : K → K → Bool) (H : Heap K D) (M : Maps K D) (w : Nat) : Prop where
  len : H.nodes.length = M.length
  dead : ∀ i : Nat, H.nodes[i]? = some none → M[i]? = some none
  live : ∀ i a : Nat, H.nodes[i]? = some (some a) → ∃ t m, H.tabs[a]? = some t ∧ M[i]? = some (some m) ∧ TRel h eq t m ∧ m.length ≤ w
  one : ∀ i j a : Nat, H.nodes[i]? = some (some a) → H.nodes[j]? = some (some a) → i = j

theorem hrel_new {H : Heap K D} {M : Maps K D} {w w' : Nat} (R : HRel h eq H M w) (hw : w ≤ w') {t : Tbl K D} {m : Map K D}
    (T : TRel h eq t m) (hm : m.length ≤ w') : HRel h eq (newTab H t).1 (M ++ [some m]) w' := by
  have hlt : ∀ i a : Nat, H.nodes[i]? = some (some a) → a < H.tabs.length := by
    intro i a hi
    obtain ⟨t', _, h1, _⟩ := R.live i a hi
    exact (List.getElem?_eq_some_iff.1 h1).1
  refine ⟨by simp [newTab, R.len], ?_, ?_, ?_⟩
  · intro i hi
    simp only [newTab, List.getElem?_append] at hi
    split at hi
    · rename_i h1
      rw [List.getElem?_append_left (by rw [← R.len]; exact h1)]
      exact R.dead i hi
    · cases h2 : i - H.nodes.length with
      | zero => rw [h2] at hi; simp at hi
      | succ n => rw [h2] at hi; simp at hi
  · intro i a hi
    simp only [newTab, List.getElem?_append] at hi
    split at hi
    · rename_i h1
      obtain ⟨t', m', e1, e2, T', hw'⟩ := R.live i a hi
      refine ⟨t', m', ?_, ?_, T', by omega⟩
      · simp only [newTab]
        rw [List.getElem?_append_left (hlt i a hi)]
        exact e1
      · rw [List.getElem?_append_left (by rw [← R.len]; exact h1)]
        exact e2
    · rename_i h1
      have h2 : i = H.nodes.length := by
        cases h2 : i - H.nodes.length with
        | zero => omega
        | succ n => rw [h2] at hi; simp at hi
      subst h2
      simp at hi
      subst hi
      exact ⟨t, m, by simp [newTab], by rw [R.len]; simp, T, hm⟩
  · intro i j a hi hj
    simp only [newTab, List.getElem?_append] at hi hj
    split at hi <;> split at hj
    · exact R.one i j a hi hj
    · rename_i h1 h2
      have h3 : j - H.nodes.length = 0 := by
        cases h3 : j - H.nodes.length with
        | zero => rfl
        | succ n => rw [h3] at hj; simp at hj
      rw [h3] at hj
      simp at hj
      have := hlt i a hi
      omega
    · rename_i h1 h2
      have h3 : i - H.nodes.length = 0 := by
        cases h3 : i - H.nodes.length with
        | zero => rfl
        | succ n => rw [h3] at hi; simp at hi
      rw [h3] at hi
      simp at hi
      have := hlt j a hj
      omega
    · rename_i h1 h2
      have h3 : i - H.nodes.length = 0 := by
        cases h3 : i - H.nodes.length with
        | zero => rfl
        | succ n => rw [h3] at hi; simp at hi
      have h4 : j - H.nodes.length = 0 := by
        cases h4 : j - H.nodes.length with
        | zero => rfl
        | succ n => rw [h4] at hj; simp at hj
      omega

theorem hrel_mono {H : Heap K D} {M : Maps K D} {w w' : Nat} (R : HRel h eq H M w) (hw : w ≤ w') : HRel h eq H M w' :=
  ⟨R.len, R.dead, fun i a hi => by
    obtain ⟨t, m, h1, h2, h3, h4⟩ := R.live i a hi
    exact ⟨t, m, h1, h2, h3, by omega⟩, R.one⟩

theorem hrel_change {H : Heap K D} {M : Maps K D} {w w' : Nat} (R : HRel h eq H M w) (hw : w ≤ w') {t : Tbl K D} {m : Map K D}
    {i a : Nat} (hi : H.nodes[i]? = some (some a)) (T : TRel h eq t m) (hm : m.length ≤ w') :
    HRel h eq (newNode H i a t).1 (M.change i m).1 w' := by
  have hil : i < H.nodes.length := (List.getElem?_eq_some_iff.1 hi).1
  have hal : a < H.tabs.length := by
    obtain ⟨t', _, h1, _⟩ := R.live i a hi
    exact (List.getElem?_eq_some_iff.1 h1).1
  have hnode : ∀ (j : Nat) (x : Option Nat), (newNode H i a t).1.nodes[j]? = some x →
      (j < H.nodes.length ∧ ((j = i ∧ x = none) ∨ (j ≠ i ∧ H.nodes[j]? = some x))) ∨ (j = H.nodes.length ∧ x = some a) := by
    intro j x hj
    simp only [newNode, List.getElem?_append, List.length_set, List.getElem?_set] at hj
    split at hj
    · rename_i h1
      refine Or.inl ⟨h1, ?_⟩
      split at hj
      · rename_i h2
        cases hj
        exact Or.inl ⟨h2.symm, rfl⟩
      · rename_i h2
        exact Or.inr ⟨fun e => h2 e.symm, hj⟩
    · rename_i h1
      right
      have h2 : j = H.nodes.length := by
        cases h2 : j - H.nodes.length with
        | zero => omega
        | succ n => rw [h2] at hj; simp at hj
      subst h2
      simp at hj
      exact ⟨rfl, hj.symm⟩
  have hM : ∀ j, j < H.nodes.length → (M.change i m).1[j]? = (M.set i none)[j]? := by
    intro j hj
    simp only [Maps.change]
    rw [List.getElem?_append_left (by simp only [List.length_set]; rw [← R.len]; exact hj)]
  refine ⟨by simp [newNode, Maps.change, R.len], ?_, ?_, ?_⟩
  · intro j hj
    rcases hnode j none hj with ⟨h1, ⟨rfl, _⟩ | ⟨h2, h3⟩⟩ | ⟨_, h2⟩
    · rw [hM j h1, List.getElem?_set]
      simp
      rw [← R.len]; exact h1
    · rw [hM j h1, List.getElem?_set, if_neg (fun e => h2 e.symm)]
      exact R.dead j h3
    · cases h2
  · intro j b hj
    rcases hnode j _ hj with ⟨h1, ⟨_, h2⟩ | ⟨h2, h3⟩⟩ | ⟨rfl, h2⟩
    · cases h2
    · obtain ⟨t', m', e1, e2, T', hw'⟩ := R.live j b h3
      refine ⟨t', m', ?_, ?_, T', by omega⟩
      · have hb : a ≠ b := fun e => h2 (R.one j i b h3 (e ▸ hi))
        simp only [newNode, List.getElem?_set, if_neg hb]
        exact e1
      · rw [hM j h1, List.getElem?_set, if_neg (fun e => h2 e.symm)]
        exact e2
    · cases h2
      refine ⟨t, m, by simp [newNode, hal], ?_, T, hm⟩
      simp only [Maps.change]
      rw [R.len, List.getElem?_append_right (by simp)]
      simp
  · intro j k b hj hk
    rcases hnode j _ hj with ⟨h1, ⟨_, h2⟩ | ⟨h2, h3⟩⟩ | ⟨h1, h2⟩
    · cases h2
    · rcases hnode k _ hk with ⟨h4, ⟨_, h5⟩ | ⟨h5, h6⟩⟩ | ⟨h4, h5⟩
      · cases h5
      · exact R.one j k b h3 h6
      · cases h5
        exact absurd (R.one j i _ h3 hi) h2
    · cases h2
      rcases hnode k _ hk with ⟨h4, ⟨_, h5⟩ | ⟨h5, h6⟩⟩ | ⟨h4, h5⟩
      · cases h5
      · exact absurd (R.one k i _ h6 hi) h5
      · omega

/-- An operation agrees with its meaning. -/
def Sim (h : K → Nat → Nat) (eq : K → K → Bool) (w : Nat) (r : Option (Heap K D × Out K D)) (s : Maps K D × Out K D) : Prop :=
  ∃ H o, r = some (H, o) ∧ HRel h eq H s.1 w ∧ o.Agree s.2

theorem agree_refl (o : Out K D) : o.Agree o := by
  cases o <;> simp [Out.Agree]

theorem on_ok {H : Heap K D} {M : Maps K D} {w w' i : Nat} (R : HRel h eq H M w) (hw : w ≤ w') (hi : i < M.length)
    {f : Nat → Tbl K D → Option (Heap K D × Out K D)} {g : Map K D → Maps K D × Out K D}
    (hf : ∀ a t m, H.nodes[i]? = some (some a) → M[i]? = some (some m) → TRel h eq t m → m.length ≤ w → Sim h eq w' (f a t) (g m)) :
    Sim h eq w' (on H i f) (M.on i g) := by
  have hil : i < H.nodes.length := by rw [R.len]; exact hi
  obtain ⟨x, hx⟩ : ∃ x, H.nodes[i]? = some x := ⟨_, List.getElem?_eq_getElem hil⟩
  cases x with
  | none =>
    simp only [on, table, hx, Option.bind_eq_bind, Option.bind_some, Maps.on, R.dead i hx]
    exact ⟨H, .fail, rfl, hrel_mono R hw, agree_refl _⟩
  | some a =>
    obtain ⟨t, m, h1, h2, T, h3⟩ := R.live i a hx
    simp only [on, table, hx, Option.bind_eq_bind, Option.bind_some, h1, Maps.on, h2]
    exact hf a t m hx h2 T h3

theorem sim_change {H : Heap K D} {M : Maps K D} {w w' i a : Nat} (R : HRel h eq H M w) (hw : w ≤ w') {t : Tbl K D} {m : Map K D}
    (hi : H.nodes[i]? = some (some a)) (T : TRel h eq t m) (hm : m.length ≤ w') :
    Sim h eq w' (some (newNode H i a t)) (M.change i m) :=
  ⟨_, _, rfl, hrel_change R hw hi T hm, by simp [newNode, Maps.change, Out.Agree, R.len]⟩

theorem step_ok (HO : HashOK h eq) {H : Heap K D} {M : Maps K D} {w : Nat} (R : HRel h eq H M w) {op : Op K D} {ops : List (Op K D)}
    (hl : M.Legal eq (op :: ops)) (hw : w + op.weight ≤ 2147483629) :
    Sim h eq (w + op.weight) (step h eq H op) (M.step eq op) := by
  have hle : w ≤ w + op.weight := Nat.le_add_right _ _
  have same : ∀ (o : Out K D), Sim h eq (w + op.weight) (some (H, o)) (M, o) := fun o => ⟨H, o, rfl, hrel_mono R hle, agree_refl o⟩
  cases op with
  | create n =>
    obtain ⟨t, e, T⟩ := create_ok (h := h) (eq := eq) (K := K) (D := D) hl.2.1
    simp only [step, e, Option.bind_eq_bind, Option.bind_some]
    exact ⟨_, _, rfl, hrel_new R hle T (by simp), by simp [newTab, Maps.step, Out.Agree, R.len]⟩
  | fromList kds =>
    simp only [Op.weight] at hw hle same ⊢
    obtain ⟨t, e, T⟩ := create_ok (h := h) (eq := eq) (K := K) (D := D) (n := kds.length) (by omega)
    obtain ⟨t', ok, e2, h2⟩ := insertAll_ok HO kds T (by simp; omega)
    simp only [step, e, e2, Option.bind_eq_bind, Option.bind_some, Maps.step]
    cases hp : Map.putAll eq [] kds with
    | none =>
      rw [hp] at h2
      simp only [h2, Bool.false_eq_true, if_false]
      exact same _
    | some m' =>
      rw [hp] at h2
      simp only [h2.1, if_true]
      exact ⟨_, _, rfl, hrel_new R hle h2.2.1 (by rw [h2.2.2]; simp), by simp [newTab, Out.Agree, R.len]⟩
  | insert i k d =>
    simp only [Op.weight] at hw hle same ⊢
    refine on_ok R hle (hl.1 i rfl) ?_
    intro a t m hi hm T hmw
    simp only [find_ok HO T, Option.bind_eq_bind, Option.bind_some]
    cases hg : m.get eq k with
    | some d' => simpa using same _
    | none =>
      obtain ⟨t1, e1, T1⟩ := insert_ok HO T (by omega) (d := d) hg
      simp only [e1, Option.bind_some, Option.isSome_none, Bool.false_eq_true, if_false]
      exact sim_change R hle hi T1 (by simp only [List.length_cons]; omega)
  | insertn i kds =>
    simp only [Op.weight] at hw hle same ⊢
    refine on_ok R hle (hl.1 i rfl) ?_
    intro a t m hi hm T hmw
    obtain ⟨t', ok, e2, h2⟩ := insertAll_ok HO kds T (by omega)
    have hs := hl.2.1 m hm
    simp only [e2, Option.bind_eq_bind, Option.bind_some]
    obtain ⟨m', hp⟩ := Option.isSome_iff_exists.1 hs
    rw [hp] at h2
    simp only [hp, h2.1, if_true]
    exact sim_change R hle hi h2.2.1 (by omega)
  | delete i k =>
    refine on_ok R hle (hl.1 i rfl) ?_
    intro a t m hi hm T hmw
    simp only [find_ok HO T, Option.bind_eq_bind, Option.bind_some]
    cases hg : m.get eq k with
    | none => simpa using same _
    | some d' =>
      obtain ⟨t1, e1, T1⟩ := delete_ok HO T (k := k) (by rw [hg]; rfl)
      simp only [e1, Option.bind_some, Option.isSome_some, if_true]
      refine sim_change R hle hi T1 ?_
      have : (m.del eq k).length ≤ m.length := by unfold Map.del; exact List.length_eraseP_le
      simp only [Op.weight]
      omega
  | clear i =>
    refine on_ok R hle (hl.1 i rfl) ?_
    intro a t m hi hm T hmw
    obtain ⟨t1, e, T1⟩ := create_ok (h := h) (eq := eq) (K := K) (D := D) (n := t.elements) (by rw [T.cnt]; omega)
    simp only [e, Option.bind_eq_bind, Option.bind_some]
    exact sim_change R hle hi T1 (by simp)
  | member i k =>
    refine on_ok R hle (hl.1 i rfl) ?_
    intro a t m hi hm T hmw
    simp only [find_ok HO T, Option.bind_eq_bind, Option.bind_some]
    exact same _
  | get i k =>
    refine on_ok R hle (hl.1 i rfl) ?_
    intro a t m hi hm T hmw
    simp only [find_ok HO T, Option.bind_eq_bind, Option.bind_some]
    cases hg : m.get eq k with
    | none => exact same _
    | some d' => exact same _
  | size i =>
    refine on_ok R hle (hl.1 i rfl) ?_
    intro a t m hi hm T hmw
    rw [T.cnt]
    exact same _
  | toList i =>
    refine on_ok R hle (hl.1 i rfl) ?_
    intro a t m hi hm T hmw
    exact ⟨H, _, rfl, hrel_mono R hle, scan_ok T⟩
  | copy i => exact hl.2.1.elim

theorem run_ok (HO : HashOK h eq) : ∀ (ops : List (Op K D)) {H : Heap K D} {M : Maps K D} {w : Nat}, HRel h eq H M w →
    M.Legal eq ops → w + weight ops ≤ 2147483629 →
    ∃ os, run h eq H ops = some os ∧ List.Forall₂ Out.Agree os (M.run eq ops)
  | [], _, _, _, _, _, _ => ⟨[], rfl, .nil⟩
  | op :: ops, H, M, w, R, hl, hw => by
    have hw' : weight (op :: ops) = op.weight + weight ops := by simp [weight]
    rw [hw'] at hw
    obtain ⟨H1, o, e1, R1, a1⟩ := step_ok HO R hl (by omega)
    obtain ⟨os, e2, a2⟩ := run_ok HO ops R1 hl.2.2 (by omega)
    exact ⟨o :: os, by simp [run, e1, e2], .cons a1 a2⟩

/-! ### Keys -/

variable {E : HashEnv} {store : Nat → V}

theorem gHashWith_same (d : Nat → Nat → Option Nat) (n : Nat) : ∀ (sz : Nat) (x y : V), x.Plain → Cache.Same x y →
    (gHashWith E d n sz x).isSome ∧ gHashWith E d n sz x = gHashWith E d n sz y
  | 0, x, y, _, _ => by unfold gHashWith; exact ⟨rfl, rfl⟩
  | sz + 1, .null, y, _, hs => by
    cases y <;> simp [Cache.Same, Cache.erase] at hs
    unfold gHashWith; exact ⟨rfl, rfl⟩
  | sz + 1, .app a l r, y, _, hs => by
    cases y <;> simp [Cache.Same, Cache.erase] at hs
    obtain ⟨rfl, rfl, rfl⟩ := hs
    unfold gHashWith; exact ⟨rfl, rfl⟩
  | sz + 1, .leaf a l, y, hp, hs => by
    cases y <;> simp [Cache.Same, Cache.erase] at hs
    subst hs
    cases l
    case ref => exact hp.elim
    all_goals unfold gHashWith; exact ⟨rfl, rfl⟩
  | sz + 1, .cons a h t, y, hp, hs => by
    cases y <;> simp [Cache.Same, Cache.erase] at hs
    obtain ⟨h1, h2⟩ := gHashWith_same d n sz h _ hp.1 hs.1
    obtain ⟨h3, h4⟩ := gHashWith_same d n sz t _ hp.2 hs.2
    obtain ⟨a, ha⟩ := Option.isSome_iff_exists.1 h1
    obtain ⟨b, hb⟩ := Option.isSome_iff_exists.1 h3
    unfold gHashWith
    rw [← h2, ← h4, ha, hb]
    exact ⟨rfl, rfl⟩

theorem gHashRec_same (n fuel : Nat) (sz : Nat) (x y : V) (hp : x.Plain) (hs : Cache.Same x y) :
    (gHashRec E store n fuel sz x).isSome ∧ gHashRec E store n fuel sz x = gHashRec E store n fuel sz y := by
  cases fuel <;> exact gHashWith_same _ n sz x y hp hs

theorem bvHash_lt {n : Nat} (hn : 0 < n) (l : List Nat) (hl : l ≠ []) : Cache.bvHash l n < n := by
  unfold Cache.bvHash
  rcases List.eq_nil_or_concat l with rfl | ⟨l', x, rfl⟩
  · exact absurd rfl hl
  · simp only [List.concat_eq_append, List.foldl_append, List.foldl_cons, List.foldl_nil]
    exact Nat.mod_lt _ hn

theorem leafHash_lt (ok : EnvOk E) {n : Nat} (hn : 0 < n) {l : Leaf} (hp : l.Plain) : Cache.leafHash E n l < n := by
  cases l <;> simp only [Cache.leafHash]
  case int => exact ok.int _ _ hn
  case str => exact ok.str _ _ hn
  case ext => exact ok.ext _ _ _ hn
  case bv l => exact bvHash_lt hn l (by rintro rfl; exact hp)
  all_goals exact Nat.mod_lt _ hn

theorem gHashWith_lt (ok : EnvOk E) {d : Nat → Nat → Option Nat} {n : Nat} (hn : 0 < n) {x : V} (hp : x.Plain) (hx : x ≠ .null) :
    (gHashWith E d n 10 x).getD 0 < n := by
  cases x with
  | null => exact absurd rfl hx
  | app => unfold gHashWith; exact Nat.mod_lt _ hn
  | leaf a l =>
    have := leafHash_lt ok hn hp
    cases l
    case ref => exact hp.elim
    case str => unfold gHashWith; exact Nat.mod_lt _ hn
    all_goals unfold gHashWith; exact this
  | cons a h t =>
    obtain ⟨h1, _⟩ := gHashWith_same (E := E) d n 9 h h hp.1 rfl
    obtain ⟨h3, _⟩ := gHashWith_same (E := E) d n 9 t t hp.2 rfl
    obtain ⟨a, ha⟩ := Option.isSome_iff_exists.1 h1
    obtain ⟨b, hb⟩ := Option.isSome_iff_exists.1 h3
    unfold gHashWith
    rw [ha, hb]
    exact Nat.mod_lt _ hn

theorem gHash_lt (ok : EnvOk E) {n fuel : Nat} (hn : 0 < n) {x : V} (hp : x.Plain) (hx : x ≠ .null) :
    (gHash E store fuel x n).getD 0 < n := by
  unfold gHash
  cases fuel <;> exact gHashWith_lt ok hn hp hx

theorem keyEq_iff {fuel : Nat} {T : V → Prop} (a b : Key T) : keyEq store fuel a b = true ↔ Cache.Same a.1 b.1 := by
  unfold keyEq
  constructor
  · intro h
    cases e : Cache.cacheEq store fuel a.1 b.1 with
    | none => rw [e] at h; cases h
    | some c =>
      rw [e] at h
      simp at h
      subst h
      exact Cache.cacheEq_eq a.2.1 b.2.1 e
  · intro h
    rw [Cache.cacheEq_same a.2.1 h]
    rfl

theorem keys_ok (ok : EnvOk E) (fuel : Nat) (T : V → Prop) : HashOK (keyHash E store fuel : Key T → Nat → Nat) (keyEq store fuel) := by
  have heq : ∀ a b : Key T, keyEq store fuel a b = true ↔ Cache.Same a.1 b.1 := keyEq_iff
  refine ⟨fun a => (heq a a).2 rfl, fun a b h => (heq b a).2 ((heq a b).1 h).symm,
    fun a b c h1 h2 => (heq a c).2 (((heq a b).1 h1).trans ((heq b c).1 h2)), ?_, ?_⟩
  · intro a n hn
    exact gHash_lt ok hn a.2.1 a.2.2.1
  · intro a b n h
    have := (gHashRec_same (E := E) (store := store) n fuel 10 a.1 b.1 a.2.1 ((heq a b).1 h)).2
    unfold keyHash gHash
    rw [this]

end Voss.Tab
