import Verif.Comp.Rank
/-
The ranking of components, by induction on the depth limit.
-/
namespace Voss.Comp
open Voss.Ste

theorem mem_fanouts {net : Net} {n j : Nat} : j ∈ net.fanouts n ↔ ∃ k, net[j]? = some k ∧ n ∈ k.inps := by
  simp only [Net.fanouts, List.mem_reverse, List.mem_filter, List.mem_range]
  constructor
  · rintro ⟨h1, h2⟩
    rw [List.getElem?_eq_getElem h1] at h2
    exact ⟨_, List.getElem?_eq_getElem h1, by simpa using h2⟩
  · rintro ⟨k, h1, h2⟩
    obtain ⟨h3, _⟩ := List.getElem?_eq_some_iff.mp h1
    exact ⟨h3, by rw [h1]; simpa using h2⟩

theorem mem_readers {net : Net} {i j : Nat} {k : Comp} (hk : net[i]? = some k) :
    j ∈ readers net i ↔ ∃ n ∈ k.outs, ∃ k', net[j]? = some k' ∧ n ∈ k'.inps := by
  simp only [readers, hk, List.mem_flatMap, mem_fanouts]

/-- The ranks given so far are right. -/
structure Inv (net : Net) (s : Ranks) : Prop where
  lt : ∀ i k, net[i]? = some k → s.rank i ≠ 0 → k.delay = false → ∀ j ∈ readers net i, s.rank j ≠ 0 ∧ s.rank j < s.rank i
  mx : ∀ i, s.rank i ≤ s.mx
  reg : ∀ i k, net[i]? = some k → k.delay = true → s.rank i = 1

/-- Ranks once given stay; new ones are given to components up to height `b` only. -/
def Ext (h : Nat → Nat) (b : Nat) (s s' : Ranks) : Prop := ∀ j, (s.rank j ≠ 0 → s'.rank j = s.rank j) ∧ (b < h j → s'.rank j = s.rank j)

theorem Ext.trans {h : Nat → Nat} {b : Nat} {s s' s'' : Ranks} (h1 : Ext h b s s') (h2 : Ext h b s' s'') : Ext h b s s'' := by
  intro j
  refine ⟨fun hj => ?_, fun hj => ?_⟩
  · rw [(h2 j).1 (by rw [(h1 j).1 hj]; exact hj), (h1 j).1 hj]
  · rw [(h2 j).2 hj, (h1 j).2 hj]

theorem Ext.mono {h : Nat → Nat} {b c : Nat} {s s' : Ranks} (h1 : Ext h b s s') (hbc : b ≤ c) : Ext h c s s' :=
  fun j => ⟨(h1 j).1, fun hj => (h1 j).2 (by omega)⟩

/-- What a call yields. -/
def Step (net : Net) (h : Nat → Nat) (b i : Nat) (s : Ranks) (r : Nat × Ranks) : Prop :=
  Inv net r.2 ∧ Ext h b s r.2 ∧ r.2.rank i = r.1 ∧ r.1 ≠ 0

theorem visit_spec {net : Net} {h : Nat → Nat} {b : Nat} {go : Nat → Ranks → Nat × Ranks} : ∀ (js : List Nat),
    (∀ j ∈ js, ∀ s, Inv net s → Step net h b j s (go j s)) → ∀ (my : Nat) (s : Ranks), Inv net s →
    Inv net (visit go js my s).2 ∧ Ext h b s (visit go js my s).2 ∧ my ≤ (visit go js my s).1 ∧
      ∀ j ∈ js, (visit go js my s).2.rank j ≠ 0 ∧ (visit go js my s).2.rank j ≤ (visit go js my s).1
  | [], _, my, s, hs => ⟨hs, fun _ => ⟨fun _ => rfl, fun _ => rfl⟩, Nat.le_refl _, by simp⟩
  | j :: js, hgo, my, s, hs => by
    obtain ⟨g1, g2, g3, g4⟩ := hgo j (by simp) s hs
    obtain ⟨v1, v2, v3, v4⟩ := visit_spec js (fun j hj => hgo j (by simp [hj])) (max (go j s).1 my) (go j s).2 g1
    rw [visit]
    refine ⟨v1, g2.trans v2, by omega, fun x hx => ?_⟩
    rcases List.mem_cons.mp hx with rfl | hx
    · have := (v2 x).1 (by rw [g3]; exact g4)
      rw [this, g3]
      exact ⟨g4, by omega⟩
    · exact v4 x hx

theorem assign_spec {net : Net} {lim : Nat} {h : Nat → Nat} (hS : Shallow net lim h) : ∀ (d i : Nat) (k : Comp) (s : Ranks), net[i]? = some k → h i < d →
    Inv net s → Step net h (h i) i s (assign net d i s)
  | 0, _, _, _, _, hd, _ => absurd hd (by omega)
  | d+1, i, k, s, hk, hd, hs => by
    rw [assign]
    by_cases h0 : s.rank i = 0
    · rw [if_neg (by simpa using h0)]
      have hdel : k.delay = false := by
        cases hx : k.delay with
        | false => rfl
        | true => rw [hs.reg i k hk hx] at h0; exact absurd h0 (by omega)
      have hlow : ∀ j ∈ readers net i, h j < h i := by
        intro j hj
        obtain ⟨n, h1, k', h2, h3⟩ := (mem_readers hk).mp hj
        exact (hS i k hk).2 hdel n h1 j k' h2 h3
      have hgo : ∀ j ∈ readers net i, ∀ s, Inv net s → Step net h (h i - 1) j s (assign net d j s) := by
        intro j hj s hs
        obtain ⟨n, h1, k', h2, h3⟩ := (mem_readers hk).mp hj
        have hl := hlow j hj
        obtain ⟨a1, a2, a3, a4⟩ := assign_spec hS d j k' s h2 (by omega) hs
        exact ⟨a1, a2.mono (by omega), a3, a4⟩
      obtain ⟨v1, v2, v3, v4⟩ := visit_spec (readers net i) hgo 1 s hs
      refine ⟨⟨fun j k' hj hne hd' x hx => ?_, fun j => ?_, fun j k' hj hd' => ?_⟩, fun j => ⟨fun hj => ?_, fun hj => ?_⟩, ?_, ?_⟩
      · simp only at hne ⊢
        by_cases hji : j = i
        · subst hji
          rw [if_pos rfl]
          have hxi : x ≠ j := by
            intro he
            subst he
            exact absurd (hlow x hx) (by omega)
          rw [if_neg hxi]
          have := v4 x hx
          exact ⟨this.1, by omega⟩
        · rw [if_neg hji] at hne ⊢
          have h5 := v1.lt j k' hj hne hd' x hx
          have hxi : x ≠ i := by
            intro he
            subst he
            by_cases hi0 : readers net x = []
            · have h7 := (v2 x).2
              by_cases hp : 0 < h x
              · rw [h7 (by omega), h0] at h5; exact h5.1 rfl
              · have : (visit (assign net d) (readers net x) 1 s).2 = s := by rw [hi0]; rfl
                rw [this, h0] at h5; exact h5.1 rfl
            · obtain ⟨y, hy⟩ := List.exists_mem_of_ne_nil _ hi0
              have := hlow y hy
              rw [(v2 x).2 (by omega), h0] at h5
              exact h5.1 rfl
          rw [if_neg hxi]
          exact h5
      · simp only
        split
        · omega
        · have := v1.mx j; omega
      · simp only
        have : j ≠ i := by
          intro he
          subst he
          rw [hk] at hj
          cases hj
          rw [hdel] at hd'
          exact absurd hd' (by simp)
        rw [if_neg this]
        exact v1.reg j k' hj hd'
      · simp only
        have : j ≠ i := by intro he; subst he; exact hj h0
        rw [if_neg this]
        exact (v2 j).1 hj
      · simp only
        have : j ≠ i := by intro he; subst he; omega
        rw [if_neg this]
        exact (v2 j).2 (by omega)
      · simp
      · simp
    · rw [if_pos (by simpa using h0)]
      exact ⟨hs, fun _ => ⟨fun _ => rfl, fun _ => rfl⟩, rfl, h0⟩

theorem assignAll_spec {net : Net} {lim : Nat} {h : Nat → Nat} (hS : Shallow net lim h) : ∀ (is : List Nat) (s : Ranks), (∀ i ∈ is, i < net.length) →
    Inv net s → Inv net (assignAll net lim is s) ∧ (∀ j, s.rank j ≠ 0 → (assignAll net lim is s).rank j = s.rank j) ∧
      ∀ i ∈ is, (assignAll net lim is s).rank i ≠ 0
  | [], s, _, hs => ⟨hs, fun _ _ => rfl, by simp⟩
  | i :: is, s, hi, hs => by
    have hk := List.getElem?_eq_getElem (hi i (by simp))
    obtain ⟨a1, a2, a3, a4⟩ := assign_spec hS lim i _ s hk (hS i _ hk).1 hs
    obtain ⟨b1, b2, b3⟩ := assignAll_spec hS is (assign net lim i s).2 (fun j hj => hi j (by simp [hj])) a1
    rw [assignAll]
    refine ⟨b1, fun j hj => ?_, fun j hj => ?_⟩
    · rw [b2 j (by rw [(a2 j).1 hj]; exact hj), (a2 j).1 hj]
    · rcases List.mem_cons.mp hj with rfl | hj
      · rw [b2 j (by rw [a3]; exact a4), a3]; exact a4
      · exact b3 j hj

theorem init_inv (net : Net) : Inv net (initRanks net) where
  lt := by
    intro i k hk hne hd j hj
    simp only [initRanks, hk] at hne
    by_cases hc : readers net i = []
    · rw [hc] at hj; simp at hj
    · rw [if_neg (by simp [hd, hc])] at hne
      exact absurd rfl hne
  mx := by
    intro i
    simp only [initRanks]
    cases net[i]? with
    | none => simp
    | some k => simp only; split <;> omega
  reg := by
    intro i k hk hd
    simp [initRanks, hk, hd]

theorem setRanks_get {net : Net} {s : Ranks} (i : Nat) : (setRanks net s)[i]? = net[i]?.map fun k => ({ k with rank := s.rank i } : Comp) := by
  simp [setRanks]

theorem mem_setRanks {net : Net} {s : Ranks} {k : Comp} : k ∈ setRanks net s ↔ ∃ (i : Nat) (k' : Comp), net[i]? = some k' ∧ k = { k' with rank := s.rank i } := by
  rw [List.mem_iff_getElem?]
  constructor
  · rintro ⟨i, h⟩
    rw [setRanks_get, Option.map_eq_some_iff] at h
    obtain ⟨k', h1, h2⟩ := h
    exact ⟨i, k', h1, h2.symm⟩
  · rintro ⟨i, k', h1, h2⟩
    exact ⟨i, by rw [setRanks_get, h1, h2]; rfl⟩

/-! ### Chains -/

/-- A chain of `n` inverters: component `i` reads node `4+i` and drives node `5+i`. -/
def chain (n : Nat) : Net := (List.range n).map fun i => ⟨.not, 1, [4+i], [5+i], false, 0⟩

theorem chain_get {n i : Nat} (h : i < n) : (chain n)[i]? = some ⟨.not, 1, [4+i], [5+i], false, 0⟩ := by
  simp [chain, h]

theorem chain_none {n i : Nat} (h : n ≤ i) : (chain n)[i]? = none := by
  simp [chain, h]

theorem chain_readers {n i j : Nat} (h : i < n) : j ∈ readers (chain n) i ↔ j = i + 1 ∧ j < n := by
  rw [mem_readers (chain_get h)]
  by_cases hj : j < n
  · simp [chain_get hj, hj]; omega
  · simp [chain_none (Nat.le_of_not_lt hj), hj]

theorem readers_nodup1 {net : Net} {i : Nat} {k : Comp} {n : Nat} (hk : net[i]? = some k) (ho : k.outs = [n]) : (readers net i).Nodup := by
  simp only [readers, hk, ho, List.flatMap_cons, List.flatMap_nil, List.append_nil, Net.fanouts]
  exact List.pairwise_reverse.mpr ((List.Pairwise.filter _ List.nodup_range).imp Ne.symm)

theorem chain_next {n i : Nat} (h : i + 1 < n) : readers (chain n) i = [i+1] := by
  have h1 := readers_nodup1 (chain_get (Nat.lt_of_succ_lt h)) rfl
  have h2 : ∀ j, j ∈ readers (chain n) i ↔ j = i+1 := fun j => by
    rw [chain_readers (Nat.lt_of_succ_lt h)]
    constructor
    · exact fun h => h.1
    · intro e; exact ⟨e, by omega⟩
  cases hr : readers (chain n) i with
  | nil => rw [hr] at h2; exact absurd ((h2 (i+1)).mpr rfl) (by simp)
  | cons a l =>
    rw [hr] at h1 h2
    have ha := (h2 a).mp (by simp)
    cases l with
    | nil => rw [ha]
    | cons b l =>
      have hb := (h2 b).mp (by simp)
      rw [ha, hb] at h1
      simp at h1

theorem chain_last {n : Nat} : readers (chain (n+1)) n = [] := by
  apply List.eq_nil_iff_forall_not_mem.mpr
  intro j hj
  have := (chain_readers (Nat.lt_succ_self n)).mp hj
  omega

theorem assign_done {net : Net} {i : Nat} {s : Ranks} (d : Nat) (h : s.rank i ≠ 0) : assign net (d+1) i s = (s.rank i, s) := by
  rw [assign, if_pos h]

/-- A call that runs into the depth limit. -/
theorem assign_deep (n : Nat) : ∀ (d i : Nat) (s : Ranks), i + d < n → (∀ j, i ≤ j → j < i + d → s.rank j = 0) →
    (assign (chain n) d i s).1 = d + 1 ∧
    ∀ j, (assign (chain n) d i s).2.rank j = if i ≤ j ∧ j < i + d then i + d + 1 - j else s.rank j
  | 0, i, s, _, _ => ⟨rfl, fun j => by rw [if_neg (by omega)]; rfl⟩
  | d+1, i, s, hn, h0 => by
    obtain ⟨a1, a2⟩ := assign_deep n d (i+1) s (by omega) (fun j h1 h2 => h0 j (by omega) (by omega))
    rw [assign, if_neg (by simpa using h0 i (by omega) (by omega)), chain_next (by omega)]
    simp only [visit, a1]
    refine ⟨by omega, fun j => ?_⟩
    by_cases hj : j = i
    · rw [if_pos hj, if_pos (by omega)]; omega
    · rw [if_neg hj, a2]
      by_cases h : i ≤ j ∧ j < i + (d+1)
      · rw [if_pos h, if_pos (by omega)]; omega
      · rw [if_neg h, if_neg (by omega)]

theorem assignAll_append (net : Net) (lim : Nat) : ∀ (a b : List Nat) (s : Ranks), assignAll net lim (a ++ b) s = assignAll net lim b (assignAll net lim a s)
  | [], _, _ => rfl
  | i :: a, b, s => by rw [List.cons_append, assignAll, assignAll_append net lim a b, assignAll]

theorem assignAll_same (net : Net) (lim : Nat) : ∀ (is : List Nat) (s : Ranks), (∀ i ∈ is, s.rank i ≠ 0) → assignAll net (lim+1) is s = s
  | [], _, _ => rfl
  | i :: is, s, h => by
    rw [assignAll, assign, if_pos (h i (by simp))]
    exact assignAll_same net lim is s fun j hj => h j (by simp [hj])

/-- The ranks in a chain that is two components longer than the limit. -/
theorem chain_ranks (m : Nat) (hm : 1 ≤ m) :
    (assignAll (chain (m+3)) (m+1) (List.range (m+3)) (initRanks (chain (m+3)))).rank m = 2 ∧
    (assignAll (chain (m+3)) (m+1) (List.range (m+3)) (initRanks (chain (m+3)))).rank (m+1) = 2 := by
  have hi : ∀ j, (initRanks (chain (m+3))).rank j = if j = m+2 then 1 else 0 := by
    intro j
    simp only [initRanks]
    by_cases hj : j < m+3
    · rw [chain_get hj]
      by_cases hj2 : j = m+2
      · subst hj2
        simp [chain_last]
      · simp [chain_next (show j + 1 < m + 3 by omega), hj2]
    · rw [chain_none (by omega)]
      rw [if_neg (by omega)]
  obtain ⟨a1, a2⟩ := assign_deep (m+3) (m+1) 0 (initRanks (chain (m+3))) (by omega) (fun j _ h => by rw [hi, if_neg (by omega)])
  have hr : List.range (m+3) = [0] ++ (List.range' 1 m ++ [m+1, m+2]) := by
    rw [List.range_eq_range', List.range'_succ, show m + 2 = m + 1 + 1 from rfl, ← List.range'_append_1 (s := 0+1) (m := m) (n := 2)]
    rw [show 0 + 1 + m = m + 1 by omega]
    rfl
  rw [hr, assignAll_append, assignAll_append]
  simp only [assignAll]
  generalize he : (assign (chain (m+3)) (m+1) 0 (initRanks (chain (m+3)))).2 = s at a2 ⊢
  have hs : ∀ j, s.rank j = if j < m+1 then m + 2 - j else if j = m+2 then 1 else 0 := by
    intro j
    rw [a2, hi]
    by_cases h : j < m+1
    · rw [if_pos (by omega), if_pos h]; omega
    · rw [if_neg (by omega), if_neg h]
  rw [assignAll_same _ _ _ s (by
    intro i hm
    have := List.mem_range'_1.mp hm
    rw [hs, if_pos (by omega)]
    omega)]
  have e1 : assign (chain (m+3)) (m+1) (m+2) s = (1, s) := by
    rw [assign, if_pos (by rw [hs, if_neg (by omega), if_pos rfl]; decide), hs, if_neg (by omega), if_pos rfl]
  have e1' : assign (chain (m+3)) m (m+2) s = (1, s) := by
    obtain ⟨m', rfl⟩ : ∃ m', m = m' + 1 := ⟨m-1, by omega⟩
    rw [assign, if_pos (by rw [hs, if_neg (by omega), if_pos rfl]; decide), hs, if_neg (by omega), if_pos rfl]
  have e2 : (assign (chain (m+3)) (m+1) (m+1) s).2.rank = fun j => if j = m+1 then 2 else s.rank j := by
    rw [assign, if_neg (by rw [hs, if_neg (by omega), if_neg (by omega)]; simp), chain_next (by omega)]
    simp [visit, e1']
  have e3 : assign (chain (m+3)) (m+1) (m+2) (assign (chain (m+3)) (m+1) (m+1) s).2 = (1, (assign (chain (m+3)) (m+1) (m+1) s).2) := by
    have h1 : (assign (chain (m+3)) (m+1) (m+1) s).2.rank (m+2) = 1 := by
      rw [e2]
      simp only
      rw [if_neg (by omega), hs, if_neg (by omega), if_pos rfl]
    rw [assign_done _ (by rw [h1]; decide), h1]
  rw [e3, e2]
  simp only
  constructor
  · rw [if_neg (by omega), hs, if_pos (by omega)]; omega
  · rw [if_pos trivial]

theorem chain_bad (m N L : Nat) (hm : 1 ≤ m) (hN : N = m+3) (hL : L = m+1) :
    ¬RankOK (setRanks (chain N) (assignAll (chain N) L (List.range (chain N).length) (initRanks (chain N)))) := by
  subst hN hL
  intro h
  obtain ⟨h1, h2⟩ := chain_ranks m hm
  have e : (chain (m+3)).length = m+3 := by simp [chain]
  rw [e] at h
  have a := h _ (mem_setRanks.mpr ⟨m, _, chain_get (by omega), rfl⟩) rfl (5+m) (by simp) _
    (mem_setRanks.mpr ⟨m+1, _, chain_get (by omega), rfl⟩) (by simp; omega)
  simp only at a
  rw [h1, h2] at a
  omega

/-! ### Levels -/

/-- The level of a node: how far the components driving it are below the limit. -/
def nodeLevel (net : Net) (lim : Nat) (h : Nat → Nat) (n : Nat) : Nat :=
  ((List.range net.length).map fun i => match net[i]? with
    | some k => if k.delay = false ∧ n ∈ k.outs then lim - h i else 0
    | none => 0).foldr max 0

theorem le_foldr_max {x : Nat} : ∀ {l : List Nat}, x ∈ l → x ≤ l.foldr max 0
  | a :: l, h => by
    rw [List.foldr_cons]
    rcases List.mem_cons.mp h with rfl | h
    · omega
    · have := le_foldr_max h; omega

theorem foldr_max_lt {b : Nat} (hb : 0 < b) : ∀ {l : List Nat}, (∀ x ∈ l, x < b) → l.foldr max 0 < b
  | [], _ => hb
  | a :: l, h => by
    rw [List.foldr_cons]
    have h1 := h a (by simp)
    have h2 := foldr_max_lt hb (l := l) fun x hx => h x (by simp [hx])
    exact Nat.max_lt.mpr ⟨h1, h2⟩

theorem nodeLevel_lt {net : Net} {lim : Nat} {h : Nat → Nat} (hS : Shallow net lim h) {i : Nat} {k : Comp} (hk : net[i]? = some k)
    (hd : k.delay = false) {m n : Nat} (hm : m ∈ k.inps) (hn : n ∈ k.outs) : nodeLevel net lim h m < nodeLevel net lim h n := by
  have h1 : lim - h i ≤ nodeLevel net lim h n := by
    apply le_foldr_max
    refine List.mem_map.mpr ⟨i, List.mem_range.mpr (List.getElem?_eq_some_iff.mp hk).1, ?_⟩
    simp only [hk]
    rw [if_pos ⟨hd, hn⟩]
  have h0 := (hS i k hk).1
  refine Nat.lt_of_lt_of_le (foldr_max_lt (by omega) fun x hx => ?_) h1
  obtain ⟨j, _, rfl⟩ := List.mem_map.mp hx
  cases hj : net[j]? with
  | none => simp only; omega
  | some k' =>
    simp only
    split
    · rename_i hc
      have := (hS j k' hj).2 hc.1 m hc.2 i k hk hm
      have := (hS j k' hj).1
      omega
    · omega

end Voss.Comp
