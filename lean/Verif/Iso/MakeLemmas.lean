import Verif.Iso.Tree

/- Lemmas: the calls of a search; the matrices of two circuits. -/
namespace Voss.Iso
open Hier

/-! ### Calls -/

theorem undo_RC (s : Search) : (undo s).R = s.R ∧ (undo s).C = s.C := ⟨rfl, rfl⟩

theorem scan_RC (s : Search) (c : Nat) : (scan s c).1.R = s.R ∧ (scan s c).1.C = s.C := by
  simp only [scan]
  split
  · exact ⟨rfl, rfl⟩
  · split <;> exact ⟨rfl, rfl⟩

theorem tick_RC (s : Search) : (tick s).1.R = s.R ∧ (tick s).1.C = s.C := by
  rw [tick]
  split
  · split <;> exact ⟨rfl, rfl⟩
  · split
    · exact scan_RC (undo s) _
    · exact scan_RC s _

theorem lazySearch_mono {k s r} (h : lazySearch k s = some r) : ∀ fuel, k ≤ fuel → lazySearch fuel s = some r := by
  induction k generalizing s with
  | zero => exact absurd h (by simp [lazySearch])
  | succ k ih =>
    intro fuel hf
    obtain ⟨fuel, rfl⟩ : ∃ f, fuel = f + 1 := ⟨fuel - 1, by omega⟩
    rw [lazySearch] at h ⊢
    cases ht : tick s with
    | mk s' o =>
      rw [ht] at h
      cases o with
      | some o => exact h
      | none => exact ih h fuel (by omega)

theorem emits_call {s os s'} (h : Emits s os s') : ∀ o os', os = o :: os' →
    ∃ k s1, lazySearch k s = some (s1, o) ∧ s1.R = s.R ∧ s1.C = s.C ∧ Emits s1 os' s' := by
  induction h with
  | nil => intro o os' h; exact absurd h (by simp)
  | @go s s1 os s' ht _ ih =>
    intro o os' he
    obtain ⟨k, s2, h1, h2, h3, h4⟩ := ih o os' he
    have hRC := tick_RC s
    rw [ht] at hRC
    exact ⟨k + 1, s2, by rw [lazySearch, ht]; exact h1, h2.trans hRC.1, h3.trans hRC.2, h4⟩
  | @out s s1 o os s' ht hs _ =>
    intro o' os' he
    obtain ⟨rfl, rfl⟩ := List.cons.inj he
    have hRC := tick_RC s
    rw [ht] at hRC
    exact ⟨1, s1, by rw [lazySearch, ht], hRC.1, hRC.2, hs⟩

/-- What a call returns for a result. -/
def render (R C : Nat) : Option Mat → List (Nat × Nat)
  | none => []
  | some m => toPairs R C m

theorem emits_steps (os : List (Option Mat)) : ∀ {s s'}, Emits s os s' → ∀ n ≤ os.length,
    ∃ K, ∀ fuel, K ≤ fuel → steps fuel n s = some ((os.take n).map (render s.R s.C)) := by
  induction os with
  | nil =>
    intro s s' _ n hn
    obtain rfl : n = 0 := by simpa using hn
    exact ⟨0, fun _ _ => rfl⟩
  | cons o os ih =>
    intro s s' h n hn
    cases n with
    | zero => exact ⟨0, fun _ _ => rfl⟩
    | succ n =>
      obtain ⟨k, s1, h1, h2, h3, h4⟩ := emits_call h o os rfl
      obtain ⟨K, hK⟩ := ih h4 n (by simpa using hn)
      refine ⟨max k K, fun fuel hf => ?_⟩
      have hl := lazySearch_mono h1 fuel (by omega)
      have hstep : stepFn fuel s = some (s1, render s.R s.C o) := by
        rw [stepFn, hl]
        cases o with
        | none => rfl
        | some m => simp only [render, h2, h3]
      rw [steps, hstep]
      simp only
      rw [hK fuel (by omega), h2, h3]
      rfl

theorem flatten_replicate_length {α} (B : List α) (k : Nat) : (List.replicate k B).flatten.length = k * B.length := by
  induction k with
  | zero => simp
  | succ k ih => rw [List.replicate_succ, List.flatten_cons, List.length_append, ih, Nat.succ_mul, Nat.add_comm]

theorem flatten_replicate_get {α} (B : List α) (hB : 0 < B.length) (k i : Nat) (hi : i < k * B.length) :
    (List.replicate k B).flatten[i]? = B[i % B.length]? := by
  induction k generalizing i with
  | zero => omega
  | succ k ih =>
    rw [List.replicate_succ, List.flatten_cons]
    by_cases h : i < B.length
    · rw [List.getElem?_append_left h, Nat.mod_eq_of_lt h]
    · have hle : B.length ≤ i := by omega
      rw [List.getElem?_append_right hle, ih (i - B.length) (by rw [Nat.succ_mul] at hi; omega)]
      rw [Nat.mod_eq_sub_mod hle]

/-- A search returns what the tree gives, again and again. -/
theorem emits_all (R C : Nat) (iso p g : Mat) (hR : 0 < R) (k : Nat) : ∀ s : Search, s.row = 0 → s.R = R → s.C = C →
    s.needle = p → s.haystack = g → s.isomatch = iso → s.used = (fun _ => false) → s.set = (fun _ => false) →
    ∃ s', Emits s (List.replicate k ((dfs R C p g R 0 iso fun _ => false).map some ++ [none])).flatten s' := by
  induction k with
  | zero => intro s _ _ _ _ _ _ _ _; exact ⟨s, .nil s⟩
  | succ k ih =>
    intro s h1 h2 h3 h4 h5 h6 h7 h8
    obtain ⟨s1, he, hr, hs⟩ := emits_dfs R 0 s h1 (by omega) (by omega) (by intro i _; rw [h8])
    obtain ⟨s2, he2⟩ := ih s1 (by omega) (hs.R.trans h2) (hs.C.trans h3) (hs.needle.trans h4) (hs.haystack.trans h5)
      (hs.isomatch.trans h6) (hs.used.trans h7) (hs.set.trans h8)
    refine ⟨s2, ?_⟩
    rw [List.replicate_succ, List.flatten_cons]
    rw [h2, h3, h4, h5, h6, h7] at he
    exact he.trans he2

theorem toPairs_eq (R C : Nat) (m : Mat) : toPairs R C m = (toCols R C m).zipIdx.map fun e => (e.2, e.1) := by
  apply List.ext_getElem?
  intro i
  simp only [toPairs, toCols, List.getElem?_map, List.getElem?_zipIdx, Nat.zero_add]
  by_cases hi : i < R
  · simp [List.getElem?_range hi]
  · rw [List.getElem?_eq_none (by simp; omega)]; simp

/-- The answers of a search. -/
theorem steps_init (R C : Nat) (iso p g : Mat) (hR : 0 < R) (n : Nat) :
    ∃ K, ∀ fuel, K ≤ fuel → steps fuel n (initSearch R C iso p g) =
      some ((List.range n).map (answer ((dfs R C p g R 0 iso fun _ => false).map (toCols R C)))) := by
  obtain ⟨s', he⟩ := emits_all R C iso p g hR n (initSearch R C iso p g) rfl rfl rfl rfl rfl rfl rfl rfl
  generalize hL : dfs R C p g R 0 iso (fun _ => false) = L at he
  have hB : (L.map some ++ [none]).length = L.length + 1 := by simp
  have hlen : n ≤ (List.replicate n (L.map some ++ [none])).flatten.length := by
    rw [flatten_replicate_length, hB]
    exact Nat.le_mul_of_pos_right n (by omega)
  obtain ⟨K, hK⟩ := emits_steps _ he n hlen
  refine ⟨K, fun fuel hf => ?_⟩
  rw [hK fuel hf]
  congr 1
  apply List.ext_getElem?
  intro i
  by_cases hi : i < n
  · rw [List.getElem?_map, List.getElem?_take_of_lt hi, List.getElem?_map, List.getElem?_range hi, Option.map_some,
      flatten_replicate_get _ (by omega) n i (by
        rw [hB]; exact Nat.lt_of_lt_of_le hi (Nat.le_mul_of_pos_right n (by omega))), hB]
    simp only [answer, List.length_map]
    have hmod : i % (L.length + 1) < L.length + 1 := Nat.mod_lt _ (by omega)
    generalize i % (L.length + 1) = d at hmod
    by_cases hd : d < L.length
    · rw [List.getElem?_append_left (by simpa using hd), List.getElem?_map, List.getElem?_map, List.getElem?_eq_getElem hd]
      simp only [Option.map_some, render, initSearch]
      rw [toPairs_eq]
    · rw [List.getElem?_append_right (by simp; omega), List.getElem?_eq_none (l := L.map (toCols R C)) (by simp; omega)]
      have : d - (L.map some).length = 0 := by simp; omega
      rw [this]; rfl
  · rw [List.getElem?_eq_none (by simp; omega), List.getElem?_eq_none (by simp; omega)]

/-! ### Adjacencies -/

theorem kidsKeys_length : ∀ (ks : List Pex) (r : List (List Key)), kidsKeys ks = some r → r.length = ks.length := by
  intro ks
  induction ks with
  | nil => intro r h; simp only [kidsKeys, Option.some.injEq] at h; subst h; rfl
  | cons k ks ih =>
    intro r h
    simp only [kidsKeys, Option.bind_eq_bind, Option.bind_eq_some_iff, Option.some.injEq] at h
    obtain ⟨a, _, r', h2, rfl⟩ := h
    simp [ih r' h2]

theorem adj_inside (p : Pex) (es : List (Nat × Nat)) (h : adjacencies p = some es) :
    ∀ e ∈ es, e.1 < topSize p ∧ e.2 < topSize p := by
  simp only [adjacencies, Option.bind_eq_bind, Option.bind_eq_some_iff, Option.some.injEq] at h
  obtain ⟨keys, hk, rfl⟩ := h
  have hlen : keys.length = topSize p := by
    unfold adjKeys at hk
    cases hkids : p.kids with
    | none => rw [hkids] at hk; exact absurd hk (by simp)
    | some ks =>
      rw [hkids] at hk
      simp only [Option.bind_eq_bind, Option.bind_eq_some_iff, Option.some.injEq] at hk
      obtain ⟨i, _, o, _, r, hr, rfl⟩ := hk
      simp only [topSize, hkids, List.length_cons, kidsKeys_length ks r hr]
      omega
  have hz : ∀ e ∈ keys.zipIdx, e.2 < topSize p := by
    intro e he
    obtain ⟨a, b⟩ := e
    have := List.mem_zipIdx he
    omega
  intro e he
  simp only [List.mem_flatMap, List.mem_map] at he
  obtain ⟨a, ha, x, _, j, hj, rfl⟩ := he
  have hj' : j < topSize p := by
    simp only [hits, List.mem_flatMap, List.mem_map] at hj
    obtain ⟨b, hb, _, _, rfl⟩ := hj
    exact hz b hb
  have ha' := hz a ha
  split <;> exact ⟨by assumption, by assumption⟩

theorem putEdges_spec (n : Nat) (es : List (Nat × Nat)) (h : ∀ e ∈ es, e.1 < n ∧ e.2 < n) (m : Mat) :
    ∃ m', putEdges n m es = some m' ∧ ∀ i j, (m' i j = true ↔ m i j = true ∨ (i, j) ∈ es ∨ (j, i) ∈ es) := by
  induction es generalizing m with
  | nil => exact ⟨m, rfl, by simp⟩
  | cons e es ih =>
    obtain ⟨a, b⟩ := e
    have hab := h (a, b) (by simp)
    obtain ⟨m', h1, h2⟩ := ih (fun e he => h e (by simp [he])) ((m.put a b true).put b a true)
    refine ⟨m', ?_, ?_⟩
    · rw [putEdges, putEdge, if_pos hab]; exact h1
    · intro i j
      rw [h2 i j]
      have : ((m.put a b true).put b a true) i j = true ↔ m i j = true ∨ (i = a ∧ j = b) ∨ (i = b ∧ j = a) := by
        simp only [Mat.put]
        by_cases h3 : i = b ∧ j = a
        · simp [h3]
        · by_cases h4 : i = a ∧ j = b
          · simp [h4]
          · simp [h3, h4]
      rw [this]
      simp only [List.mem_cons, Prod.mk.injEq]
      constructor
      · rintro ((h | h | ⟨h, h'⟩) | h | h)
        · exact .inl h
        · exact .inr (.inl (.inl h))
        · exact .inr (.inr (.inl ⟨h', h⟩))
        · exact .inr (.inl (.inr h))
        · exact .inr (.inr (.inr h))
      · rintro (h | (h | h) | (⟨h, h'⟩ | h))
        · exact .inl (.inl h)
        · exact .inl (.inr (.inl h))
        · exact .inr (.inl h)
        · exact .inl (.inr (.inr ⟨h', h⟩))
        · exact .inr (.inr h)

theorem mkAdj_spec (p : Pex) (es : List (Nat × Nat)) (h : adjacencies p = some es) (hne : es ≠ []) :
    ∃ m, mkAdj p = .ok m ∧ ∀ i j, (m i j = true ↔ Joined p i j) := by
  obtain ⟨m, h1, h2⟩ := putEdges_spec (topSize p) es (adj_inside p es h) (fun _ _ => false)
  refine ⟨fun i j => if i = j then false else m i j, ?_, ?_⟩
  · unfold mkAdj
    rw [h]
    cases es with
    | nil => exact absurd rfl hne
    | cons e es => simp only [h1]
  · intro i j
    by_cases hij : i = j
    · simp [hij, Joined]
    · simp only [if_neg hij]
      rw [h2]
      constructor
      · rintro (hf | he)
        · exact absurd hf (by simp)
        · exact ⟨hij, es, h, he⟩
      · rintro ⟨_, es', h', he⟩
        rw [h] at h'
        obtain rfl := Option.some.inj h'
        exact .inr he

/-! ### Signatures -/

theorem attr_key (p : Pex) (k : String) (v : Name) (h : attr p k = some v) : (k.toList, v) ∈ p.attrs := by
  simp only [attr, Option.map_eq_some_iff] at h
  obtain ⟨⟨a, b⟩, h1, rfl⟩ := h
  have h2 := List.find?_some h1
  have h3 := List.mem_of_find?_eq_some h1
  simp only [beq_iff_eq] at h2
  rw [List.mem_reverse] at h3
  rw [← h2]; exact h3

/-- The last value of a key, with a default. -/
def lastOf (k : Name) (as : List (Name × Name)) : Option Name := (as.reverse.find? fun a => a.1 == k).map Prod.snd

theorem lastOf_cons (k : Name) (a : Name × Name) (as : List (Name × Name)) :
    lastOf k (a :: as) = (lastOf k as).or (if a.1 = k then some a.2 else none) := by
  simp only [lastOf, List.reverse_cons, List.find?_append]
  cases h : as.reverse.find? fun a => a.1 == k with
  | some x => simp
  | none =>
    by_cases hk : a.1 = k
    · simp [hk]
    · simp [hk]

theorem readSig_spec (as : List (Name × Name)) (h : ∀ a ∈ as, a.1 = "FP".toList → (atoi a.2).isSome) (r : Int × Option Name) :
    readSig as r = some (((lastOf "FP".toList as).bind atoi).getD r.1, (lastOf "SHA".toList as).or r.2) := by
  induction as generalizing r with
  | nil => simp [readSig, lastOf]
  | cons a as ih =>
    obtain ⟨k, v⟩ := a
    have h' : ∀ a ∈ as, a.1 = "FP".toList → (atoi a.2).isSome := fun a ha => h a (by simp [ha])
    have hfp : ∀ w, lastOf "FP".toList as = some w → (atoi w).isSome := by
      intro w hw
      simp only [lastOf, Option.map_eq_some_iff] at hw
      obtain ⟨⟨a, b⟩, h1, rfl⟩ := hw
      have h2 := List.find?_some h1
      have h3 := List.mem_of_find?_eq_some h1
      simp only [beq_iff_eq] at h2
      exact h' _ (List.mem_reverse.1 h3) h2
    rw [readSig, lastOf_cons, lastOf_cons]
    by_cases hs : k = "SHA".toList
    · have hne : k ≠ "FP".toList := by rw [hs]; decide
      rw [if_pos hs, ih h', if_pos hs, if_neg hne, Option.or_none, Option.or_assoc]
      rfl
    · rw [if_neg hs, if_neg hs, Option.or_none]
      by_cases hf : k = "FP".toList
      · rw [if_pos hf, if_pos hf]
        have hv := h (k, v) (by simp) hf
        obtain ⟨n, hn⟩ := Option.isSome_iff_exists.1 hv
        simp only at hn
        rw [hn]
        simp only
        rw [ih h']
        cases hl : lastOf "FP".toList as with
        | none => simp [hn]
        | some w =>
          obtain ⟨q, hq⟩ := Option.isSome_iff_exists.1 (hfp w hl)
          simp [hq]
      · rw [if_neg hf, if_neg hf, ih h', Option.or_none]

theorem instSig_spec (p : Pex) (h : Signed p) : ∃ n v, HasFp p n ∧ attr p "SHA" = some v ∧ instSig p = .ok ⟨n, v⟩ := by
  obtain ⟨n, w, h1, h2, h3⟩ := h.fp
  obtain ⟨v, hv⟩ := h.sha
  refine ⟨n, v, ⟨w, h1, h2, h3⟩, hv, ?_⟩
  unfold instSig
  rw [readSig_spec p.attrs h.range]
  have e1 : lastOf "FP".toList p.attrs = some w := h1
  have e2 : lastOf "SHA".toList p.attrs = some v := hv
  rw [e1, e2]
  simp [h2, h3]

theorem HasFp.unique {p : Pex} {m n : Int} (h : HasFp p m) (k : HasFp p n) : m = n := by
  obtain ⟨v, h1, h2, _⟩ := h
  obtain ⟨w, k1, k2, _⟩ := k
  rw [h1] at k1
  obtain rfl := Option.some.inj k1
  rw [h2] at k2
  exact Option.some.inj k2

theorem kidSigs_spec (ks : List Pex) (h : ∀ k ∈ ks, Signed k) :
    ∃ l, kidSigs ks = .ok l ∧ l.length = ks.length ∧ ∀ (i : Nat) (k : Pex) (s : Sig), ks[i]? = some k → l[i]? = some s → instSig k = .ok s := by
  induction ks with
  | nil => exact ⟨[], rfl, rfl, by simp⟩
  | cons k ks ih =>
    obtain ⟨l, h1, h2, h3⟩ := ih fun k hk => h k (by simp [hk])
    obtain ⟨n, v, _, _, h4⟩ := instSig_spec k (h k (by simp))
    refine ⟨⟨n, v⟩ :: l, ?_, by simp [h2], ?_⟩
    · rw [kidSigs, h4, h1]; rfl
    · intro i k' s hk hs
      cases i with
      | zero => simp only [List.getElem?_cons_zero, Option.some.injEq] at hk hs; subst hk; subst hs; exact h4
      | succ i => exact h3 i k' s (by simpa using hk) (by simpa using hs)

theorem mkIsoList_spec (p : Pex) (ks : List Pex) (hk : p.kids = some ks) (h : ∀ i x, inst p i = some x → Signed x) :
    ∃ l, mkIsoList p = .ok l ∧ l.length = topSize p ∧
      ∀ i s, l[i]? = some s ↔ ∃ x, inst p i = some x ∧ instSig x = .ok s := by
  have hks : ∀ k ∈ ks, Signed k := by
    intro k hk'
    obtain ⟨i, hi, rfl⟩ := List.getElem_of_mem hk'
    exact h (i + 1) _ (by simp only [inst, hk, Option.bind_some]; exact List.getElem?_eq_getElem hi)
  obtain ⟨l, h1, h2, h3⟩ := kidSigs_spec ks hks
  obtain ⟨n, v, _, _, h4⟩ := instSig_spec p (h 0 p rfl)
  refine ⟨⟨n, v⟩ :: l, ?_, ?_, ?_⟩
  · unfold mkIsoList; rw [hk]; simp only [h4, h1]; rfl
  · simp only [topSize, hk, List.length_cons, h2]; omega
  · intro i s
    cases i with
    | zero =>
      simp only [List.getElem?_cons_zero, inst, Option.some.injEq, exists_eq_left', h4, Made.ok.injEq]
    | succ i =>
      simp only [List.getElem?_cons_succ, inst, hk, Option.bind_some]
      constructor
      · intro hs
        have hlt : i < ks.length := by rw [← h2]; exact (List.getElem?_eq_some_iff.1 hs).1
        exact ⟨_, List.getElem?_eq_getElem hlt, h3 i _ s (List.getElem?_eq_getElem hlt) hs⟩
      · rintro ⟨x, hx, hs⟩
        have hlt : i < l.length := by rw [h2]; exact (List.getElem?_eq_some_iff.1 hx).1
        have := h3 i x _ hx (List.getElem?_eq_getElem hlt)
        rw [hs] at this
        rw [List.getElem?_eq_getElem hlt, Made.ok.inj this]

theorem mkIso_spec (p g : Pex) (ks ls : List Pex) (hk : p.kids = some ks) (hl : g.kids = some ls)
    (hp : ∀ i x, inst p i = some x → Signed x) (hg : ∀ i x, inst g i = some x → Signed x) :
    ∃ m, mkIso p g = .ok m ∧ ∀ i j, (m i j = true ↔ ∃ x y, inst p i = some x ∧ inst g j = some y ∧ Alike x y) := by
  obtain ⟨a, ha, _, ha'⟩ := mkIsoList_spec p ks hk hp
  obtain ⟨b, hb, _, hb'⟩ := mkIsoList_spec g ls hl hg
  refine ⟨mkIsoMatrix a b, by unfold mkIso; rw [ha, hb]; rfl, ?_⟩
  intro i j
  have key : ∀ x y s t, Signed x → Signed y → instSig x = .ok s → instSig y = .ok t →
      ((s.fp == t.fp || s.sha == t.sha) = true ↔ Alike x y) := by
    intro x y s t hx hy hs ht
    obtain ⟨n, v, h1, h2, h3⟩ := instSig_spec x hx
    obtain ⟨n', v', h1', h2', h3'⟩ := instSig_spec y hy
    rw [h3] at hs; rw [h3'] at ht
    obtain rfl := Made.ok.inj hs
    obtain rfl := Made.ok.inj ht
    simp only [Bool.or_eq_true, beq_iff_eq, Alike]
    constructor
    · rintro (h | h)
      · exact .inl ⟨n, h1, h ▸ h1'⟩
      · exact .inr ⟨v, h2, h ▸ h2'⟩
    · rintro (⟨k, hk, hk'⟩ | ⟨w, hw, hw'⟩)
      · exact .inl ((h1.unique hk).trans (hk'.unique h1'))
      · rw [h2] at hw; rw [h2'] at hw'
        exact .inr ((Option.some.inj hw).trans (Option.some.inj hw').symm)
  unfold mkIsoMatrix
  constructor
  · intro h
    cases hai : a[i]? with
    | none => rw [hai] at h; exact absurd h (by simp)
    | some s =>
      cases hbj : b[j]? with
      | none => rw [hai, hbj] at h; exact absurd h (by simp)
      | some t =>
        rw [hai, hbj] at h
        obtain ⟨x, hx, hs⟩ := (ha' i s).1 hai
        obtain ⟨y, hy, ht⟩ := (hb' j t).1 hbj
        exact ⟨x, y, hx, hy, (key x y s t (hp i x hx) (hg j y hy) hs ht).1 h⟩
  · rintro ⟨x, y, hx, hy, h⟩
    obtain ⟨n, v, _, _, h3⟩ := instSig_spec x (hp i x hx)
    obtain ⟨n', v', _, _, h3'⟩ := instSig_spec y (hg j y hy)
    rw [(ha' i _).2 ⟨x, hx, h3⟩, (hb' j _).2 ⟨y, hy, h3'⟩]
    exact (key x y _ _ (hp i x hx) (hg j y hy) h3 h3').2 h

end Voss.Iso
