import Verif.Iso.Lemmas

/- Lemmas: the leaves of the search tree are the occurrences, in lexicographic order. -/
namespace Voss.Iso

/-- All lists of `n` numbers below `C`, in lexicographic order. -/
def seqs (C : Nat) : Nat → List (List Nat)
  | 0 => [[]]
  | n + 1 => (List.range C).flatMap fun c => (seqs C n).map (c :: ·)

theorem mem_seqs {C n : Nat} {f : List Nat} : f ∈ seqs C n ↔ f.length = n ∧ ∀ c ∈ f, c < C := by
  induction n generalizing f with
  | zero =>
    simp only [seqs, List.mem_singleton, List.length_eq_zero_iff]
    constructor
    · rintro rfl; simp
    · exact fun h => h.1
  | succ n ih =>
    simp only [seqs, List.mem_flatMap, List.mem_range, List.mem_map]
    constructor
    · rintro ⟨c, hc, g, hg, rfl⟩
      obtain ⟨h1, h2⟩ := ih.1 hg
      refine ⟨by simp [h1], ?_⟩
      intro d hd
      rcases List.mem_cons.1 hd with rfl | hd
      · exact hc
      · exact h2 d hd
    · rintro ⟨h1, h2⟩
      match f, h1 with
      | c :: g, h1 =>
        exact ⟨c, h2 c (by simp), g, ih.2 ⟨by simpa using h1, fun d hd => h2 d (by simp [hd])⟩, rfl⟩

theorem seqs_sorted (C n : Nat) : (seqs C n).Pairwise (List.Lex (· < ·)) := by
  induction n with
  | zero => simp [seqs]
  | succ n ih =>
    rw [seqs, List.pairwise_flatMap]
    constructor
    · intro c _
      rw [List.pairwise_map]
      exact ih.imp fun h => List.Lex.cons h
    · refine List.pairwise_lt_range.imp ?_
      intro a b hab x hx y hy
      simp only [List.mem_map] at hx hy
      obtain ⟨x, _, rfl⟩ := hx
      obtain ⟨y, _, rfl⟩ := hy
      exact List.Lex.rel hab

/-! ### The check at a leaf -/

/-- Row `i` has its only entry at column `f[i]`. -/
def IsMap (R C : Nat) (m : Mat) (f : List Nat) : Prop :=
  f.length = R ∧ (∀ c ∈ f, c < C) ∧ ∀ i c j, f[i]? = some c → j < C → (m i j = true ↔ j = c)

theorem singleRow_skip (m : Nat → Bool) (js : List Nat) (row : Bool) (used : Nat → Bool) (h : ∀ j ∈ js, m j = false) :
    singleRow m js row used = some used := by
  induction js generalizing row with
  | nil => rfl
  | cons j js ih =>
    rw [singleRow, h j (by simp)]
    exact ih row fun x hx => h x (by simp [hx])

theorem singleRow_map (m : Nat → Bool) (js : List Nat) (c : Nat) (used : Nat → Bool) (hn : js.Nodup) (hc : c ∈ js)
    (h : ∀ j ∈ js, (m j = true ↔ j = c)) :
    singleRow m js false used = if used c then none else some (put used c true) := by
  induction js with
  | nil => exact absurd hc List.not_mem_nil
  | cons j js ih =>
    rw [singleRow]
    by_cases hj : j = c
    · subst hj
      rw [if_pos ((h j (by simp)).2 rfl)]
      have hskip : singleRow m js true (put used j true) = some (put used j true) := by
        refine singleRow_skip _ _ _ _ fun x hx => ?_
        have hne : x ≠ j := by rintro rfl; exact (List.nodup_cons.1 hn).1 hx
        have := (h x (by simp [hx])).not.2 hne
        simpa using this
      rw [hskip]; simp
    · have : m j = false := by
        have := (h j (by simp)).not.2 hj
        simpa using this
      rw [this, if_neg (by simp)]
      exact ih (List.nodup_cons.1 hn).2 (by rcases List.mem_cons.1 hc with h | h; exact absurd h.symm hj; exact h)
        fun x hx => h x (by simp [hx])

theorem singleRows_map (R C : Nat) (m : Mat) (f : List Nat) (h : IsMap R C m f) (k r : Nat) (hr : r + k = R) (used : Nat → Bool)
    (hu : ∀ j, used j = decide (j ∈ f.take r)) (hnd : (f.take r).Nodup) :
    singleRows C m (List.range' r k) used = true ↔ f.Nodup := by
  induction k generalizing r used with
  | zero =>
    have : f.take r = f := List.take_of_length_le (by rw [h.1]; omega)
    rw [List.range'_zero, singleRows]
    rw [this] at hnd
    simp [hnd]
  | succ k ih =>
    rw [List.range'_succ, singleRows]
    have hlt : r < f.length := by rw [h.1]; omega
    have hc : f[r]? = some f[r] := List.getElem?_eq_getElem hlt
    have hcC : f[r] < C := h.2.1 _ (List.getElem_mem hlt)
    rw [singleRow_map (m r) (List.range C) f[r] used List.nodup_range (List.mem_range.2 hcC)
      (fun j hj => h.2.2 r f[r] j hc (List.mem_range.1 hj))]
    have htake : f.take (r + 1) = f.take r ++ [f[r]] := by
      rw [List.take_append_getElem hlt]
    by_cases hused : used f[r] = true
    · rw [if_pos hused]
      rw [hu, decide_eq_true_eq] at hused
      constructor
      · intro h; exact absurd h (by simp)
      · intro hn
        exfalso
        have h1 : (f.take (r + 1)).Nodup := hn.sublist (List.take_sublist _ _)
        rw [htake, List.nodup_append] at h1
        exact h1.2.2 _ hused _ (by simp) rfl
    · rw [if_neg hused]
      have hnot : f[r] ∉ f.take r := by
        rw [hu, decide_eq_true_eq] at hused; exact hused
      refine ih (r + 1) (by omega) _ ?_ ?_
      · intro j
        rw [htake]
        simp only [put, List.mem_append, List.mem_singleton]
        split
        · rename_i hj; simp [hj]
        · rename_i hj; rw [hu]; simp [hj]
      · rw [htake, List.nodup_append]
        refine ⟨hnd, by simp, ?_⟩
        intro a ha b hb hab
        simp only [List.mem_singleton] at hb
        subst hb; subst hab
        exact hnot ha

theorem isSingle_map (R C : Nat) (m : Mat) (f : List Nat) (h : IsMap R C m f) : isSingle R C m = true ↔ f.Nodup := by
  rw [isSingle, List.range_eq_range']
  exact singleRows_map R C m f h R 0 (by omega) _ (by simp) (by simp)

theorem isIso_map (R C : Nat) (m p g : Mat) (f : List Nat) (h : IsMap R C m f) :
    isIsomorphism R C m p g = true ↔
      ∀ i j c d, f[i]? = some c → f[j]? = some d → p i j = true → g d c = true := by
  simp only [isIsomorphism, List.all_eq_true, List.mem_range, Bool.not_eq_true', Bool.and_eq_false_iff, Bool.not_eq_false',
    List.any_eq_true, Bool.and_eq_true]
  have hat : ∀ i c, f[i]? = some c → i < R ∧ c < C := by
    intro i c hi
    obtain ⟨hlt, he⟩ := List.getElem?_eq_some_iff.1 hi
    exact ⟨by rw [← h.1]; exact hlt, he ▸ h.2.1 _ (List.getElem_mem hlt)⟩
  constructor
  · intro hall i j c d hi hj hp
    rcases hall i (hat i c hi).1 j (hat j d hj).1 with hf | ⟨k, hk, hmk, l, hl, hml, hg⟩
    · rw [hp] at hf; exact absurd hf (by simp)
    · rw [(h.2.2 i c k hi hk).1 hmk, (h.2.2 j d l hj hl).1 hml] at hg
      exact hg
  · intro hall i hi j hj
    have hi' : i < f.length := by rw [h.1]; exact hi
    have hj' : j < f.length := by rw [h.1]; exact hj
    have h1 := List.getElem?_eq_getElem hi'
    have h2 := List.getElem?_eq_getElem hj'
    cases hp : p i j
    · exact Or.inl rfl
    · refine Or.inr ⟨f[i], (hat _ _ h1).2, (h.2.2 _ _ _ h1 (hat _ _ h1).2).2 rfl, f[j], (hat _ _ h2).2,
        (h.2.2 _ _ _ h2 (hat _ _ h2).2).2 rfl, hall i j _ _ h1 h2 hp⟩

/-! ### The tree -/

/-- The matrix after the columns `pre` have been picked for the first rows. -/
structure Inv (R C : Nat) (iso p g : Mat) (pre : List Nat) (m : Mat) (used : Nat → Bool) : Prop where
  inside : ∀ c ∈ pre, c < C
  like : ∀ i c, pre[i]? = some c → iso i c = true
  used : ∀ j, used j = decide (j ∈ pre)
  done : ∀ i c j, pre[i]? = some c → j < C → (m i j = true ↔ j = c)
  todo : ∀ i j, pre.length ≤ i → i < R → j < C →
    (m i j = true ↔ iso i j = true ∧ ∀ k c, pre[k]? = some c → p k i = true → g c j = true)

theorem Inv.next {R C : Nat} {iso p g : Mat} {pre : List Nat} {m : Mat} {used : Nat → Bool} (h : Inv R C iso p g pre m used)
    {c : Nat} (hr : pre.length < R) (hc : c < C) (hm : m pre.length c = true) :
    Inv R C iso p g (pre ++ [c]) (pickRow C (trim R C m p g pre.length c).1 pre.length c) (put used c true) := by
  have hget : ∀ i d, (pre ++ [c])[i]? = some d ↔ pre[i]? = some d ∨ (i = pre.length ∧ d = c) := by
    intro i d
    by_cases hi : i < pre.length
    · rw [List.getElem?_append_left hi]
      constructor
      · exact Or.inl
      · rintro (h | ⟨rfl, _⟩)
        · exact h
        · omega
    · rw [List.getElem?_append_right (by omega)]
      by_cases hi' : i = pre.length
      · subst hi'; simp [eq_comm]
      · rw [List.getElem?_eq_none (by simp; omega), List.getElem?_eq_none (by omega)]
        simp [hi']
  refine ⟨?_, ?_, ?_, ?_, ?_⟩
  · intro d hd
    rcases List.mem_append.1 hd with hd | hd
    · exact h.inside d hd
    · rw [List.mem_singleton.1 hd]; exact hc
  · intro i d hi
    rcases (hget i d).1 hi with hi | ⟨rfl, rfl⟩
    · exact h.like i d hi
    · exact ((h.todo _ _ (Nat.le_refl _) hr hc).1 hm).1
  · intro j
    simp only [put, List.mem_append, List.mem_singleton]
    split
    · rename_i hj; simp [hj]
    · rename_i hj; rw [h.used]; simp [hj]
  · intro i d j hi hj
    rcases (hget i d).1 hi with hi | ⟨rfl, rfl⟩
    · have hlt : i < pre.length := (List.getElem?_eq_some_iff.1 hi).1
      have hne : i ≠ pre.length := by omega
      rw [← h.done i d j hi hj]
      simp only [pickRow, Mat.put, hne, false_and, if_false]
      rw [trim_fst]
      have hnl : ¬ (pre.length < i ∧ i < R ∧ j < C) := by omega
      simp [hnl]
    · simp only [pickRow, Mat.put, true_and]
      split
      · rename_i hjd; simp [hjd]
      · rename_i hjd; simp [hjd, hj]
  · intro i j hi hiR hj
    rw [List.length_append, List.length_singleton] at hi
    have hne : i ≠ pre.length := by omega
    simp only [pickRow, Mat.put, hne, false_and, if_false]
    rw [trim_fst]
    have hin : pre.length < i ∧ i < R ∧ j < C := ⟨by omega, hiR, hj⟩
    rw [Bool.and_eq_true, h.todo i j (by omega) hiR hj]
    simp only [hin, decide_true, Bool.true_and, Bool.not_eq_true', Bool.and_eq_false_iff,
      Bool.not_eq_false', and_true, true_and]
    constructor
    · rintro ⟨⟨h1, h2⟩, h3⟩
      refine ⟨h1, fun k d hk hp => ?_⟩
      rcases (hget k d).1 hk with hk | ⟨rfl, rfl⟩
      · exact h2 k d hk hp
      · rcases h3 with h3 | h3
        · rw [hp] at h3; exact absurd h3 (by simp)
        · exact h3
    · rintro ⟨h1, h2⟩
      refine ⟨⟨h1, fun k d hk hp => h2 k d ((hget k d).2 (.inl hk)) hp⟩, ?_⟩
      cases hp : p pre.length i
      · exact Or.inl rfl
      · exact Or.inr (h2 _ _ ((hget _ _).2 (.inr ⟨rfl, rfl⟩)) hp)

/-- The decision whether `f` is an occurrence. -/
def good (R C : Nat) (iso p g : Mat) (f : List Nat) : Prop :=
  Occurs R C (fun i c => iso i c = true) (fun i j => p i j = true) (fun i j => g i j = true) f

/-- The columns of the rows. -/
def toCols (R C : Nat) (m : Mat) : List Nat := (List.range R).map fun i => nextCol (fun j => !m i j) C 0

theorem toCols_map (R C : Nat) (m : Mat) (f : List Nat) (h : IsMap R C m f) : toCols R C m = f := by
  apply List.ext_getElem?
  intro i
  by_cases hi : i < R
  · have hlt : i < f.length := by rw [h.1]; exact hi
    rw [toCols, List.getElem?_map, List.getElem?_range hi, List.getElem?_eq_getElem hlt, Option.map_some]
    obtain ⟨_, h2, h3, h4⟩ := nextCol_spec (fun j => !m i j) C 0
    have hc : f[i] < C := h.2.1 _ (List.getElem_mem hlt)
    have hg := List.getElem?_eq_getElem hlt
    generalize nextCol (fun j => !m i j) C 0 = d at h2 h3 h4
    congr 1
    have hm : m i f[i] = true := (h.2.2 i _ _ hg hc).2 rfl
    by_cases hd : d < C
    · have h5 := h4 (by omega)
      simp only [Bool.not_eq_false'] at h5
      exact (h.2.2 i _ d hg hd).1 h5
    · have h5 := h3 f[i] (by omega) (by omega)
      rw [hm] at h5; exact absurd h5 (by simp)
  · rw [List.getElem?_eq_none (by simp [toCols]; omega), List.getElem?_eq_none (by rw [h.1]; omega)]

open Classical in
theorem dfs_spec (R C : Nat) (iso p g : Mat) (hg : ∀ i j, g i j = g j i) (n : Nat) :
    ∀ (pre : List Nat) (m : Mat) (used : Nat → Bool), Inv R C iso p g pre m used → pre.length + n = R →
      (dfs R C p g n pre.length m used).map (toCols R C) =
        ((seqs C n).map (pre ++ ·)).filter fun f => decide (good R C iso p g f) := by
  induction n with
  | zero =>
    intro pre m used h hn
    have hmap : IsMap R C m pre := ⟨by omega, h.inside, h.done⟩
    have hiff : isMatch R C m p g = true ↔ good R C iso p g pre := by
      rw [isMatch, Bool.and_eq_true, isSingle_map R C m pre hmap, isIso_map R C m p g pre hmap]
      constructor
      · rintro ⟨h1, h2⟩
        exact ⟨by omega, h.inside, h1, h.like, fun i j c d hi hj hp => by rw [hg]; exact h2 i j c d hi hj hp⟩
      · intro ho
        exact ⟨ho.once, fun i j c d hi hj hp => by rw [hg]; exact ho.wires i j c d hi hj hp⟩
    rw [dfs, seqs]
    simp only [List.map_cons, List.map_nil, List.append_nil]
    by_cases hm : isMatch R C m p g = true
    · rw [if_pos hm, List.filter_cons_of_pos (by simpa using hiff.1 hm)]
      simp [toCols_map R C m pre hmap]
    · rw [if_neg hm, List.filter_cons_of_neg (by simpa using fun hgd => hm (hiff.2 hgd))]
      rfl
  | succ n ih =>
    intro pre m used h hn
    rw [dfs, seqs, List.map_flatMap, List.map_flatMap, List.filter_flatMap]
    have hcongr : ∀ c ∈ List.range C,
        List.map (toCols R C) (if (used c || !m pre.length c) = true then [] else
          dfs R C p g n (pre.length + 1) (pickRow C (trim R C m p g pre.length c).1 pre.length c) (put used c true)) =
        List.filter (fun f => decide (good R C iso p g f)) (List.map (pre ++ ·) (List.map (c :: ·) (seqs C n))) := by
      intro c hc
      have hcC := List.mem_range.1 hc
      have hsplit : List.map (pre ++ ·) (List.map (c :: ·) (seqs C n)) = (seqs C n).map ((pre ++ [c]) ++ ·) := by
        rw [List.map_map]; apply List.map_congr_left; intro f _; simp
      rw [hsplit]
      by_cases hb : (used c || !m pre.length c) = true
      · rw [if_pos hb, List.map_nil, eq_comm, List.filter_eq_nil_iff]
        intro f hf
        simp only [List.mem_map] at hf
        obtain ⟨tl, _, rfl⟩ := hf
        simp only [decide_eq_true_eq]
        intro ho
        rw [Bool.or_eq_true] at hb
        have hat : (pre ++ [c] ++ tl)[pre.length]? = some c := by simp
        rcases hb with hb | hb
        · rw [h.used, decide_eq_true_eq] at hb
          have := ho.once
          rw [List.append_assoc, List.nodup_append] at this
          exact this.2.2 c hb c (by simp) rfl
        · have hm : ¬ m pre.length c = true := by simpa using hb
          apply hm
          rw [h.todo _ _ (Nat.le_refl _) (by omega) hcC]
          refine ⟨ho.like _ _ hat, fun k d hk hp => ho.wires k pre.length d c ?_ hat hp⟩
          have hlt : k < pre.length := (List.getElem?_eq_some_iff.1 hk).1
          rw [List.append_assoc, List.getElem?_append_left hlt]
          exact hk
      · rw [if_neg hb]
        have hm : m pre.length c = true := by
          simp only [Bool.not_eq_true, Bool.or_eq_false_iff, Bool.not_eq_false'] at hb
          exact hb.2
        have := ih (pre ++ [c]) _ _ (h.next (by omega) hcC hm) (by simp; omega)
        rw [List.length_append, List.length_singleton] at this
        exact this
    rw [List.flatMap_def, List.flatMap_def, List.map_congr_left hcongr]

theorem Inv.init (R C : Nat) (iso p g : Mat) : Inv R C iso p g [] iso (fun _ => false) :=
  ⟨by simp, by simp, by simp, by simp, by simp⟩

end Voss.Iso
