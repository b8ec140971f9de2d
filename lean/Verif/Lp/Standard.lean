import Verif.Lp.Phase

/-! The standard form has the solutions of the constraints. -/
namespace Voss.Lp

/-- The sum of coefficients times values, which are counted from `k`. -/
def ev : List ℚ → Nat → (Nat → ℚ) → ℚ
  | [], _, _ => 0
  | c :: cs, k, v => c * v k + ev cs (k + 1) v

theorem ev_sum : ∀ (l : List ℚ) (k : Nat) (v : Nat → ℚ), ev l k v = ∑ j ∈ Finset.range l.length, l.getD j 0 * v (k + j) := by
  intro l
  induction l with
  | nil => intro k v; simp [ev]
  | cons c l ih =>
    intro k v
    rw [ev, ih, List.length_cons, Finset.sum_range_succ']
    simp only [List.getD_cons_succ, List.getD_cons_zero, Nat.add_zero]
    rw [add_comm]
    congr 1
    apply Finset.sum_congr rfl
    intro j _
    rw [show k + 1 + j = k + (j + 1) by omega]

theorem sm_ev (b : ℚ) (l : List ℚ) (v : Nat → ℚ) : sm l.length (fun j => (b :: l).getD j 0 * v j) = ev l 1 v := by
  rw [ev_sum]
  unfold sm
  apply Finset.sum_congr rfl
  intro j _
  beta_reduce
  rw [List.getD_cons_succ, Nat.add_comm 1 j]

theorem ev_append : ∀ (a b : List ℚ) (k : Nat) (v : Nat → ℚ), ev (a ++ b) k v = ev a k v + ev b (k + a.length) v := by
  intro a
  induction a with
  | nil => intro b k v; simp [ev]
  | cons c a ih =>
    intro b k v
    rw [List.cons_append, ev, ev, ih, List.length_cons, show k + 1 + a.length = k + (a.length + 1) by omega]
    ring

theorem ev_replicate (n k : Nat) (v : Nat → ℚ) : ev (List.replicate n 0) k v = 0 := by
  induction n generalizing k with
  | zero => rfl
  | succ n ih => rw [List.replicate_succ, ev, ih]; simp

theorem ev_set (n p : Nat) (x : ℚ) (k : Nat) (v : Nat → ℚ) (h : p < n) : ev ((List.replicate n 0).set p x) k v = x * v (k + p) := by
  induction n generalizing k p with
  | zero => omega
  | succ n ih =>
    rw [List.replicate_succ]
    cases p with
    | zero => rw [List.set_cons_zero, ev, ev_replicate]; simp
    | succ p => rw [List.set_cons_succ, ev, ih p (k + 1) (by omega), show k + 1 + p = k + (p + 1) by omega]; ring

theorem ev_congr : ∀ (l : List ℚ) (k : Nat) (v w : Nat → ℚ), (∀ j, k ≤ j → j < k + l.length → v j = w j) → ev l k v = ev l k w := by
  intro l
  induction l with
  | nil => intro k v w _; rfl
  | cons c l ih =>
    intro k v w h
    rw [ev, ev, h k (Nat.le_refl _) (by simp), ih (k + 1) v w]
    intro j a b
    exact h j (by omega) (by rw [List.length_cons]; omega)

/-- The first free column after `j` variables. -/
def pos (signed : List Nat) : Nat → Nat
  | 0 => 1
  | j + 1 => pos signed j + (if j + 1 ∈ signed then 1 else 2)

/-- The value of a variable. -/
def unsplit (signed : List Nat) (v : Nat → ℚ) (j : Nat) : ℚ :=
  if j ∈ signed then v (pos signed (j - 1)) else v (pos signed (j - 1)) - v (pos signed (j - 1) + 1)

theorem pos_le (signed : List Nat) {a b : Nat} (h : a ≤ b) : pos signed a ≤ pos signed b := by
  induction h with
  | refl => exact Nat.le_refl _
  | step _ ih => rw [pos]; omega

theorem pos_pos (signed : List Nat) (a : Nat) : 1 ≤ pos signed a := pos_le signed (Nat.zero_le a)

theorem ev_split (signed : List Nat) (v : Nat → ℚ) : ∀ (cs : List ℚ) (j : Nat),
    ev (split signed (j + 1) cs) (pos signed j) v = ev cs (j + 1) (unsplit signed v) ∧
    pos signed j + (split signed (j + 1) cs).length = pos signed (j + cs.length) := by
  intro cs
  induction cs with
  | nil => intro j; exact ⟨rfl, rfl⟩
  | cons c cs ih =>
    intro j
    obtain ⟨h1, h2⟩ := ih (j + 1)
    by_cases hs : j + 1 ∈ signed
    · have hp : pos signed (j + 1) = pos signed j + 1 := by rw [pos, if_pos hs]
      rw [split, if_pos hs, ev, ev, unsplit, if_pos hs, Nat.add_sub_cancel, ← hp, h1, List.length_cons, List.length_cons]
      refine ⟨rfl, ?_⟩
      rw [show j + (cs.length + 1) = j + 1 + cs.length by omega, ← h2, hp]
      omega
    · have hp : pos signed (j + 1) = pos signed j + 2 := by rw [pos, if_neg hs]
      rw [split, if_neg hs, ev, ev, ev, unsplit, if_neg hs, Nat.add_sub_cancel, show pos signed j + 1 + 1 = pos signed (j + 1) by rw [hp],
        h1, List.length_cons, List.length_cons, List.length_cons]
      refine ⟨by ring, ?_⟩
      rw [show j + (cs.length + 1) = j + 1 + cs.length by omega, ← h2, hp]
      omega

theorem labels_length (signed : List Nat) : ∀ (n j : Nat), pos signed j + (labels signed (j + 1) n).length = pos signed (j + n) := by
  intro n
  induction n with
  | zero => intro j; rfl
  | succ n ih =>
    intro j
    have := ih (j + 1)
    rw [show j + (n + 1) = j + 1 + n by omega, ← this, labels, pos]
    split <;> simp only [List.length_cons] <;> omega

/-- The values of the columns for given values of the variables. -/
theorem exists_split (signed : List Nat) (x : Nat → ℚ) (u : Nat → ℚ) (hu : ∀ p, 0 ≤ u p) :
    ∀ (n : Nat), (∀ j, 1 ≤ j → j ≤ n → j ∈ signed → 0 ≤ x j) →
      ∃ v : Nat → ℚ, (∀ p, 0 ≤ v p) ∧ (∀ j, 1 ≤ j → j ≤ n → unsplit signed v j = x j) ∧ ∀ p, pos signed n ≤ p → v p = u p := by
  intro n
  induction n with
  | zero => intro _; exact ⟨u, hu, by intro j a b; omega, fun _ _ => rfl⟩
  | succ n ih =>
    intro hx
    obtain ⟨v, v0, v1, v2⟩ := ih (fun j a b => hx j a (by omega))
    by_cases hs : n + 1 ∈ signed
    · refine ⟨fun p => if p = pos signed n then x (n + 1) else v p, ?_, ?_, ?_⟩
      · intro p
        beta_reduce
        split
        · exact hx (n + 1) (by omega) (Nat.le_refl _) hs
        · exact v0 p
      · intro j a b
        by_cases hj : j = n + 1
        · subst hj
          rw [unsplit, if_pos hs, Nat.add_sub_cancel]
          simp
        · rw [← v1 j a (by omega)]
          have h1 : pos signed j ≤ pos signed n := pos_le signed (by omega)
          obtain ⟨k, rfl⟩ : ∃ k, j = k + 1 := ⟨j - 1, by omega⟩
          unfold unsplit
          rw [pos] at h1
          simp only [Nat.add_sub_cancel]
          by_cases hk : k + 1 ∈ signed
          · rw [if_pos hk] at h1
            rw [if_pos hk, if_pos hk, if_neg (by omega)]
          · rw [if_neg hk] at h1
            rw [if_neg hk, if_neg hk, if_neg (by omega), if_neg (by omega)]
      · intro p hp
        rw [pos, if_pos hs] at hp
        beta_reduce
        rw [if_neg (by omega), v2 p (by omega)]
    · refine ⟨fun p => if p = pos signed n then max (x (n + 1)) 0 else if p = pos signed n + 1 then max (- x (n + 1)) 0 else v p, ?_, ?_, ?_⟩
      · intro p
        beta_reduce
        split
        · exact le_max_right _ _
        · split
          · exact le_max_right _ _
          · exact v0 p
      · intro j a b
        by_cases hj : j = n + 1
        · subst hj
          rw [unsplit, if_neg hs, Nat.add_sub_cancel]
          rw [if_pos rfl, if_neg (by omega), if_pos rfl]
          rcases le_total (x (n + 1)) 0 with h | h
          · rw [max_eq_right h, max_eq_left (by linarith)]; ring
          · rw [max_eq_left h, max_eq_right (by linarith)]; ring
        · rw [← v1 j a (by omega)]
          have h1 : pos signed j ≤ pos signed n := pos_le signed (by omega)
          obtain ⟨k, rfl⟩ : ∃ k, j = k + 1 := ⟨j - 1, by omega⟩
          unfold unsplit
          rw [pos] at h1
          simp only [Nat.add_sub_cancel]
          by_cases hk : k + 1 ∈ signed
          · rw [if_pos hk] at h1
            rw [if_pos hk, if_pos hk, if_neg (by omega), if_neg (by omega)]
          · rw [if_neg hk] at h1
            rw [if_neg hk, if_neg hk, if_neg (by omega), if_neg (by omega), if_neg (by omega), if_neg (by omega)]
      · intro p hp
        rw [pos, if_neg hs] at hp
        beta_reduce
        rw [if_neg (by omega), if_neg (by omega), v2 p (by omega)]

/-- The rows that stay, if there is no `<>`. -/
def kept (rs : List Row) : List Row := rs.filter fun r => signOf r == 0

/-- How many of the rows before have slack variables. -/
def cnt (K : List Row) (i : Nat) : Nat := ((K.take i).filter slacked).length

theorem standard4_eq (signed : List Nat) (strict : Bool) (ns : Nat) : ∀ (rs : List Row) (k : Nat), (∀ r ∈ rs, r.rel ≠ .ne) →
    standard4 signed strict ns k rs = ((kept rs).mapIdx (fun i r => stdRow signed strict ns (k + cnt (kept rs) i) r), []) := by
  intro rs
  induction rs with
  | nil => intro k _; rfl
  | cons r rs ih =>
    intro k hne
    have h1 := fun k => ih k (fun x hx => hne x (List.mem_cons_of_mem _ hx))
    rw [standard4]
    by_cases hs : signOf r = 0
    · rw [if_neg (by simp [hs])]
      rw [h1]
      simp only []
      rw [if_neg (hne r (List.mem_cons_self ..))]
      have hk : kept (r :: rs) = r :: kept rs := by simp [kept, hs]
      rw [hk, List.mapIdx_cons]
      have e0 : cnt (r :: kept rs) 0 = 0 := rfl
      have e1 : ∀ i, k + cnt (r :: kept rs) (i + 1) = (if slacked r then k + 1 else k) + cnt (kept rs) i := by
        intro i
        unfold cnt
        rw [List.take_succ_cons, List.filter_cons]
        by_cases hsl : slacked r
        · rw [if_pos hsl, if_pos hsl, List.length_cons]; omega
        · rw [if_neg hsl, if_neg hsl]
      simp only [e0, e1, Nat.add_zero]
    · rw [if_pos (by simpa using hs), h1]
      have hk : kept (r :: rs) = kept rs := by simp [kept, hs]
      rw [hk]

theorem slacked_kept (rs : List Row) : rs.filter slacked = (kept rs).filter slacked := by
  unfold kept
  rw [List.filter_filter]
  congr 1
  funext r
  unfold slacked
  cases signOf r == 0 <;> simp

theorem cnt_succ (K : List Row) {i : Nat} (h : i < K.length) : cnt K (i + 1) = cnt K i + (if slacked K[i] then 1 else 0) := by
  unfold cnt
  rw [List.take_add_one, List.getElem?_eq_getElem h, Option.toList_some, List.filter_append, List.length_append]
  congr 1
  by_cases hs : slacked K[i] <;> simp [hs]

theorem cnt_le (K : List Row) {i j : Nat} (h : i ≤ j) (hj : j ≤ K.length) : cnt K i ≤ cnt K j := by
  induction h with
  | refl => exact Nat.le_refl _
  | step _ ih => rw [cnt_succ K (by omega)]; have := ih (by omega); omega

theorem cnt_lt (K : List Row) {i j : Nat} (h : i < j) (hj : j ≤ K.length) (hs : slacked (K[i]'(by omega)) = true) : cnt K i < cnt K j := by
  have h1 := cnt_succ K (i := i) (by omega)
  rw [if_pos hs] at h1
  have h2 := cnt_le K (i := i + 1) (j := j) h hj
  omega

theorem cnt_all (K : List Row) : cnt K K.length = (K.filter slacked).length := by
  unfold cnt
  rw [List.take_length]

theorem cnt_inj (K : List Row) {i j : Nat} (hi : i < K.length) (hj : j < K.length) (si : slacked K[i] = true) (sj : slacked K[j] = true)
    (h : cnt K i = cnt K j) : i = j := by
  rcases Nat.lt_trichotomy i j with h1 | h1 | h1
  · have := cnt_lt K h1 (by omega) si; omega
  · exact h1
  · have := cnt_lt K h1 (by omega) sj; omega

/-- The left side of a row. -/
def lhs (r : Row) (x : Nat → ℚ) : ℚ := ev r.cols.tail 1 x

/-- A row holds, strict ones with a margin of `e`. -/
def RowOK (r : Row) (x : Nat → ℚ) (e : ℚ) : Prop :=
  match r.rel with
  | .eq => lhs r x = r.cols.getD 0 0
  | .le => lhs r x ≤ r.cols.getD 0 0
  | .ge => r.cols.getD 0 0 ≤ lhs r x
  | .lt => lhs r x + e ≤ r.cols.getD 0 0
  | .gt => r.cols.getD 0 0 + e ≤ lhs r x
  | _ => False

/-- What is left for the slack variable. -/
def slackVal (r : Row) (x : Nat → ℚ) (e : ℚ) : ℚ := slackCoef r.rel * (r.cols.getD 0 0 - lhs r x) - (if strictRel r.rel then e else 0)

theorem filter_single {p : Nat → Bool} : ∀ {l : List Nat} {j : Nat}, l.filter p = [j] → ∀ i ∈ l, p i = true → i = j := by
  intro l j h i hi hp
  have : i ∈ l.filter p := List.mem_filter.2 ⟨hi, hp⟩
  rw [h] at this
  exact List.mem_singleton.1 this

theorem signOf_spec {r : Row} (h : signOf r ≠ 0) : r.rel = .ge ∧ r.cols.getD 0 0 = 0 ∧ 1 ≤ signOf r ∧
    signOf r ≤ r.cols.length - 1 ∧ 0 < r.cols.getD (signOf r) 0 ∧ ∀ x, lhs r x = r.cols.getD (signOf r) 0 * x (signOf r) := by
  unfold signOf at h ⊢
  by_cases h1 : r.rel = .ge ∧ r.cols.getD 0 0 = 0
  · rw [if_pos h1] at h ⊢
    split at h
    · rename_i j hj
      by_cases hc : 0 < r.cols.getD j 0
      · rw [if_pos hc]
        have hm : j ∈ (List.range' 1 (r.cols.length - 1)).filter fun j => decide (r.cols.getD j 0 ≠ 0) := by rw [hj]; simp
        rw [List.mem_filter, List.mem_range'_1] at hm
        refine ⟨h1.1, h1.2, hm.1.1, by omega, hc, ?_⟩
        intro x
        unfold lhs
        obtain ⟨b, l, hl⟩ : ∃ b l, r.cols = b :: l := by
          cases hr : r.cols with
          | nil => rw [hr] at hm; simp at hm
          | cons b l => exact ⟨b, l, rfl⟩
        rw [hl, List.tail_cons, ← sm_ev b l x]
        rw [sm_congr (g := fun k => if j = k then (b :: l).getD k 0 * x k else 0), sm_pick (fun k => (b :: l).getD k 0 * x k) hm.1.1]
        · rw [hl, List.length_cons] at hm; omega
        · intro k k1 k2
          by_cases e : j = k
          · rw [if_pos e]
          · rw [if_neg e]
            have : (b :: l).getD k 0 = 0 := by
              by_cases hz : (b :: l).getD k 0 = 0
              · exact hz
              · exfalso
                apply e
                symm
                apply filter_single hj k
                · rw [List.mem_range'_1, hl, List.length_cons]; omega
                · rw [hl]; exact decide_eq_true hz
            rw [this, zero_mul]
      · rw [if_neg hc] at h; exact absurd rfl h
    · exact absurd rfl h
  · rw [if_neg h1] at h; exact absurd rfl h

/-- Rows as they come to `standardize`. -/
structure Plain (n : Nat) (rs : List Row) : Prop where
  len : ∀ r ∈ rs, r.cols.length = n + 1
  rel : ∀ r ∈ rs, r.rel ≠ .ne ∧ r.rel ≠ .cost
  pos : ∀ r ∈ rs, 0 ≤ r.cols.getD 0 0

def signedOf (rs : List Row) : List Nat := (rs.map signOf).filter (· ≠ 0)

def strictOf (rs : List Row) : Bool := rs.any fun r => strictRel r.rel

theorem stdRow_length (signed : List Nat) (strict : Bool) (ns k n : Nat) {r : Row} (h : r.cols.length = n + 1) :
    (stdRow signed strict ns k r).length = pos signed n + (if strict then 1 else 0) + ns := by
  unfold stdRow
  have h1 := (ev_split signed (fun _ => 0) r.cols.tail 0).2
  rw [List.length_tail, h, Nat.add_sub_cancel, Nat.zero_add, Nat.zero_add, pos] at h1
  rw [List.length_cons, List.length_append, List.length_append]
  have h2 : (if slacked r then (List.replicate ns (0 : ℚ)).set (ns - 1 - k) (slackCoef r.rel) else List.replicate ns 0).length = ns := by
    split <;> simp
  rw [h2]
  cases strict <;> simp <;> omega

theorem stdRow_eval (signed : List Nat) (strict : Bool) (ns k n : Nat) {r : Row} (h : r.cols.length = n + 1)
    (hk : slacked r = true → k < ns) (v : Nat → ℚ) :
    ev (stdRow signed strict ns k r).tail 1 v = lhs r (unsplit signed v) + (if strict then epsCoef r.rel * v (pos signed n) else 0) +
      (if slacked r then slackCoef r.rel * v (pos signed n + (if strict then 1 else 0) + (ns - 1 - k)) else 0) := by
  unfold stdRow
  obtain ⟨h0, h1⟩ := ev_split signed v r.cols.tail 0
  rw [List.length_tail, h, Nat.add_sub_cancel, Nat.zero_add, Nat.zero_add, pos] at h1
  rw [Nat.zero_add, pos] at h0
  rw [List.tail_cons, ev_append, ev_append, h0, List.length_append, h1, show 1 + ((split signed 1 r.cols.tail).length +
    (if strict = true then [epsCoef r.rel] else []).length) = pos signed n + (if strict = true then [epsCoef r.rel] else []).length by omega]
  unfold lhs
  congr 1
  · congr 1
    cases strict <;> simp [ev]
  · cases hs : slacked r with
    | false => simp [ev_replicate]
    | true =>
      rw [if_pos rfl, if_pos rfl, ev_set _ _ _ _ _ (by have := hk hs; omega)]
      cases strict <;> simp

structure StdOf (n : Nat) (rs : List Row) (s : Std) : Prop where
  ncol : s.ncol + 1 = pos (signedOf rs) n + (if strictOf rs then 1 else 0) + (rs.filter slacked).length
  eps : s.eps = if strictOf rs then some (pos (signedOf rs) n) else none
  rows : s.rows = (kept rs).mapIdx (fun i r => stdRow (signedOf rs) (strictOf rs) (rs.filter slacked).length (cnt (kept rs) i) r)
  ur : s.ur = []
  var : s.var = 0 :: (labels (signedOf rs) 1 n ++ List.replicate ((if strictOf rs then 1 else 0) + (rs.filter slacked).length) 0)

theorem standardize_eq {n : Nat} {rs : List Row} (h : Plain n rs) : ∃ s, standardize n rs = .ok s ∧ StdOf n rs s := by
  unfold standardize
  have h1 : rs.any (fun r => r.rel == .cost) = false := by
    rw [List.any_eq_false]
    intro r hr
    simpa using (h.rel r hr).2
  rw [h1]
  simp only [Bool.false_eq_true, if_false]
  rw [standard4_eq _ _ _ rs 0 (fun r hr => (h.rel r hr).1)]
  simp only [Nat.zero_add]
  have hl := labels_length (signedOf rs) n 0
  rw [Nat.zero_add, Nat.zero_add, pos] at hl
  refine ⟨_, rfl, ?_, ?_, rfl, rfl, rfl⟩
  · show (labels (signedOf rs) 1 n).length + _ + _ + 1 = _
    rw [← hl]
    unfold strictOf
    omega
  · show (if strictOf rs = true then some ((labels (signedOf rs) 1 n).length + 1) else none) = _
    rw [← hl, Nat.add_comm 1]

theorem StdOf.length {n : Nat} {rs : List Row} {s : Std} (h : StdOf n rs s) : s.rows.length = (kept rs).length := by
  rw [h.rows, List.length_mapIdx]

theorem StdOf.row {n : Nat} {rs : List Row} {s : Std} (h : StdOf n rs s) {i : Nat} (hi : i < (kept rs).length) :
    s.rows.getD i [] = stdRow (signedOf rs) (strictOf rs) (rs.filter slacked).length (cnt (kept rs) i) (kept rs)[i] := by
  rw [List.getD_eq_getElem _ _ (by rw [h.length]; exact hi)]
  simp only [h.rows, List.getElem_mapIdx]

theorem kept_mem {rs : List Row} {i : Nat} (hi : i < (kept rs).length) : (kept rs)[i] ∈ rs ∧ signOf (kept rs)[i] = 0 := by
  have h := List.getElem_mem hi
  generalize (kept rs)[i] = r at h ⊢
  rw [show kept rs = rs.filter fun r => signOf r == 0 from rfl, List.mem_filter] at h
  exact ⟨h.1, by simpa using h.2⟩

theorem cnt_bound {rs : List Row} {i : Nat} (hi : i < (kept rs).length) (hs : slacked (kept rs)[i] = true) :
    cnt (kept rs) i < (rs.filter slacked).length := by
  rw [slacked_kept, ← cnt_all]
  exact cnt_lt (kept rs) hi (Nat.le_refl _) hs

/-- The columns of slack variables. -/
def slackCol (n : Nat) (rs : List Row) (i : Nat) : Nat :=
  pos (signedOf rs) n + (if strictOf rs then 1 else 0) + ((rs.filter slacked).length - 1 - cnt (kept rs) i)

theorem StdOf.res {n : Nat} {rs : List Row} {s : Std} (hp : Plain n rs) (h : StdOf n rs s) {i : Nat} (hi : i < (kept rs).length)
    (v : Nat → ℚ) : res s.ncol s.mat (i + 1) v =
      lhs (kept rs)[i] (unsplit (signedOf rs) v) + (if strictOf rs then epsCoef (kept rs)[i].rel * v (pos (signedOf rs) n) else 0) +
      (if slacked (kept rs)[i] then slackCoef (kept rs)[i].rel * v (slackCol n rs i) else 0) - (kept rs)[i].cols.getD 0 0 := by
  have hm := kept_mem hi
  have hlen := hp.len _ hm.1
  have e := stdRow_eval (signedOf rs) (strictOf rs) (rs.filter slacked).length (cnt (kept rs) i) n hlen (cnt_bound hi) v
  have hl := stdRow_length (signedOf rs) (strictOf rs) (rs.filter slacked).length (cnt (kept rs) i) n hlen
  unfold Voss.Lp.res Std.mat
  rw [Nat.add_sub_cancel, h.row hi]
  have hsplit : ∃ l, stdRow (signedOf rs) (strictOf rs) (rs.filter slacked).length (cnt (kept rs) i) (kept rs)[i] =
      (kept rs)[i].cols.getD 0 0 :: l := ⟨_, rfl⟩
  obtain ⟨l, hl'⟩ := hsplit
  rw [hl', List.tail_cons] at e
  rw [hl', List.length_cons] at hl
  rw [hl', List.getD_cons_zero]
  have hn : s.ncol = l.length := by have := h.ncol; omega
  rw [hn, sm_ev, e]
  rfl

theorem StdOf.wf {n : Nat} {rs : List Row} {s : Std} (hp : Plain n rs) (h : StdOf n rs s) : s.WF := by
  refine ⟨?_, ?_, ?_⟩
  · intro r hr
    rw [h.rows, List.mem_mapIdx] at hr
    obtain ⟨i, hi, rfl⟩ := hr
    rw [stdRow_length _ _ _ _ n (hp.len _ (kept_mem hi).1), h.ncol]
  · intro r hr
    rw [h.rows, List.mem_mapIdx] at hr
    obtain ⟨i, hi, rfl⟩ := hr
    rw [stdRow, List.getD_cons_zero]
    exact hp.pos _ (kept_mem hi).1
  · intro e he
    rw [h.eps] at he
    by_cases hs : strictOf rs = true
    · rw [if_pos hs] at he
      injection he with he
      have := h.ncol
      rw [if_pos hs] at this
      have := pos_pos (signedOf rs) n
      omega
    · rw [if_neg hs] at he
      exact absurd he (by simp)

/-- The value of `eps`. -/
def epsVal (s : Std) (v : Nat → ℚ) : ℚ := match s.eps with | some e => v e | none => 0

theorem strict_coef {rs : List Row} {r : Row} (hr : r ∈ rs) (h : strictOf rs = false) : strictRel r.rel = false := by
  unfold strictOf at h
  rw [List.any_eq_false] at h
  simpa using h r hr

theorem StdOf.eps_term {n : Nat} {rs : List Row} {s : Std} (h : StdOf n rs s) {r : Row} (hr : r ∈ rs) (v : Nat → ℚ) :
    (if strictOf rs then epsCoef r.rel * v (pos (signedOf rs) n) else 0) = epsCoef r.rel * epsVal s v := by
  unfold epsVal
  rw [h.eps]
  cases hs : strictOf rs with
  | true => simp
  | false => simp

theorem sign_row {rs : List Row} {r : Row} (hr : r ∈ rs) (hs : signOf r ≠ 0) : signOf r ∈ signedOf rs := by
  unfold signedOf
  rw [List.mem_filter]
  exact ⟨List.mem_map_of_mem hr, by simpa using hs⟩

/-- A solution of the standard form solves the constraints. -/
theorem StdOf.sound {n : Nat} {rs : List Row} {s : Std} (hp : Plain n rs) (h : StdOf n rs s) {v : Nat → ℚ} (v0 : ∀ p, 0 ≤ v p)
    (hv : Sol s.rows.length s.ncol s.mat v) : ∀ r ∈ rs, RowOK r (unsplit (signedOf rs) v) (epsVal s v) := by
  intro r hr
  by_cases hs : signOf r = 0
  · have hm : r ∈ kept rs := by
      unfold kept
      rw [List.mem_filter]
      exact ⟨hr, by simpa using hs⟩
    obtain ⟨i, hi, rfl⟩ := List.getElem_of_mem hm
    have h1 := hv (i + 1) (by omega) (by rw [h.length]; omega)
    rw [h.res hp hi v, h.eps_term hr] at h1
    have h2 := v0 (slackCol n rs i)
    have hrel := hp.rel _ hr
    unfold RowOK
    unfold slacked at h1
    generalize (kept rs)[i].cols.getD 0 0 = b at h1 ⊢
    cases hq : (kept rs)[i].rel <;> simp only [hq, hs, epsCoef, slackCoef] at h1 hrel ⊢ <;>
      simp at h1 hrel <;> linarith
  · obtain ⟨a, b, c, d, e, f⟩ := signOf_spec hs
    unfold RowOK
    rw [a]
    simp only []
    rw [b, f]
    apply mul_nonneg (le_of_lt e)
    unfold unsplit
    rw [if_pos (sign_row hr hs)]
    exact v0 _

/-- A solution of the constraints gives one of the standard form. -/
theorem StdOf.complete {n : Nat} {rs : List Row} {s : Std} (hp : Plain n rs) (h : StdOf n rs s) {x : Nat → ℚ} {e : ℚ} (he : 0 ≤ e)
    (hx : ∀ r ∈ rs, RowOK r x e) : ∃ v : Nat → ℚ, (∀ p, 0 ≤ v p) ∧ Sol s.rows.length s.ncol s.mat v ∧
      ∀ k, s.eps = some k → v k = e := by
  have hsl : ∀ r ∈ rs, 0 ≤ slackVal r x e := by
    intro r hr
    have h1 := hx r hr
    unfold RowOK at h1
    unfold slackVal
    have hrel := hp.rel _ hr
    generalize r.cols.getD 0 0 = b at h1 ⊢
    cases hq : r.rel <;> simp only [hq, slackCoef, strictRel] at h1 hrel ⊢ <;> simp at hrel ⊢ <;> linarith
  -- values for `eps` and slack variables
  let u : Nat → ℚ := fun p => if strictOf rs = true ∧ p = pos (signedOf rs) n then e else
    sm (kept rs).length (fun i => if slackCol n rs (i - 1) = p ∧ slacked ((kept rs).getD (i - 1) ⟨[], .cost⟩) = true then
      slackVal ((kept rs).getD (i - 1) ⟨[], .cost⟩) x e else 0)
  have hu : ∀ p, 0 ≤ u p := by
    intro p
    show 0 ≤ (if _ then e else _)
    split
    · exact he
    · apply sm_nonneg
      intro i i1 i2
      split
      · apply hsl
        rw [List.getD_eq_getElem _ _ (by omega)]
        exact (kept_mem (by omega)).1
      · exact le_refl _
  obtain ⟨v, v0, v1, v2⟩ := exists_split (signedOf rs) x u hu n (by
    intro j _ _ hj
    unfold signedOf at hj
    rw [List.mem_filter, List.mem_map] at hj
    obtain ⟨⟨r, hr, rfl⟩, hz⟩ := hj
    obtain ⟨a, b, _, _, e', f⟩ := signOf_spec (by simpa using hz)
    have h1 := hx r hr
    unfold RowOK at h1
    rw [a] at h1
    simp only [] at h1
    rw [b, f] at h1
    exact nonneg_of_mul_nonneg_right h1 e')
  refine ⟨v, v0, ?_, ?_⟩
  · intro i' i1 i2
    obtain ⟨i, rfl⟩ : ∃ i, i' = i + 1 := ⟨i' - 1, by omega⟩
    have hi : i < (kept rs).length := by rw [← h.length]; omega
    have hm := kept_mem hi
    rw [h.res hp hi v]
    have hlhs : lhs (kept rs)[i] (unsplit (signedOf rs) v) = lhs (kept rs)[i] x := by
      apply ev_congr
      intro j j1 j2
      rw [List.length_tail, hp.len _ hm.1] at j2
      exact v1 j (by omega) (by omega)
    rw [hlhs]
    have heps : (if strictOf rs then epsCoef (kept rs)[i].rel * v (pos (signedOf rs) n) else 0) = epsCoef (kept rs)[i].rel * e := by
      cases hs : strictOf rs with
      | true =>
        rw [if_pos rfl, v2 _ (Nat.le_refl _)]
        show _ * (if _ then e else _) = _
        rw [if_pos ⟨hs, rfl⟩]
      | false =>
        have := strict_coef hm.1 hs
        cases hq : (kept rs)[i].rel <;> simp only [hq, strictRel] at this <;> simp [epsCoef] at this ⊢
    rw [heps]
    have hslk : slacked (kept rs)[i] = true → v (slackCol n rs i) = slackVal (kept rs)[i] x e := by
      intro hs
      rw [v2 _ (by unfold slackCol; omega)]
      have hb := cnt_bound hi hs
      show (if _ then e else _) = _
      rw [if_neg (by rintro ⟨a, b⟩; unfold slackCol at b; rw [if_pos a] at b; omega)]
      rw [sm_congr (g := fun k => if i + 1 = k then slackVal ((kept rs).getD (k - 1) ⟨[], .cost⟩) x e else 0),
        sm_pick (fun k => slackVal ((kept rs).getD (k - 1) ⟨[], .cost⟩) x e) (by omega) (by omega), Nat.add_sub_cancel,
        List.getD_eq_getElem _ _ hi]
      intro k k1 k2
      by_cases ek : i + 1 = k
      · subst ek
        rw [Nat.add_sub_cancel, if_pos rfl, List.getD_eq_getElem _ _ hi, if_pos ⟨rfl, hs⟩]
      · rw [if_neg ek, if_neg]
        rintro ⟨a, b⟩
        have hk : k - 1 < (kept rs).length := by omega
        rw [List.getD_eq_getElem _ _ hk] at b
        have hb2 := cnt_bound hk b
        have := cnt_inj (kept rs) hk hi b hs (by unfold slackCol at a; omega)
        omega
    have h1 := hx _ hm.1
    have hrel := hp.rel _ hm.1
    unfold RowOK at h1
    by_cases hs : slacked (kept rs)[i] = true
    · rw [if_pos hs, hslk hs]
      unfold slackVal
      cases hq : (kept rs)[i].rel <;> simp only [hq, slackCoef, epsCoef, strictRel] at hrel ⊢ <;>
        simp [slacked, hq] at hrel hs ⊢ <;> linarith
    · rw [if_neg hs]
      have he' : (kept rs)[i].rel = .eq := by
        unfold slacked at hs
        rw [hm.2] at hs
        simpa using hs
      rw [he'] at h1 ⊢
      simp only [] at h1
      rw [h1]
      simp [epsCoef]
  · intro k hk
    rw [h.eps] at hk
    by_cases hs : strictOf rs = true
    · rw [if_pos hs] at hk
      injection hk with hk
      rw [v2 _ (by omega)]
      show (if _ then e else _) = _
      rw [if_pos ⟨hs, hk.symm⟩]
    · rw [if_neg hs] at hk
      exact absurd hk (by simp)

end Voss.Lp
