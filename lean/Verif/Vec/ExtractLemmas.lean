import Verif.Vec.MergeProps
import Verif.Vec.Extract

namespace Voss.Vec

def Down (rs : List Rng) : Prop := ∀ r ∈ rs, r.lo ≤ r.up

/-- The indices of ranges. -/
def InRs (rs : List Rng) (i : Int) : Prop := ∃ r ∈ rs, r.lo ≤ i ∧ i ≤ r.up

theorem InRs_nil (i : Int) : ¬ InRs [] i := by simp [InRs]

theorem InRs_cons (r : Rng) (rs : List Rng) (i : Int) : InRs (r :: rs) i ↔ (r.lo ≤ i ∧ i ≤ r.up) ∨ InRs rs i := by
  simp [InRs]

theorem mem_down {rs : List Rng} (h : Down rs) (i : Int) : i ∈ rs.flatMap Rng.bits ↔ InRs rs i := by
  simp only [List.mem_flatMap, mem_bits, InRs]
  constructor
  · rintro ⟨r, hr, h1⟩
    refine ⟨r, hr, ?_⟩
    have := h r hr
    omega
  · rintro ⟨r, hr, h1⟩
    exact ⟨r, hr, .inl h1⟩

/-! ### Compressing -/

/-- What compressing gives. -/
structure Comp (P : Int → Prop) (x y z : List Rng) : Prop where
  down : Down z
  mem : ∀ i, InRs z i ↔ InRs x i ∨ InRs y i
  ne : x ≠ [] ∨ y ≠ [] → z ≠ []
  all : (∀ r ∈ x, P r.up ∧ P r.lo) → (∀ r ∈ y, P r.up ∧ P r.lo) → ∀ r ∈ z, P r.up ∧ P r.lo

theorem compressStep_spec (P : Int → Prop) (n : Nat) (go : List Rng → List Rng → List Rng)
    (hgo : ∀ x y, Down x → Down y → x.length + y.length ≤ n → Comp P x y (go x y))
    (a : Rng) (as : List Rng) (b : Rng) (bs : List Rng) (ha : Down (a :: as)) (hb : Down (b :: bs))
    (hab : b.up ≤ a.up) (hn : (a :: as).length + (b :: bs).length ≤ n + 1) :
    Comp P (a :: as) (b :: bs) (compressStep go a as b bs) := by
  have a1 := ha a (by simp)
  have b1 := hb b (by simp)
  have has : Down as := fun r hr => ha r (by simp [hr])
  have hbs : Down bs := fun r hr => hb r (by simp [hr])
  simp only [List.length_cons] at hn
  unfold compressStep
  split
  · have h := hgo as (b :: bs) has hb (by simp only [List.length_cons]; omega)
    refine ⟨?_, ?_, fun _ => by simp, ?_⟩
    · intro r hr
      simp only [List.mem_cons] at hr
      rcases hr with rfl | hr
      · exact a1
      · exact h.down r hr
    · intro i
      rw [InRs_cons, h.mem, InRs_cons a as]
      simp only [or_assoc]
    · intro h1 h2 r hr
      simp only [List.mem_cons] at hr
      rcases hr with rfl | hr
      · exact h1 r (by simp)
      · exact h.all (fun x hx => h1 x (by simp [hx])) h2 r hr
  · rename_i n1
    split
    · rename_i n2
      have h := hgo (a :: as) bs ha hbs (by simp only [List.length_cons]; omega)
      refine ⟨h.down, ?_, fun _ => h.ne (.inl (by simp)), ?_⟩
      · intro i
        rw [h.mem, InRs_cons a as, InRs_cons b bs]
        constructor
        · rintro ((h | h) | h)
          · exact .inl (.inl h)
          · exact .inl (.inr h)
          · exact .inr (.inr h)
        · rintro ((h | h) | (h | h))
          · exact .inl (.inl h)
          · exact .inl (.inr h)
          · exact .inl (.inl (by omega))
          · exact .inr h
      · exact fun h1 h2 => h.all h1 (fun x hx => h2 x (by simp [hx]))
    · rename_i n2
      have aux : ∀ (w : Rng) (ws : List Rng), w.lo ≤ w.up → Down ws →
          (∀ i, InRs (w :: ws) i ↔ InRs (a :: as) i ∨ (b.lo ≤ i ∧ i ≤ b.up)) → ws.length ≤ as.length →
          ((∀ r ∈ a :: as, P r.up ∧ P r.lo) → P b.lo → ∀ r ∈ w :: ws, P r.up ∧ P r.lo) →
          Comp P (a :: as) (b :: bs) (go (w :: ws) bs) := by
        intro w ws hw hws hmem hlen hall
        have h := hgo (w :: ws) bs (by
          intro r hr
          simp only [List.mem_cons] at hr
          rcases hr with rfl | hr
          · exact hw
          · exact hws r hr) hbs (by simp only [List.length_cons]; omega)
        refine ⟨h.down, ?_, fun _ => h.ne (.inl (by simp)), ?_⟩
        · intro i
          rw [h.mem, hmem, InRs_cons b bs, or_assoc]
        · intro h1 h2
          exact h.all (hall h1 (h2 b (by simp)).2) (fun x hx => h2 x (by simp [hx]))
      split
      · refine aux ⟨a.up, b.lo⟩ [] (by simp only; omega) (by intro r hr; simp at hr) ?_ (by simp) ?_
        · intro i
          simp only [InRs_cons, InRs_nil, or_false]
          omega
        · intro h1 h2 r hr
          simp only [List.mem_singleton] at hr
          subst hr
          exact ⟨(h1 a (by simp)).1, h2⟩
      · rename_i c cs
        have c1 := has c (by simp)
        split
        · rename_i n3
          refine aux ⟨a.up, c.lo⟩ cs (by simp only; omega) (fun r hr => has r (by simp [hr])) ?_ (by simp) ?_
          · intro i
            simp only [InRs_cons]
            constructor
            · rintro (h | h)
              · by_cases h3 : a.lo ≤ i
                · exact .inl (.inl (by omega))
                · by_cases h4 : b.lo ≤ i
                  · exact .inr (by omega)
                  · exact .inl (.inr (.inl (by omega)))
              · exact .inl (.inr (.inr h))
            · rintro ((h | h | h) | h)
              · exact .inl (by omega)
              · exact .inl (by omega)
              · exact .inr h
              · exact .inl (by omega)
          · intro h1 h2 r hr
            simp only [List.mem_cons] at hr
            rcases hr with rfl | hr
            · exact ⟨(h1 a (by simp)).1, (h1 c (by simp)).2⟩
            · exact h1 r (by simp [hr])
        · refine aux ⟨a.up, b.lo⟩ (c :: cs) (by simp only; omega) has ?_ (by simp) ?_
          · intro i
            rw [InRs_cons, InRs_cons a]
            simp only
            constructor
            · rintro (h | h)
              · by_cases h3 : a.lo ≤ i
                · exact .inl (.inl (by omega))
                · exact .inr (by omega)
              · exact .inl (.inr h)
            · rintro ((h | h) | h)
              · exact .inl (by omega)
              · exact .inr h
              · exact .inl (by omega)
          · intro h1 h2 r hr
            simp only [List.mem_cons] at hr
            rcases hr with rfl | hr
            · exact ⟨(h1 a (by simp)).1, h2⟩
            · exact h1 r (by simp [hr])

theorem Comp.symm {P : Int → Prop} {x y z : List Rng} (h : Comp P x y z) : Comp P y x z :=
  ⟨h.down, fun i => by rw [h.mem, or_comm], fun h' => h.ne h'.symm, fun h1 h2 => h.all h2 h1⟩

theorem compressF_spec (P : Int → Prop) : ∀ (n : Nat) (x y : List Rng), Down x → Down y → x.length + y.length ≤ n →
    Comp P x y (compressF n x y)
  | n, [], y, _, hy, _ => by
    have e : compressF n [] y = y := by cases n <;> cases y <;> rfl
    rw [e]
    exact ⟨hy, by simp [InRs_nil], by simp, fun _ h => h⟩
  | n, a :: as, [], hx, _, _ => by
    have e : compressF n (a :: as) [] = a :: as := by cases n <;> rfl
    rw [e]
    exact ⟨hx, by simp [InRs_nil], by simp, fun h _ => h⟩
  | 0, a :: as, b :: bs, _, _, hn => by simp at hn
  | n+1, a :: as, b :: bs, hx, hy, hn => by
    have ih := compressF_spec P n
    simp only [compressF]
    split
    · rename_i h
      exact (compressStep_spec P n _ ih b bs a as hy hx (by omega) (by omega)).symm
    · exact compressStep_spec P n _ ih a as b bs hx hy (by omega) hn

theorem compress_spec (P : Int → Prop) {x y : List Rng} (hx : Down x) (hy : Down y) : Comp P x y (compress x y) :=
  compressF_spec P _ x y hx hy (Nat.le_refl _)

/-! ### Canonical ranges -/

theorem descending_down : ∀ rs : List Rng, Descending rs → Down rs
  | [], _ => by intro r hr; simp at hr
  | [r], h => by intro x hx; simp only [List.mem_singleton] at hx; subst hx; exact h
  | r :: r' :: rs, h => by
    intro x hx
    simp only [List.mem_cons] at hx
    rcases hx with rfl | hx
    · exact h.1
    · exact descending_down (r' :: rs) h.2.2 x (by simpa using hx)

/-- The first range ends at `u` at most. -/
def Below (u : Int) (rs : List Rng) : Prop := ∀ r ∈ rs.head?, r.up ≤ u

theorem desc_cons (r : Rng) (rs : List Rng) : Descending (r :: rs) ↔ r.lo ≤ r.up ∧ Below r.up rs ∧ Descending rs := by
  cases rs with
  | nil => simp [Descending, Below]
  | cons r' rs => simp [Descending, Below]

theorem Below.mono {u w : Int} {rs : List Rng} (h : Below u rs) (hw : u ≤ w) : Below w rs :=
  fun r hr => Int.le_trans (h r hr) hw

structure CanonOf (rs out : List Rng) : Prop where
  desc : Descending out
  len : out.length ≤ rs.length
  mem : ∀ i, InRs out i ↔ InRs rs i
  head : ∀ u, Below u rs → Below u out
  ne : rs ≠ [] → out ≠ []
  all : ∀ P : Int → Prop, (∀ r ∈ rs, P r.up ∧ P r.lo) → ∀ r ∈ out, P r.up ∧ P r.lo

theorem canonF_descending : ∀ (n : Nat) (rs : List Rng), rs.length ≤ n → Descending rs → CanonOf rs (canonF n rs)
  | n, [], _, _ => by
    have e : canonF n [] = [] := by cases n <;> rfl
    rw [e]
    exact ⟨trivial, Nat.le_refl _, fun _ => Iff.rfl, fun _ h => h, fun h => h, fun _ h => h⟩
  | 0, r :: rs, h, _ => by simp at h
  | n+1, r :: rs, hn, h => by
    obtain ⟨h1, h2, h3⟩ := (desc_cons r rs).1 h
    have hr : ¬ r.up < r.lo := by omega
    have hn' : rs.length ≤ n := by simpa using hn
    have ih := canonF_descending n rs hn' h3
    rw [canonF, if_neg (by rintro ⟨-, rfl⟩; simp at h1)]
    simp only [hr, if_false]
    cases hc : canonF n rs with
    | nil =>
      rw [hc] at ih
      have hrs : rs = [] := by
        by_cases e : rs = []
        · exact e
        · exact absurd rfl (ih.ne e)
      subst hrs
      exact ⟨h1, by simp, fun _ => Iff.rfl, fun _ h => h, fun _ => by simp, fun _ h => h⟩
    | cons m rem =>
      rw [hc] at ih
      obtain ⟨m1, m2, m3⟩ := (desc_cons m rem).1 ih.desc
      have hm : m.up ≤ r.up := ih.head r.up h2 m (by simp)
      have hlen : rem.length + 1 ≤ rs.length := ih.len
      have hmem : ∀ i, InRs (r :: rs) i ↔ (r.lo ≤ i ∧ i ≤ r.up) ∨ (m.lo ≤ i ∧ i ≤ m.up) ∨ InRs rem i := by
        intro i
        rw [InRs_cons, ← ih.mem, InRs_cons]
      have hall : ∀ P : Int → Prop, (∀ x ∈ r :: rs, P x.up ∧ P x.lo) →
          (P r.up ∧ P r.lo) ∧ (P m.up ∧ P m.lo) ∧ ∀ x ∈ rem, P x.up ∧ P x.lo := by
        intro P hP
        have := ih.all P fun x hx => hP x (List.mem_cons_of_mem _ hx)
        exact ⟨hP r (by simp), this m (by simp), fun x hx => this x (List.mem_cons_of_mem _ hx)⟩
      dsimp only
      split
      · refine ⟨(desc_cons _ _).2 ⟨h1, fun x hx => ?_, ih.desc⟩, by simp; omega, fun i => by rw [hmem, InRs_cons, InRs_cons],
          fun u hu => ?_, fun _ => by simp, fun P hP x hx => ?_⟩
        · simp only [List.head?_cons, Option.mem_some_iff] at hx
          subst hx
          exact hm
        · intro x hx
          exact hu x (by simpa using hx)
        · obtain ⟨q1, q2, q3⟩ := hall P hP
          rcases List.mem_cons.1 hx with rfl | hx
          · exact q1
          · rcases List.mem_cons.1 hx with rfl | hx
            · exact q2
            · exact q3 x hx
      · have join : ∀ y : Rng, y.lo ≤ y.up → y.up = r.up → (∀ i, (y.lo ≤ i ∧ i ≤ y.up) ↔
            (r.lo ≤ i ∧ i ≤ r.up) ∨ (m.lo ≤ i ∧ i ≤ m.up)) →
            (∀ P : Int → Prop, P r.up → P r.lo → P m.up → P m.lo → P y.up ∧ P y.lo) →
            CanonOf (r :: rs) (y :: rem) := by
          intro y y1 y2 y3 y4
          refine ⟨(desc_cons _ _).2 ⟨y1, m2.mono (by omega), m3⟩, by simp; omega, fun i => ?_, fun u hu => ?_,
            fun _ => by simp, fun P hP x hx => ?_⟩
          · rw [hmem, InRs_cons, y3, or_assoc]
          · intro x hx
            simp only [List.head?_cons, Option.mem_some_iff] at hx
            subst hx
            have := hu r (by simp)
            omega
          · obtain ⟨q1, q2, q3⟩ := hall P hP
            rcases List.mem_cons.1 hx with rfl | hx
            · exact y4 P q1.1 q1.2 q2.1 q2.2
            · exact q3 x hx
        have again : ∀ y : Rng, CanonOf (r :: rs) (y :: rem) → CanonOf (r :: rs) (canonF n (y :: rem)) := by
          intro y hy
          have k := canonF_descending n (y :: rem) (by simp; omega) hy.desc
          exact ⟨k.desc, Nat.le_trans k.len hy.len, fun i => (k.mem i).trans (hy.mem i), fun u hu => k.head u (hy.head u hu),
            fun e => k.ne (hy.ne e), fun P hP => k.all P (hy.all P hP)⟩
        split
        · split
          · exact join m m1 (by omega) (fun i => by omega) fun P _ _ a b => ⟨a, b⟩
          · exact again _ (join _ (by dsimp only; omega) (by dsimp only; omega) (fun i => by dsimp only; omega)
              fun P _ a b _ => ⟨b, a⟩)
        · split
          · exact again _ (join _ (by dsimp only; omega) rfl (fun i => by dsimp only; omega) fun P a b _ _ => ⟨a, b⟩)
          · exact join _ (by dsimp only; omega) rfl (fun i => by dsimp only; omega) fun P a _ _ b => ⟨a, b⟩

theorem canon_tidy {rs : List Rng} (h : Tidy rs) (P : Int → Prop) :
    Down (canon rs) ∧ (∀ i, InRs (canon rs) i ↔ i ∈ rs.flatMap Rng.bits) ∧ (rs ≠ [] → canon rs ≠ []) ∧
      ((∀ r ∈ rs, P r.up ∧ P r.lo) → ∀ r ∈ canon rs, P r.up ∧ P r.lo) := by
  rcases h with ⟨r, rfl, hr⟩ | h
  · have e : canon [r] = [if r.up < r.lo then ⟨r.lo, r.up⟩ else r] := by
      simp only [canon, List.length_cons, List.length_nil, canonF]
      rw [if_neg (fun x => hr x.2)]
    rw [e]
    refine ⟨?_, ?_, by simp, ?_⟩
    · intro x hx
      simp only [List.mem_singleton] at hx
      subst hx
      split
      · simp only; omega
      · omega
    · intro i
      simp only [InRs_cons, InRs_nil, or_false, List.flatMap_cons, List.flatMap_nil, List.append_nil, mem_bits]
      split
      · simp only; omega
      · omega
    · intro h x hx
      simp only [List.mem_singleton] at hx
      subst hx
      have := h r (by simp)
      split
      · exact this.symm
      · exact this
  · have k : CanonOf rs (canon rs) := canonF_descending _ rs (Nat.le_refl _) h
    exact ⟨descending_down _ k.desc, fun i => (k.mem i).trans (mem_down (descending_down rs h) i).symm, k.ne, k.all P⟩

theorem mergeTail_descending (t : Rng) (cs : List Rng) (h : Descending (t :: cs)) :
    ∃ l rs, mergeTail t cs = ⟨t.up, l⟩ :: rs ∧ Descending (mergeTail t cs) := by
  induction cs generalizing t with
  | nil => exact ⟨t.lo, [], rfl, h⟩
  | cons c cs ih =>
    obtain ⟨h1, h2, h3⟩ := h
    simp only [mergeTail]
    split
    · rename_i hj
      refine ih ⟨t.up, c.lo⟩ ?_
      cases cs with
      | nil =>
        have h3' : c.lo ≤ c.up := h3
        show c.lo ≤ t.up
        omega
      | cons d ds =>
        have h4 := h3.1
        have h5 := h3.2.1
        refine ⟨?_, ?_, h3.2.2⟩
        · show c.lo ≤ t.up
          omega
        · show d.up ≤ t.up
          omega
    · split
      · rename_i hj
        omega
      · obtain ⟨l, rs, e1, e2⟩ := ih c h3
        refine ⟨t.lo, mergeTail c cs, rfl, ?_⟩
        rw [e1] at e2 ⊢
        exact ⟨h1, h2, e2⟩

theorem tidy_norm {rs : List Rng} (h : Tidy rs) : Tidy (mergeIndices rs) := by
  rcases h with ⟨r, rfl, hr⟩ | h
  · exact .inl ⟨r, rfl, hr⟩
  · cases rs with
    | nil => exact .inr trivial
    | cons t cs =>
      obtain ⟨l, rs, _, e2⟩ := mergeTail_descending t cs h
      exact .inr e2

theorem tidies_norm : ∀ v : Vec, Tidies v → Tidies (norm v)
  | [], _ => trivial
  | .txt s :: v, h => tidies_norm v h
  | .idx rs :: v, h => ⟨tidy_norm h.1, tidies_norm v h.2⟩

/-- All ranges go down. -/
def Downs : Vec → Prop
  | [] => True
  | .txt _ :: v => Downs v
  | .idx rs :: v => Down rs ∧ Downs v

theorem canon_txt (s : List Char) (v : Vec) : canonVec (.txt s :: v) = .txt s :: canonVec v := rfl
theorem canon_idx (rs : List Rng) (v : Vec) : canonVec (.idx rs :: v) = .idx (canon rs) :: canonVec v := rfl

theorem canon_shape : ∀ v : Vec, shape (canonVec v) = shape v
  | [] => rfl
  | .txt s :: v => by rw [canon_txt, shape_txt, shape_txt, canon_shape v]
  | .idx rs :: v => by rw [canon_idx, shape_idx, shape_idx, canon_shape v]

theorem canon_wf : ∀ v : Vec, WF v → Tidies v → WF (canonVec v)
  | [], _, _ => trivial
  | .idx rs :: v, ⟨h1, h2, ⟨t, v', h3⟩, h4⟩, ht => by
    obtain ⟨c1, _, c3, c4⟩ := canon_tidy ht.1 (fun z => isInt z = true)
    refine ⟨c3 h1, c4 h2, ⟨t, canonVec v', ?_⟩, canon_wf v h4 ht.2⟩
    subst h3
    rfl
  | .txt s :: v, ⟨h1, h2⟩, ht => by
    refine ⟨?_, canon_wf v h2 ht⟩
    rcases h1 with h1 | ⟨h1, h3⟩
    · exact .inl h1
    · refine .inr ⟨h1, ?_⟩
      rcases h3 with rfl | ⟨h3, rs, v', rfl⟩
      · exact .inl rfl
      · exact .inr ⟨h3, _, _, rfl⟩

theorem canon_inners : ∀ v : Vec, Inners v → Tidies v → Inners (canonVec v)
  | [], _, _ => trivial
  | .txt s :: v, h, ht => canon_inners v h ht
  | .idx rs :: v, h, ht =>
    ⟨(canon_tidy ht.1 (fun z => -2147483648 < z ∧ z < 2147483647)).2.2.2 h.1, canon_inners v h.2 ht.2⟩

theorem canon_nostar : ∀ v : Vec, NoStar v → NoStar (canonVec v)
  | [], _ => trivial
  | .txt s :: v, h => ⟨h.1, canon_nostar v h.2⟩
  | .idx rs :: v, h => canon_nostar v h

theorem canon_downs : ∀ v : Vec, Tidies v → Downs (canonVec v)
  | [], _ => trivial
  | .txt s :: v, h => canon_downs v h
  | .idx rs :: v, h => ⟨(canon_tidy h.1 (fun _ => True)).1, canon_downs v h.2⟩

theorem canon_mem : ∀ v : Vec, Tidies v → ∀ b, b ∈ expand (canonVec v) ↔ b ∈ expand v
  | [], _, b => Iff.rfl
  | .txt s :: v, h, b => by
    rw [canon_txt]
    simp only [expand, List.mem_map, canon_mem v h]
  | .idx rs :: v, h, b => by
    obtain ⟨c1, c2, _, _⟩ := canon_tidy h.1 (fun _ => True)
    have := canon_mem v h.2
    rw [canon_idx, expand_idx, expand_idx]
    simp only [List.mem_flatMap (l := (canon rs).flatMap Rng.bits), List.mem_flatMap (l := rs.flatMap Rng.bits),
      mem_down c1, c2, List.mem_map, this]

theorem good_canon {v : Vec} (h : Good v) (ht : Tidies v) : Good (canonVec v) := by
  refine ⟨canon_wf v h.wf ht, canon_inners v h.inner ht, canon_nostar v h.nostar, ?_⟩
  intro hc
  rw [isConst_shape (canon_shape v)] at hc
  obtain ⟨s, rfl, hs⟩ := h.const hc
  exact ⟨s, rfl, hs⟩

theorem vbits_canon {v : Vec} (h : Good v) (ht : Tidies v) (b : List Char) : b ∈ vbits (canonVec v) ↔ b ∈ vbits v := by
  cases hc : isConst v with
  | true =>
    obtain ⟨s, rfl, hs⟩ := h.const hc
    rfl
  | false =>
    rw [vbits_nonconst hc, vbits_nonconst (by rw [isConst_shape (canon_shape v)]; exact hc)]
    simp only [List.mem_map, canon_mem v ht]

/-! ### Joining -/

/-- Two vectors that differ in one group, and what extraction makes of them. -/
structure DifferE (a b c : Vec) (p : Vec) (r r' : List Rng) (q : Vec) : Prop where
  ea : a = p ++ .idx r :: q
  eb : b = p ++ .idx r' :: q
  ec : c = p ++ .idx (compress r r') :: q

theorem extJoin_shape : ∀ a b : Vec, shape a = shape b →
    (extJoin a b = .same ∧ a = b) ∨ extJoin a b = .no ∨
      ∃ c d p r r' q, extJoin a b = .join c d ∧ DifferE a b c p r r' q
  | [], [], _ => .inl ⟨rfl, rfl⟩
  | [], y :: b, h => by simp [shape] at h
  | x :: a, [], h => by simp [shape] at h
  | .txt s :: a, .idx t :: b, h => by simp [shape_txt, shape_idx] at h
  | .idx s :: a, .txt t :: b, h => by simp [shape_txt, shape_idx] at h
  | .txt s :: a, .txt t :: b, h => by
    simp only [shape_txt, List.cons.injEq, Seg.txt.injEq] at h
    obtain ⟨rfl, h⟩ := h
    simp only [extJoin]
    rcases extJoin_shape a b h with ⟨e, e'⟩ | e | ⟨c, d, p, r, r', q, e, ⟨h1, h2, h3⟩⟩
    · exact .inl ⟨by rw [e]; rfl, by rw [e']⟩
    · exact .inr (.inl (by rw [e]; rfl))
    · exact .inr (.inr ⟨.txt s :: c, d, .txt s :: p, r, r', q, by rw [e]; rfl,
        ⟨by rw [h1]; rfl, by rw [h2]; rfl, by rw [h3]; rfl⟩⟩)
  | .idx r :: a, .idx r' :: b, h => by
    simp only [shape_idx, List.cons.injEq, true_and] at h
    simp only [extJoin]
    split
    · rename_i hr
      subst hr
      rcases extJoin_shape a b h with ⟨e, e'⟩ | e | ⟨c, d, p, r1, r1', q, e, ⟨h1, h2, h3⟩⟩
      · exact .inl ⟨by rw [e]; rfl, by rw [e']⟩
      · exact .inr (.inl (by rw [e]; rfl))
      · exact .inr (.inr ⟨.idx r :: c, d, .idx r :: p, r1, r1', q, by rw [e]; rfl,
          ⟨by rw [h1]; rfl, by rw [h2]; rfl, by rw [h3]; rfl⟩⟩)
    · obtain ⟨x, h1, h2⟩ := sameRest_shape a b h
      rw [h1]
      cases x with
      | false => exact .inr (.inl rfl)
      | true => exact .inr (.inr ⟨_, _, [], r, r', a, rfl, ⟨rfl, by rw [h2 rfl]; rfl, rfl⟩⟩)

theorem downs_group : ∀ (p : Vec) (r : List Rng) (q : Vec), Downs (p ++ .idx r :: q) → Down r
  | [], _, _, h => h.1
  | .idx _ :: p, r, q, h => downs_group p r q h.2
  | .txt _ :: p, r, q, h => downs_group p r q h

theorem downs_replace : ∀ (p : Vec) (r g : List Rng) (q : Vec), Downs (p ++ .idx r :: q) → Down g →
    Downs (p ++ .idx g :: q)
  | [], _, _, _, h, hg => ⟨hg, h.2⟩
  | .idx _ :: p, r, g, q, h, hg => ⟨h.1, downs_replace p r g q h.2 hg⟩
  | .txt _ :: p, r, g, q, h, hg => downs_replace p r g q h hg

theorem mem_expand_join : ∀ (p : Vec) (r r' g : List Rng) (q : Vec),
    (∀ i, i ∈ g.flatMap Rng.bits ↔ i ∈ r.flatMap Rng.bits ∨ i ∈ r'.flatMap Rng.bits) → ∀ b,
    b ∈ expand (p ++ .idx g :: q) ↔ b ∈ expand (p ++ .idx r :: q) ∨ b ∈ expand (p ++ .idx r' :: q)
  | [], r, r', g, q, h, b => by
    simp only [List.nil_append, expand_idx]
    simp only [List.mem_flatMap (l := g.flatMap Rng.bits), List.mem_flatMap (l := r.flatMap Rng.bits),
      List.mem_flatMap (l := r'.flatMap Rng.bits), h]
    constructor
    · rintro ⟨i, h1 | h1, h2⟩
      · exact .inl ⟨i, h1, h2⟩
      · exact .inr ⟨i, h1, h2⟩
    · rintro (⟨i, h1, h2⟩ | ⟨i, h1, h2⟩)
      · exact ⟨i, .inl h1, h2⟩
      · exact ⟨i, .inr h1, h2⟩
  | .txt s :: p, r, r', g, q, h, b => by
    simp only [List.cons_append, expand, List.mem_map, mem_expand_join p r r' g q h]
    constructor
    · rintro ⟨a, h1 | h1, h2⟩
      · exact .inl ⟨a, h1, h2⟩
      · exact .inr ⟨a, h1, h2⟩
    · rintro (⟨i, h1, h2⟩ | ⟨i, h1, h2⟩)
      · exact ⟨i, .inl h1, h2⟩
      · exact ⟨i, .inr h1, h2⟩
  | .idx s :: p, r, r', g, q, h, b => by
    simp only [List.cons_append, expand_idx]
    simp only [List.mem_flatMap (l := s.flatMap Rng.bits), List.mem_map, mem_expand_join p r r' g q h]
    constructor
    · rintro ⟨i, h0, a, h1 | h1, h2⟩
      · exact .inl ⟨i, h0, a, h1, h2⟩
      · exact .inr ⟨i, h0, a, h1, h2⟩
    · rintro (⟨i, h0, a, h1, h2⟩ | ⟨i, h0, a, h1, h2⟩)
      · exact ⟨i, h0, a, .inl h1, h2⟩
      · exact ⟨i, h0, a, .inr h1, h2⟩

theorem extJoin_good {p : Vec} {r r' : List Rng} {q : Vec} (ha : Good (p ++ .idx r :: q))
    (hb : Good (p ++ .idx r' :: q)) (da : Downs (p ++ .idx r :: q)) (db : Downs (p ++ .idx r' :: q)) :
    Good (p ++ .idx (compress r r') :: q) ∧ Downs (p ++ .idx (compress r r') :: q) ∧
    ∀ b, b ∈ expand (p ++ .idx (compress r r') :: q) ↔ b ∈ expand (p ++ .idx r :: q) ∨ b ∈ expand (p ++ .idx r' :: q) := by
  have d1 := downs_group p r q da
  have d2 := downs_group p r' q db
  obtain ⟨h1, h2⟩ := wf_group p r q ha.wf
  obtain ⟨_, h3⟩ := wf_group p r' q hb.wf
  have c1 := compress_spec (fun z => isInt z = true) d1 d2
  have c2 := compress_spec (fun z => -2147483648 < z ∧ z < 2147483647) d1 d2
  refine ⟨⟨wf_replace p r _ q ha.wf (c1.ne (.inl h1)) (c1.all h2 h3),
    inners_replace p r _ q ha.inner (c2.all (inners_group p r q ha.inner) (inners_group p r' q hb.inner)),
    nostar_replace p r _ q ha.nostar, ?_⟩, downs_replace p r _ q da c1.down, ?_⟩
  · intro hc
    rw [← isConst_shape (shape_replace p r _ q)] at hc
    obtain ⟨s, hs, _⟩ := ha.const hc
    cases p with
    | nil => simp at hs
    | cons x p => simp at hs
  · refine mem_expand_join p r r' _ q ?_
    intro i
    rw [mem_down c1.down, mem_down d1, mem_down d2, c1.mem]

/-! ### The loop -/

theorem extractLoop_spec : ∀ (n : Nat) (xs : List Vec) (nc : Nat), (∀ v ∈ xs, Good v ∧ Downs v) →
    nc ≤ xs.length → xs.length * (xs.length + 3) + 1 - nc ≤ n →
    ∃ out, extractLoop n xs nc = some out ∧ (∀ v ∈ out, Good v ∧ Downs v) ∧
      ∀ b, b ∈ out.flatMap vbits ↔ b ∈ xs.flatMap vbits
  | 0, xs, nc, _, h1, h2 => by
    exfalso
    have : xs.length ≤ xs.length * (xs.length + 3) := Nat.le_mul_of_pos_right _ (by omega)
    omega
  | n+1, [], nc, hg, _, _ => ⟨[], rfl, by simp, by simp⟩
  | n+1, [a], nc, hg, _, _ => ⟨[a], rfl, hg, by simp⟩
  | n+1, a :: b :: post, nc, hg, h1, h2 => by
    have ga := hg a (by simp)
    have gb := hg b (by simp)
    have hrot : ∃ out, (if (b :: post ++ [a]).length > 1 ∧ nc + 1 ≤ (b :: post ++ [a]).length
        then extractLoop n (b :: post ++ [a]) (nc + 1) else some (b :: post ++ [a])) = some out ∧
        (∀ v ∈ out, Good v ∧ Downs v) ∧ ∀ x, x ∈ out.flatMap vbits ↔ x ∈ (a :: b :: post).flatMap vbits := by
      have hg' : ∀ v ∈ b :: post ++ [a], Good v ∧ Downs v := by
        intro v hv
        refine hg v ?_
        simp only [List.mem_append, List.mem_cons, List.not_mem_nil, or_false] at hv ⊢
        rcases hv with (h | h) | h <;> simp [h]
      have hset : ∀ x, x ∈ (b :: post ++ [a]).flatMap vbits ↔ x ∈ (a :: b :: post).flatMap vbits := by
        intro x
        simp only [List.flatMap_append, List.flatMap_cons, List.flatMap_nil, List.append_nil, List.mem_append]
        constructor
        · rintro ((h | h) | h) <;> simp [h]
        · rintro (h | h | h) <;> simp [h]
      have hlen : (b :: post ++ [a]).length = (a :: b :: post).length := by simp
      split
      · rename_i hc
        obtain ⟨out, e1, e2, e3⟩ := extractLoop_spec n (b :: post ++ [a]) (nc + 1) hg' hc.2
          (by rw [hlen]; rw [hlen] at hc; omega)
        exact ⟨out, e1, e2, fun x => (e3 x).trans (hset x)⟩
      · exact ⟨_, rfl, hg', hset⟩
    have hshort : ∀ c, Good c ∧ Downs c → (∀ x, x ∈ vbits c ↔ x ∈ vbits a ∨ x ∈ vbits b) →
        ∃ out, (if (c :: post).length > 1 ∧ 0 ≤ (c :: post).length
        then extractLoop n (c :: post) 0 else some (c :: post)) = some out ∧
        (∀ v ∈ out, Good v ∧ Downs v) ∧ ∀ x, x ∈ out.flatMap vbits ↔ x ∈ (a :: b :: post).flatMap vbits := by
      intro c gc hc
      have hg' : ∀ v ∈ c :: post, Good v ∧ Downs v := by
        intro v hv
        simp only [List.mem_cons] at hv
        rcases hv with rfl | hv
        · exact gc
        · exact hg v (by simp [hv])
      have hset : ∀ x, x ∈ (c :: post).flatMap vbits ↔ x ∈ (a :: b :: post).flatMap vbits := by
        intro x
        simp only [List.flatMap_cons, List.mem_append, hc, or_assoc]
      split
      · obtain ⟨out, e1, e2, e3⟩ := extractLoop_spec n (c :: post) 0 hg' (by omega) (by
          simp only [List.length_cons] at h1 h2 ⊢
          simp only [Nat.add_mul, Nat.mul_add] at h2 ⊢
          omega)
        exact ⟨out, e1, e2, fun x => (e3 x).trans (hset x)⟩
      · exact ⟨_, rfl, hg', hset⟩
    simp only [extractLoop]
    by_cases hs : sig a ≠ sig b ∨ isConst a = true
    · rw [if_pos hs]
      exact hrot
    · rw [if_neg hs]
      have hs' : sig a = sig b ∧ isConst a = false := by
        constructor
        · exact Decidable.byContradiction fun h => hs (.inl h)
        · cases h : isConst a with
          | false => rfl
          | true => exact absurd (.inr h) hs
      have hsh := shape_of_sig a b ga.1.wf gb.1.wf ga.1.nostar gb.1.nostar hs'.1
      have hcb : isConst b = false := by rw [← isConst_shape hsh]; exact hs'.2
      rcases extJoin_shape a b hsh with ⟨e, e'⟩ | e | ⟨c, d, p, r, r', q, e, x1, x2, x3⟩
      · rw [e]
        subst e'
        exact hshort a ga (by simp)
      · rw [e]
        exact hrot
      · rw [e]
        subst x1 x2 x3
        obtain ⟨j1, j2, j3⟩ := extJoin_good ga.1 gb.1 ga.2 gb.2
        have hcc : isConst (p ++ .idx (compress r r') :: q) = false := by
          rw [← isConst_shape (shape_replace p r _ q)]
          exact hs'.2
        refine hshort _ ⟨j1, j2⟩ ?_
        intro x
        rw [vbits_nonconst hcc, vbits_nonconst hs'.2, vbits_nonconst hcb]
        simp only [List.mem_map, j3]
        constructor
        · rintro ⟨w, h1 | h1, h2⟩
          · exact .inl ⟨w, h1, h2⟩
          · exact .inr ⟨w, h1, h2⟩
        · rintro (⟨w, h1, h2⟩ | ⟨w, h1, h2⟩)
          · exact ⟨w, .inl h1, h2⟩
          · exact ⟨w, .inr h1, h2⟩

theorem extractVecs_spec (sort : List Vec → List Vec) (hsort : ∀ l, (sort l).Perm l) {vs : List Vec}
    (h : ∀ v ∈ vs, Good v ∧ Downs v) :
    ∃ out, extractVecs sort vs = some out ∧ (∀ v ∈ out, Good v ∧ Downs v) ∧
      ∀ b, b ∈ out.flatMap vbits ↔ b ∈ vs.flatMap vbits := by
  have hp := hsort vs
  obtain ⟨out, e1, e2, e3⟩ := extractLoop_spec ((vs.length + 2) * (vs.length + 2)) (sort vs) 0
    (fun v hv => h v (hp.mem_iff.1 hv)) (by omega) (by
      rw [hp.length_eq]
      have : (vs.length + 2) * (vs.length + 2) = vs.length * (vs.length + 3) + (vs.length + 4) := by
        simp only [Nat.add_mul, Nat.mul_add]
        omega
      omega)
  refine ⟨out, e1, e2, ?_⟩
  intro b
  rw [e3]
  simp only [List.mem_flatMap, hp.mem_iff]

theorem properE_good {s : List Char} (h : ProperE s) : ∃ v, Good v ∧ Tidies v ∧ vecText v = s := by
  cases h with
  | const h => exact ⟨[.txt s], good_const h, trivial, by simp [vecText, Seg.text]⟩
  | vec v hw hi ht he hs hc =>
    subst he
    exact ⟨v, good_of_text hw hi hs hc, ht, rfl⟩

end Voss.Vec
