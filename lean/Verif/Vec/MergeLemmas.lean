import Verif.Vec.NormLemmas
import Verif.Vec.Merge
import Verif.Vec.MergeSpec

namespace Voss.Vec

/-- No asterisks in the texts. -/
def NoStar : Vec → Prop
  | [] => True
  | .txt s :: v => '*' ∉ s ∧ NoStar v
  | .idx _ :: v => NoStar v

/-- The vectors in the list. -/
structure Good (v : Vec) : Prop where
  wf : WF v
  inner : Inners v
  nostar : NoStar v
  const : isConst v = true → ∃ s, v = [.txt s] ∧ IsConstant s

/-- The texts of a vector. -/
def shape (v : Vec) : Vec := v.map fun
  | .txt s => .txt s
  | .idx _ => .idx []

theorem shape_txt (s : List Char) (v : Vec) : shape (.txt s :: v) = .txt s :: shape v := rfl
theorem shape_idx (rs : List Rng) (v : Vec) : shape (.idx rs :: v) = .idx [] :: shape v := rfl

theorem star_split {s r : List Char} (h : '*' ∉ s) (hr : r = [] ∨ ∃ t, r = '*' :: t) :
    (s ++ r).takeWhile (· != '*') = s ∧ (s ++ r).dropWhile (· != '*') = r := by
  rcases hr with rfl | ⟨t, rfl⟩
  · rw [List.append_nil]
    induction s with
    | nil => simp
    | cons c cs ih =>
      simp only [List.mem_cons, not_or] at h
      obtain ⟨h1, h2⟩ := ih h.2
      have hc : (c != '*') = true := by simpa using fun e => h.1 e.symm
      simp [hc, h1, h2]
  · exact takeWhile_append h

theorem seg_head {s : List Char} {v : Vec} (h : WF (.txt s :: v)) : ∃ c cs, s = c :: cs := by
  rcases h.1 with ⟨b, rfl, _⟩ | ⟨h, _⟩
  · exact ⟨_, _, rfl⟩
  · cases s with
    | nil => exact absurd rfl h.ne
    | cons c cs => exact ⟨c, cs, rfl⟩

theorem shape_of_sig : ∀ a b : Vec, WF a → WF b → NoStar a → NoStar b → sig a = sig b → shape a = shape b
  | [], [], _, _, _, _, _ => rfl
  | [], .idx _ :: b, _, _, _, _, h => by simp [sig] at h
  | [], .txt t :: b, _, hb, _, _, h => by
    obtain ⟨c, cs, rfl⟩ := seg_head hb
    simp [sig] at h
  | .idx _ :: a, [], _, _, _, _, h => by simp [sig] at h
  | .txt s :: a, [], ha, _, _, _, h => by
    obtain ⟨c, cs, rfl⟩ := seg_head ha
    simp [sig] at h
  | .idx r :: a, .idx r' :: b, ha, hb, na, nb, h => by
    simp only [sig, List.cons.injEq, true_and] at h
    rw [shape_idx, shape_idx, shape_of_sig a b ha.2.2.2 hb.2.2.2 na nb h]
  | .idx r :: a, .txt t :: b, _, hb, _, nb, h => by
    obtain ⟨c, cs, rfl⟩ := seg_head hb
    simp only [sig, List.cons_append, List.cons.injEq] at h
    have := nb.1
    rw [← h.1] at this
    simp at this
  | .txt s :: a, .idx r' :: b, ha, _, na, _, h => by
    obtain ⟨c, cs, rfl⟩ := seg_head ha
    simp only [sig, List.cons_append, List.cons.injEq] at h
    have := na.1
    rw [h.1] at this
    simp at this
  | .txt s :: a, .txt t :: b, ha, hb, na, nb, h => by
    simp only [sig] at h
    have key : s = t ∧ sig a = sig b := by
      rcases ha.1 with ⟨x, hx, hx'⟩ | ⟨hs, hs'⟩
      · rcases hb.1 with ⟨y, hy, hy'⟩ | ⟨ht, ht'⟩
        · subst hx hy
          simp only [List.cons_append, List.cons.injEq, true_and, List.append_assoc, List.nil_append] at h
          have h1 := takeWhile_append (b := sig a) hx'
          have h2 := takeWhile_append (b := sig b) hy'
          rw [h] at h1
          have e1 : x = y := h1.1.symm.trans h2.1
          have e2 := h1.2.symm.trans h2.2
          simp only [List.cons.injEq, true_and] at e2
          exact ⟨by rw [e1], e2⟩
        · obtain ⟨c, cs, hc⟩ := seg_head hb
          subst hx hc
          simp only [List.cons_append, List.cons.injEq] at h
          have := ht.noEsc
          rw [← h.1] at this
          simp at this
      · rcases hb.1 with ⟨y, hy, hy'⟩ | ⟨ht, ht'⟩
        · obtain ⟨c, cs, hc⟩ := seg_head ha
          subst hy hc
          simp only [List.cons_append, List.cons.injEq] at h
          have := hs.noEsc
          rw [h.1] at this
          simp at this
        · have h1 := star_split (r := sig a) na.1 (by
            rcases hs' with rfl | ⟨_, rs, v', rfl⟩
            · exact .inl rfl
            · exact .inr ⟨_, rfl⟩)
          have h2 := star_split (r := sig b) nb.1 (by
            rcases ht' with rfl | ⟨_, rs, v', rfl⟩
            · exact .inl rfl
            · exact .inr ⟨_, rfl⟩)
          rw [h] at h1
          exact ⟨h1.1.symm.trans h2.1, h1.2.symm.trans h2.2⟩
    rw [shape_txt, shape_txt, key.1, shape_of_sig a b ha.2 hb.2 na.2 nb.2 key.2]

theorem isConst_shape {a b : Vec} (h : shape a = shape b) : isConst a = isConst b := by
  cases a with
  | nil =>
    cases b with
    | nil => rfl
    | cons y b => simp [shape] at h
  | cons x a =>
    cases b with
    | nil => simp [shape] at h
    | cons y b =>
      cases x with
      | txt s =>
        cases y with
        | txt t =>
          simp only [shape_txt, List.cons.injEq, Seg.txt.injEq] at h
          rw [h.1]
          unfold isConst
          split <;> simp_all
        | idx r => simp [shape_txt, shape_idx] at h
      | idx r =>
        cases y with
        | txt t => simp [shape_txt, shape_idx] at h
        | idx r' => rfl

/-! ### Gluing ranges -/

theorem glue_bits : ∀ (r r' : List Rng), (glue r r').1.flatMap Rng.bits = r.flatMap Rng.bits ++ r'.flatMap Rng.bits
  | [], cs => by simp [glue]
  | [t], [] => by simp [glue]
  | [t], c :: cs => by
    simp only [glue]
    split
    · rename_i h
      simp [bits_join_down h.1 h.2.1 h.2.2]
    · split
      · rename_i h
        simp [bits_join_up h.1 h.2.1 h.2.2]
      · simp
  | t :: t' :: ts, cs => by
    have := glue_bits (t' :: ts) cs
    simp only [glue, List.flatMap_cons] at this ⊢
    rw [this]
    simp

theorem glue_all (P : Int → Prop) : ∀ (r r' : List Rng), r ≠ [] → (∀ x ∈ r, P x.up ∧ P x.lo) →
    (∀ x ∈ r', P x.up ∧ P x.lo) → (glue r r').1 ≠ [] ∧ ∀ x ∈ (glue r r').1, P x.up ∧ P x.lo
  | [], cs, h, _, _ => absurd rfl h
  | [t], [], _, h, _ => by simpa [glue] using h
  | [t], c :: cs, _, h, h' => by
    have ht := h t (by simp)
    have hc := h' c (by simp)
    have hcs : ∀ x ∈ cs, P x.up ∧ P x.lo := fun x hx => h' x (by simp [hx])
    have hj : ∀ x ∈ (⟨t.up, c.lo⟩ : Rng) :: cs, P x.up ∧ P x.lo := by
      intro x hx
      simp only [List.mem_cons] at hx
      rcases hx with rfl | hx
      · exact ⟨ht.1, hc.2⟩
      · exact hcs x hx
    simp only [glue]
    split
    · exact ⟨by simp, hj⟩
    · split
      · exact ⟨by simp, hj⟩
      · refine ⟨by simp, ?_⟩
        intro x hx
        simp only [List.mem_cons] at hx
        rcases hx with rfl | rfl | hx
        · exact ht
        · exact hc
        · exact hcs x hx
  | t :: t' :: ts, cs, _, h, h' => by
    obtain ⟨_, h2⟩ := glue_all P (t' :: ts) cs (by simp) (fun x hx => h x (by simp_all)) h'
    simp only [glue]
    refine ⟨by simp, ?_⟩
    intro x hx
    simp only [List.mem_cons] at hx
    rcases hx with rfl | hx
    · exact h x (by simp)
    · exact h2 x hx

/-! ### Comparing vectors -/

theorem sameRest_shape : ∀ a b : Vec, shape a = shape b →
    ∃ r, sameRest a b = some r ∧ (r = true → a = b)
  | [], [], _ => ⟨true, rfl, fun _ => rfl⟩
  | [], y :: b, h => by simp [shape] at h
  | x :: a, [], h => by simp [shape] at h
  | .txt s :: a, .txt t :: b, h => by
    simp only [shape_txt, List.cons.injEq, Seg.txt.injEq] at h
    obtain ⟨r, h1, h2⟩ := sameRest_shape a b h.2
    exact ⟨r, h1, fun hr => by rw [h.1, h2 hr]⟩
  | .txt s :: a, .idx t :: b, h => by simp [shape_txt, shape_idx] at h
  | .idx s :: a, .txt t :: b, h => by simp [shape_txt, shape_idx] at h
  | .idx r :: a, .idx r' :: b, h => by
    simp only [shape_idx, List.cons.injEq, true_and] at h
    simp only [sameRest]
    split
    · rename_i hr
      obtain ⟨x, h1, h2⟩ := sameRest_shape a b h
      exact ⟨x, h1, fun hx => by rw [hr, h2 hx]⟩
    · exact ⟨false, rfl, by simp⟩

/-- Two vectors that differ in one group. -/
structure Differ (a b c : Vec) (p : Vec) (r r' : List Rng) (q : Vec) : Prop where
  ea : a = p ++ .idx r :: q
  eb : b = p ++ .idx r' :: q
  ec : c = p ++ .idx (glue r r').1 :: q

theorem joinVec_shape : ∀ a b : Vec, shape a = shape b →
    joinVec a b = .same ∨ joinVec a b = .no ∨
      ∃ c d p r r' q, joinVec a b = .join c d ∧ Differ a b c p r r' q
  | [], [], _ => .inl rfl
  | [], y :: b, h => by simp [shape] at h
  | x :: a, [], h => by simp [shape] at h
  | .txt s :: a, .idx t :: b, h => by simp [shape_txt, shape_idx] at h
  | .idx s :: a, .txt t :: b, h => by simp [shape_txt, shape_idx] at h
  | .txt s :: a, .txt t :: b, h => by
    simp only [shape_txt, List.cons.injEq, Seg.txt.injEq] at h
    obtain ⟨rfl, h⟩ := h
    simp only [joinVec]
    rcases joinVec_shape a b h with e | e | ⟨c, d, p, r, r', q, e, ⟨h1, h2, h3⟩⟩
    · exact .inl (by rw [e]; rfl)
    · exact .inr (.inl (by rw [e]; rfl))
    · exact .inr (.inr ⟨.txt s :: c, d, .txt s :: p, r, r', q, by rw [e]; rfl,
        ⟨by rw [h1]; rfl, by rw [h2]; rfl, by rw [h3]; rfl⟩⟩)
  | .idx r :: a, .idx r' :: b, h => by
    simp only [shape_idx, List.cons.injEq, true_and] at h
    simp only [joinVec]
    split
    · rename_i hr
      subst hr
      rcases joinVec_shape a b h with e | e | ⟨c, d, p, r1, r1', q, e, ⟨h1, h2, h3⟩⟩
      · exact .inl (by rw [e]; rfl)
      · exact .inr (.inl (by rw [e]; rfl))
      · exact .inr (.inr ⟨.idx r :: c, d, .idx r :: p, r1, r1', q, by rw [e]; rfl,
          ⟨by rw [h1]; rfl, by rw [h2]; rfl, by rw [h3]; rfl⟩⟩)
    · obtain ⟨x, h1, h2⟩ := sameRest_shape a b h
      rw [h1]
      cases x with
      | false => exact .inr (.inl rfl)
      | true => exact .inr (.inr ⟨_, _, [], r, r', a, rfl, ⟨rfl, by rw [h2 rfl]; rfl, rfl⟩⟩)

theorem sameRest_self : ∀ a : Vec, sameRest a a = some true
  | [] => rfl
  | .txt s :: a => sameRest_self a
  | .idx r :: a => by simp [sameRest, sameRest_self a]

theorem joinVec_self : ∀ a : Vec, joinVec a a = .same
  | [] => rfl
  | .txt s :: a => by simp [joinVec, joinVec_self a, Join.cons]
  | .idx r :: a => by simp [joinVec, joinVec_self a, Join.cons]

/-! ### The joined vector -/

theorem wf_replace : ∀ (p : Vec) (r g : List Rng) (q : Vec), WF (p ++ .idx r :: q) → g ≠ [] →
    (∀ x ∈ g, isInt x.up = true ∧ isInt x.lo = true) → WF (p ++ .idx g :: q)
  | [], r, g, q, h, hne, hg => ⟨hne, hg, h.2.2.1, h.2.2.2⟩
  | .idx s :: p, r, g, q, h, hne, hg => by
    refine ⟨h.1, h.2.1, ?_, wf_replace p r g q h.2.2.2 hne hg⟩
    obtain ⟨t, v', hv'⟩ := h.2.2.1
    cases p with
    | nil => simp at hv'
    | cons x p =>
      simp only [List.append_eq, List.cons_append, List.cons.injEq] at hv' ⊢
      exact ⟨t, _, hv'.1, rfl⟩
  | .txt s :: p, r, g, q, h, hne, hg => by
    refine ⟨?_, wf_replace p r g q h.2 hne hg⟩
    rcases h.1 with h1 | ⟨h1, h2⟩
    · exact .inl h1
    · refine .inr ⟨h1, .inr ?_⟩
      rcases h2 with h2 | ⟨h2, rs, v', h3⟩
      · simp at h2
      · refine ⟨h2, ?_⟩
        cases p with
        | nil => exact ⟨g, q, rfl⟩
        | cons x p =>
          simp only [List.append_eq, List.cons_append, List.cons.injEq] at h3 ⊢
          exact ⟨rs, _, h3.1, rfl⟩

theorem wf_group : ∀ (p : Vec) (r : List Rng) (q : Vec), WF (p ++ .idx r :: q) →
    r ≠ [] ∧ ∀ x ∈ r, isInt x.up = true ∧ isInt x.lo = true
  | [], r, q, h => ⟨h.1, h.2.1⟩
  | .idx s :: p, r, q, h => wf_group p r q h.2.2.2
  | .txt s :: p, r, q, h => wf_group p r q h.2

theorem inners_group : ∀ (p : Vec) (r : List Rng) (q : Vec), Inners (p ++ .idx r :: q) → ∀ x ∈ r, Inner x
  | [], r, q, h => h.1
  | .idx s :: p, r, q, h => inners_group p r q h.2
  | .txt s :: p, r, q, h => inners_group p r q h

theorem inners_replace : ∀ (p : Vec) (r g : List Rng) (q : Vec), Inners (p ++ .idx r :: q) → (∀ x ∈ g, Inner x) →
    Inners (p ++ .idx g :: q)
  | [], r, g, q, h, hg => ⟨hg, h.2⟩
  | .idx s :: p, r, g, q, h, hg => ⟨h.1, inners_replace p r g q h.2 hg⟩
  | .txt s :: p, r, g, q, h, hg => inners_replace p r g q h hg

theorem nostar_replace : ∀ (p : Vec) (r g : List Rng) (q : Vec), NoStar (p ++ .idx r :: q) → NoStar (p ++ .idx g :: q)
  | [], r, g, q, h => h
  | .idx s :: p, r, g, q, h => nostar_replace p r g q h
  | .txt s :: p, r, g, q, h => ⟨h.1, nostar_replace p r g q h.2⟩

theorem shape_replace (p : Vec) (r g : List Rng) (q : Vec) : shape (p ++ .idx r :: q) = shape (p ++ .idx g :: q) := by
  simp [shape]

theorem good_replace {p : Vec} {r r' : List Rng} {q : Vec} (ha : Good (p ++ .idx r :: q))
    (hb : Good (p ++ .idx r' :: q)) : Good (p ++ .idx (glue r r').1 :: q) := by
  obtain ⟨h1, h2⟩ := wf_group p r q ha.wf
  obtain ⟨_, h3⟩ := wf_group p r' q hb.wf
  obtain ⟨h4, h5⟩ := glue_all (fun z => isInt z = true) r r' h1 h2 h3
  have h6 := glue_all (fun z => -2147483648 < z ∧ z < 2147483647) r r' h1 (inners_group p r q ha.inner)
    (inners_group p r' q hb.inner)
  refine ⟨wf_replace p r _ q ha.wf h4 h5, inners_replace p r _ q ha.inner h6.2, nostar_replace p r _ q ha.nostar, ?_⟩
  intro hc
  rw [← isConst_shape (shape_replace p r _ q)] at hc
  obtain ⟨s, hs, _⟩ := ha.const hc
  cases p with
  | nil => simp at hs
  | cons x p => simp at hs

/-! ### The bits of the joined vector -/

theorem flatMap_perm {α β : Type} (l : List α) (f g : α → List β) :
    (l.flatMap fun x => f x ++ g x).Perm (l.flatMap f ++ l.flatMap g) := by
  induction l with
  | nil => exact .refl _
  | cons x l ih =>
    simp only [List.flatMap_cons]
    refine ((ih.append_left (f x ++ g x))).trans ?_
    simp only [List.append_assoc]
    refine List.Perm.append_left _ ?_
    rw [← List.append_assoc, ← List.append_assoc]
    exact List.Perm.append_right _ List.perm_append_comm

theorem expand_join : ∀ (p : Vec) (r r' : List Rng) (q : Vec),
    (expand (p ++ .idx (glue r r').1 :: q)).Perm (expand (p ++ .idx r :: q) ++ expand (p ++ .idx r' :: q))
  | [], r, r', q => by
    simp only [List.nil_append, expand_idx, glue_bits, List.flatMap_append]
    exact .refl _
  | .txt s :: p, r, r', q => by
    simp only [List.cons_append, expand]
    rw [← List.map_append]
    exact (expand_join p r r' q).map _
  | .idx s :: p, r, r', q => by
    simp only [List.cons_append, expand_idx]
    refine List.Perm.trans ?_ (flatMap_perm _ _ _)
    generalize s.flatMap Rng.bits = is
    induction is with
    | nil => exact .refl _
    | cons i is ih =>
      simp only [List.flatMap_cons]
      refine List.Perm.append ?_ ih
      rw [← List.map_append]
      exact (expand_join p r r' q).map _

/-- Without an index before the joined group the order is kept. -/
theorem expand_join_eq : ∀ (p : Vec) (r r' : List Rng) (q : Vec), (∀ s, Seg.idx s ∉ p) →
    expand (p ++ .idx (glue r r').1 :: q) = expand (p ++ .idx r :: q) ++ expand (p ++ .idx r' :: q)
  | [], r, r', q, _ => by
    simp only [List.nil_append, expand_idx, glue_bits, List.flatMap_append]
  | .txt s :: p, r, r', q, h => by
    simp only [List.cons_append, expand]
    rw [← List.map_append, expand_join_eq p r r' q (fun t ht => h t (by simp [ht]))]
  | .idx s :: p, r, r', q, h => absurd List.mem_cons_self (h s)

theorem oneDim_prefix {p : Vec} {r : List Rng} {q : Vec} (h : OneDim (p ++ .idx r :: q)) : ∀ s, Seg.idx s ∉ p := by
  intro s hs
  unfold OneDim at h
  simp only [List.filter_append, List.filter_cons, Seg.isIdx, if_true, List.length_append, List.length_cons] at h
  have : 0 < (p.filter Seg.isIdx).length :=
    List.length_pos_of_mem (List.mem_filter.2 ⟨hs, rfl⟩)
  omega

theorem oneDim_replace {p : Vec} {r g : List Rng} {q : Vec} (h : OneDim (p ++ .idx r :: q)) :
    OneDim (p ++ .idx g :: q) := by
  unfold OneDim at *
  simpa [List.filter_append, List.filter_cons, Seg.isIdx] using h

/-! ### Names of bits -/

/-- The names of the bits of a vector. -/
def vbits (v : Vec) : List (List Char) :=
  match v with
  | .txt ('0' :: 'b' :: cs) :: _ => cs.map fun c => ['0', 'b', c]
  | _ => (expand v).map vecText

theorem vbits_nonconst {v : Vec} (h : isConst v = false) : vbits v = (expand v).map vecText := by
  unfold vbits
  split
  · simp [isConst] at h
  · rfl

theorem isConstChar_iff {c : Char} : isConstChar c = true ↔ c = '0' ∨ c = '1' ∨ c = 'x' := by
  simp [isConstChar, or_assoc]

theorem const_name_txt {cs : List Char} (h : ∀ c ∈ cs, isConstChar c = true) : Txt ('0' :: 'b' :: cs) := by
  have hno : '[' ∉ '0' :: 'b' :: cs := by
    simp only [List.mem_cons, not_or]
    refine ⟨by decide, by decide, ?_⟩
    intro hc
    have := h _ hc
    simp [isConstChar] at this
  have ht : ∀ s : List Char, '[' ∉ s → text s = (s, []) := by
    intro s
    induction s with
    | nil => intro _; rfl
    | cons c cs ih =>
      intro hs
      simp only [List.mem_cons, not_or] at hs
      have hc : ¬ c = '[' := fun e => hs.1 e.symm
      rw [text, if_neg (fun x => hc x.1), ih hs.2]
  exact ⟨by simp, by simp [valid], by simp, ht _ hno⟩

theorem good_const {s : List Char} (h : IsConstant s) : Good [.txt s] := by
  have h0 := h
  obtain ⟨cs, rfl, h1, h2⟩ := h
  refine ⟨⟨.inr ⟨const_name_txt (fun c hc => isConstChar_iff.2 (h2 c hc)), .inl rfl⟩, trivial⟩, trivial, ⟨?_, trivial⟩, fun _ => ⟨_, rfl, h0⟩⟩
  simp only [List.mem_cons, not_or]
  refine ⟨by decide, by decide, ?_⟩
  intro hc
  have := h2 _ hc
  simp [isConstChar] at this

theorem constant_expand {s : List Char} (h : IsConstant s) : mdExpand s = some (vbits [.txt s]) := by
  obtain ⟨cs, rfl, h1, h2⟩ := h
  have h3 : cs.all isConstChar = true := List.all_eq_true.2 fun c hc => isConstChar_iff.2 (h2 c hc)
  have : expandConstant ('0' :: 'b' :: cs) = some (cs.map fun c => [.txt ['0', 'b', c]]) := by
    simp only [expandConstant, h1, h3, ne_eq, not_false_eq_true, and_self, if_true]
  unfold mdExpand
  rw [this]
  simp only [vbits]
  clear this h1 h2 h3
  induction cs with
  | nil => rfl
  | cons c cs ih =>
    simp only [List.map_cons, showAll, ih]
    simp [showVec]

/-- The text of a vector that is not a constant does not begin as a constant. -/
theorem nonconst_text {v : Vec} (hw : WF v) (h : isConst v = false) : expandConstant (vecText v) = none := by
  by_cases hx : ∃ rs, Seg.idx rs ∈ v
  · obtain ⟨rs, hr⟩ := hx
    exact close_not_const (wf_close v hw rs hr)
  · unfold expandConstant
    split
    · rename_i cs heq
      rw [if_neg]
      rintro ⟨_, hall⟩
      cases v with
      | nil => simp [vecText] at heq
      | cons x v =>
        cases x with
        | idx rs => exact hx ⟨rs, List.mem_cons_self⟩
        | txt s =>
          rcases hw.1 with ⟨b, rfl, _⟩ | ⟨_, rfl | ⟨_, rs, v', rfl⟩⟩
          · simp [vecText, Seg.text] at heq
          · simp only [vecText, Seg.text, List.flatMap_cons, List.flatMap_nil, List.append_nil] at heq
            subst heq
            simp [isConst] at h
          · exact hx ⟨rs, by simp⟩
    · rfl

theorem good_expand {v : Vec} (h : Good v) : mdExpand (vecText v) = some (vbits v) := by
  cases hc : isConst v with
  | true =>
    obtain ⟨s, rfl, hs⟩ := h.const hc
    rw [← constant_expand hs]
    simp [vecText, Seg.text]
  | false =>
    rw [vbits_nonconst hc]
    exact mdExpand_text h.wf h.inner (nonconst_text h.wf hc)

theorem good_norm {v : Vec} (h : Good v) : Good (norm v) := by
  have hsp := splitLoop_text v _ h.wf (Nat.le_refl _)
  have hin : ∀ v : Vec, Inners v → Inners (norm v) := by
    intro v
    induction v with
    | nil => exact id
    | cons x v ih =>
      intro hv
      cases x with
      | txt s => exact ih hv
      | idx rs =>
        refine ⟨?_, ih hv.2⟩
        intro r hr
        cases rs with
        | nil => simp [mergeIndices] at hr
        | cons t cs => exact mergeTail_inner t cs hv.1 r hr
  have hns : ∀ v : Vec, NoStar v → NoStar (norm v) := by
    intro v
    induction v with
    | nil => exact id
    | cons x v ih =>
      intro hv
      cases x with
      | txt s => exact ⟨hv.1, ih hv.2⟩
      | idx rs => exact ih hv
  have hsh : ∀ v : Vec, shape (norm v) = shape v := by
    intro v
    induction v with
    | nil => rfl
    | cons x v ih =>
      cases x with
      | txt s => rw [norm_cons_txt, shape_txt, shape_txt, ih]
      | idx rs => rw [norm_cons_idx, shape_idx, shape_idx, ih]
  refine ⟨splitLoop_wf _ _ _ hsp, hin v h.inner, hns v h.nostar, ?_⟩
  intro hc
  rw [isConst_shape (hsh v)] at hc
  obtain ⟨s, rfl, hs⟩ := h.const hc
  exact ⟨s, rfl, hs⟩

theorem vbits_norm {v : Vec} (h : Good v) : vbits (norm v) = vbits v := by
  have h1 := good_expand h
  cases hc : isConst v with
  | true =>
    obtain ⟨s, rfl, hs⟩ := h.const hc
    rfl
  | false =>
    have hc' : isConst (norm v) = false := by
      cases hn : isConst (norm v) with
      | false => rfl
      | true =>
        obtain ⟨s, hs, hsc⟩ := (good_norm h).const hn
        cases v with
        | nil => simp [norm] at hs
        | cons x v =>
          cases x with
          | txt t =>
            rw [norm_cons_txt] at hs hn
            simp only [List.cons.injEq, Seg.txt.injEq] at hs
            obtain ⟨cs, rfl, _⟩ := hsc
            obtain ⟨rfl, _⟩ := hs
            simp [isConst] at hc
          | idx rs => simp [norm_cons_idx] at hs
    rw [vbits_nonconst hc, vbits_nonconst hc', expand_norm]

/-! ### The loop -/

/-- Relations between lists of names: the same, or the same up to order. -/
structure Rel (R : List (List Char) → List (List Char) → Prop) : Prop where
  refl : ∀ l, R l l
  trans : ∀ a b c, R a b → R b c → R a c
  app : ∀ a b p q, R a b → R (p ++ a ++ q) (p ++ b ++ q)

/-- What is kept in the loop. -/
structure MInv (R : List (List Char) → List (List Char) → Prop) (D : Vec → Prop) : Prop where
  rel : Rel R
  dim : ∀ p r g q, D (p ++ .idx r :: q) → D (p ++ .idx g :: q)
  const : ∀ s, D [.txt s]
  join : ∀ p r r' q, D (p ++ .idx r :: q) →
    R ((expand (p ++ .idx (glue r r').1 :: q)).map vecText)
      ((expand (p ++ .idx r :: q)).map vecText ++ (expand (p ++ .idx r' :: q)).map vecText)

theorem const_join {a b : Vec} (ha : Good a) (hb : Good b) (ca : isConst a = true) (cb : isConst b = true) :
    Good (joinConst a b) ∧ vbits (joinConst a b) = vbits a ++ vbits b ∧ isConst (joinConst a b) = true ∧
      ∃ s, joinConst a b = [.txt s] := by
  obtain ⟨s, rfl, cs, rfl, h1, h2⟩ := ha.const ca
  obtain ⟨t, rfl, ds, rfl, h3, h4⟩ := hb.const cb
  have e : joinConst [.txt ('0' :: 'b' :: cs)] [.txt ('0' :: 'b' :: ds)] = [.txt ('0' :: 'b' :: (cs ++ ds))] := by
    simp [joinConst]
  rw [e]
  refine ⟨good_const ⟨cs ++ ds, rfl, by simp [h1], ?_⟩, by simp [vbits], rfl, _, rfl⟩
  intro c hc
  rcases List.mem_append.1 hc with h | h
  · exact h2 c h
  · exact h4 c h

theorem mergeLoop_spec {R : List (List Char) → List (List Char) → Prop} {D : Vec → Prop} (M : MInv R D) (N : Nat) :
    ∀ (n : Nat) (pre rest : List Vec) (nc alts : Nat), rest ≠ [] →
      (∀ v ∈ pre ++ rest, Good v ∧ D v) →
      (pre ++ rest).length ≤ alts → alts ≤ N →
      ((pre ++ rest).length < alts → ∃ v ∈ pre ++ rest, isConst v = false) →
      ((pre ++ rest).length + alts) * (N + 1) + (N - nc) < n →
      ∃ out, mergeLoop n pre rest nc alts = some out ∧ (∀ v ∈ out, Good v ∧ D v) ∧ out ≠ [] ∧
        R (out.flatMap vbits) ((pre ++ rest).flatMap vbits)
  | 0, _, _, _, _, _, _, _, _, _, hn => absurd hn (Nat.not_lt_zero _)
  | n+1, pre, rest, nc, alts, hne, hg, hl, hN, hc, hn => by
    rw [mergeLoop]
    by_cases hstop : ¬ (alts > 1 ∧ nc < alts)
    · rw [if_pos hstop]
      exact ⟨_, rfl, hg, by simp [hne], M.rel.refl _⟩
    · rw [if_neg hstop]
      have hstop' : alts > 1 ∧ nc < alts := by
        simpa using hstop
      -- normalise the position
      have key : ∀ (pre rest : List Vec), rest ≠ [] → (rest.length = 1 → pre = []) →
          (∀ v ∈ pre ++ rest, Good v ∧ D v) → (pre ++ rest).length ≤ alts →
          ((pre ++ rest).length < alts → ∃ v ∈ pre ++ rest, isConst v = false) →
          ((pre ++ rest).length + alts) * (N + 1) + (N - nc) < n + 1 →
          ∃ out, (match (pre, rest) with
            | (pre, a :: b :: post) =>
              if isConst a && isConst b then mergeLoop n pre (joinConst a b :: post) 0 (alts - 1)
              else if sig a ≠ sig b then mergeLoop n (pre ++ [a]) (b :: post) (nc + 1) alts
              else match joinVec a b with
                | .same => mergeLoop n (pre ++ [a]) (b :: post) (nc + 1) alts
                | .no => mergeLoop n (pre ++ [a]) (b :: post) (nc + 1) alts
                | .join c dec => mergeLoop n pre (c :: post) 0 (if dec then alts - 1 else alts)
                | .ub => none
            | (_, [a]) =>
              if isConst a then mergeLoop n [] [joinConst a a] 0 (alts - 1)
              else match joinVec a a with
                | .same => mergeLoop n [] [a] (nc + 1) alts
                | .no => mergeLoop n [] [a] (nc + 1) alts
                | .join c dec => mergeLoop n [] [c] 0 (if dec then alts - 1 else alts)
                | .ub => none
            | (_, []) => none) = some out ∧ (∀ v ∈ out, Good v ∧ D v) ∧ out ≠ [] ∧
            R (out.flatMap vbits) ((pre ++ rest).flatMap vbits) := by
        intro pre rest hne hone hg hl hc hn
        match rest, hne, hone, hg, hl, hc, hn with
        | [], h, _, _, _, _, _ => exact absurd rfl h
        | [a], _, hone, hg, hl, hc, hn =>
          have hp := hone rfl
          subst hp
          have hca : isConst a = false := by
            obtain ⟨v, hv, hv'⟩ := hc (by simpa using hstop'.1)
            simp only [List.nil_append, List.mem_singleton] at hv
            rw [← hv]
            exact hv'
          simp only [hca, joinVec_self, Bool.false_eq_true, if_false]
          refine mergeLoop_spec M N n [] [a] (nc + 1) alts (by simp) hg hl hN hc ?_
          simp only [List.nil_append, List.length_cons, List.length_nil] at hn ⊢
          omega
        | a :: b :: post, _, _, hg, hl, hc, hn =>
          have ga := hg a (by simp)
          have gb := hg b (by simp)
          have hkeep : ∃ out, mergeLoop n (pre ++ [a]) (b :: post) (nc + 1) alts = some out ∧
              (∀ v ∈ out, Good v ∧ D v) ∧ out ≠ [] ∧
              R (out.flatMap vbits) ((pre ++ a :: b :: post).flatMap vbits) := by
            have e : pre ++ a :: b :: post = (pre ++ [a]) ++ (b :: post) := by simp
            rw [e] at hg hl hc hn ⊢
            refine mergeLoop_spec M N n (pre ++ [a]) (b :: post) (nc + 1) alts (by simp) hg hl hN hc ?_
            omega
          have hshort : ∀ c : Vec, ∀ alts', Good c ∧ D c → alts' ≤ alts → alts - 1 ≤ alts' →
              (isConst c = false ∨ (isConst a = true ∧ isConst b = true ∧ alts' = alts - 1)) →
              R (vbits c) (vbits a ++ vbits b) →
              ∃ out, mergeLoop n pre (c :: post) 0 alts' = some out ∧ (∀ v ∈ out, Good v ∧ D v) ∧ out ≠ [] ∧
              R (out.flatMap vbits) ((pre ++ a :: b :: post).flatMap vbits) := by
            intro c alts' gc h1 h2 h3 hR
            have hlen : (pre ++ c :: post).length + 1 = (pre ++ a :: b :: post).length := by
              simp only [List.length_append, List.length_cons]; omega
            obtain ⟨out, e1, e2, e3, e4⟩ := mergeLoop_spec M N n pre (c :: post) 0 alts' (by simp)
              (by
                intro v hv
                simp only [List.mem_append, List.mem_cons] at hv
                rcases hv with hv | rfl | hv
                · exact hg v (by simp [hv])
                · exact gc
                · exact hg v (by simp [hv]))
              (by omega) (by omega)
              (by
                intro hlt
                rcases h3 with h3 | ⟨ca, cb, h3⟩
                · exact ⟨c, by simp, h3⟩
                · obtain ⟨v, hv, hv'⟩ := hc (by omega)
                  simp only [List.mem_append, List.mem_cons] at hv
                  rcases hv with hv | rfl | rfl | hv
                  · exact ⟨v, by simp [hv], hv'⟩
                  · simp [ca] at hv'
                  · simp [cb] at hv'
                  · exact ⟨v, by simp [hv], hv'⟩)
              (by
                have : ((pre ++ c :: post).length + alts') * (N + 1) + (N + 1) ≤
                    ((pre ++ a :: b :: post).length + alts) * (N + 1) := by
                  rw [← Nat.succ_mul]
                  exact Nat.mul_le_mul_right _ (by omega)
                omega)
            refine ⟨out, e1, e2, e3, M.rel.trans _ _ _ e4 ?_⟩
            have := M.rel.app _ _ (pre.flatMap vbits) (post.flatMap vbits) hR
            simpa using this
          simp only
          by_cases hcc : (isConst a && isConst b) = true
          · rw [if_pos hcc]
            simp only [Bool.and_eq_true] at hcc
            obtain ⟨j1, j2, j3, s, j4⟩ := const_join ga.1 gb.1 hcc.1 hcc.2
            refine hshort _ _ ⟨j1, by rw [j4]; exact M.const s⟩ (by omega) (by omega)
              (.inr ⟨hcc.1, hcc.2, rfl⟩) (by rw [j2]; exact M.rel.refl _)
          · rw [if_neg hcc]
            by_cases hs : sig a ≠ sig b
            · rw [if_pos hs]
              exact hkeep
            · rw [if_neg hs]
              have hsh := shape_of_sig a b ga.1.wf gb.1.wf ga.1.nostar gb.1.nostar (by simpa using hs)
              have hcab := isConst_shape hsh
              have hcaf : isConst a = false := by
                cases hx : isConst a with
                | false => rfl
                | true => rw [← hcab, hx] at hcc; simp at hcc
              rcases joinVec_shape a b hsh with e | e | ⟨c, d, p, r, r', q, e, h1, h2, h3⟩
              · rw [e]; exact hkeep
              · rw [e]; exact hkeep
              · rw [e]
                subst h1 h2 h3
                have hcc' : isConst (p ++ .idx (glue r r').1 :: q) = false := by
                  rw [← isConst_shape (shape_replace p r _ q)]
                  exact hcaf
                refine hshort _ _ ⟨good_replace ga.1 gb.1, M.dim _ _ _ _ ga.2⟩ ?_ ?_ (.inl hcc') ?_
                · split <;> omega
                · split <;> omega
                · rw [vbits_nonconst hcc', vbits_nonconst hcaf, vbits_nonconst (by rw [← hcab]; exact hcaf)]
                  exact M.join p r r' q ga.2
      by_cases h1 : rest.length = 1
      · rw [if_pos h1]
        by_cases hp : pre = []
        · subst hp
          exact key [] rest hne (fun _ => rfl) hg hl hc hn
        · have := key [] (pre ++ rest) (by simp [hne]) (by
            intro h
            cases pre with
            | nil => exact absurd rfl hp
            | cons x pre => simp only [List.length_append, List.length_cons] at h; omega) hg hl hc hn
          exact this
      · rw [if_neg h1]
        exact key pre rest hne (fun h => absurd h h1) hg hl hc hn

theorem permInv : MInv List.Perm (fun _ => True) where
  rel := ⟨.refl, fun _ _ _ => .trans, fun _ _ p q h => (h.append_left p).append_right q⟩
  dim := fun _ _ _ _ _ => trivial
  const := fun _ => trivial
  join := fun p r r' q _ => by
    rw [← List.map_append]
    exact (expand_join p r r' q).map _

theorem orderInv : MInv (· = ·) OneDim where
  rel := ⟨fun _ => rfl, fun _ _ _ => .trans, fun _ _ p q h => by rw [h]⟩
  dim := fun _ _ _ _ h => oneDim_replace h
  const := fun s => by simp [OneDim, Seg.isIdx]
  join := fun p r r' q h => by
    rw [← List.map_append, expand_join_eq p r r' q (oneDim_prefix h)]

theorem mergeVecs_spec {R : List (List Char) → List (List Char) → Prop} {D : Vec → Prop} (M : MInv R D)
    {vs : List Vec} (h : ∀ v ∈ vs, Good v ∧ D v) :
    ∃ out, mergeVecs vs = some out ∧ (∀ v ∈ out, Good v ∧ D v) ∧ R (out.flatMap vbits) (vs.flatMap vbits) := by
  cases vs with
  | nil => exact ⟨[], rfl, by simp, M.rel.refl _⟩
  | cons v vs =>
    obtain ⟨out, e1, e2, _, e4⟩ := mergeLoop_spec M (v :: vs).length
      (2 * ((v :: vs).length + 1) * ((v :: vs).length + 1)) [] (v :: vs) 0 (v :: vs).length (by simp) h
      (by simp) (Nat.le_refl _) (by simp) (by
        simp only [List.nil_append, List.length_cons]
        generalize vs.length + 1 = m
        have : 2 * (m + 1) * (m + 1) = (m + m) * (m + 1) + 2 * (m + 1) := by
          rw [← Nat.add_mul]; congr 1; omega
        omega)
    exact ⟨out, e1, e2, e4⟩

theorem mdExpandAll_good (vs : List Vec) (h : ∀ v ∈ vs, Good v) :
    mdExpandAll (vs.map vecText) = some (vs.flatMap vbits) := by
  induction vs with
  | nil => rfl
  | cons v vs ih =>
    simp only [List.map_cons, mdExpandAll, good_expand (h v (by simp)), ih (fun x hx => h x (by simp [hx]))]
    rfl

theorem good_of_text {v : Vec} (hw : WF v) (hi : Inners v) (hs : '*' ∉ vecText v)
    (hc : ∀ cs, vecText v ≠ '0' :: 'b' :: cs) : Good v := by
  have hns : ∀ v : Vec, '*' ∉ vecText v → NoStar v := by
    intro v
    induction v with
    | nil => exact fun _ => trivial
    | cons x v ih =>
      intro hn
      rw [vecText_cons] at hn
      simp only [List.mem_append, not_or] at hn
      cases x with
      | txt t => exact ⟨hn.1, ih hn.2⟩
      | idx rs => exact ih hn.2
  refine ⟨hw, hi, hns v hs, ?_⟩
  intro hx
  exfalso
  unfold isConst at hx
  split at hx
  · rename_i cs v'
    exact hc _ (vecText_cons _ _)
  · simp at hx

theorem proper_good {s : List Char} (h : Proper s) : ∃ v, Good v ∧ vecText v = s := by
  cases h with
  | const h => exact ⟨[.txt s], good_const h, by simp [vecText, Seg.text]⟩
  | vec v hw hi ht hs hc =>
    subst ht
    exact ⟨v, good_of_text hw hi hs hc, rfl⟩

theorem proper1_good {s : List Char} (h : Proper1 s) : ∃ v, Good v ∧ OneDim v ∧ vecText v = s := by
  cases h with
  | const h => exact ⟨[.txt s], good_const h, by simp [OneDim, Seg.isIdx], by simp [vecText, Seg.text]⟩
  | vec v hw hi h1 ht hs hc =>
    subst ht
    exact ⟨v, good_of_text hw hi hs hc, h1, rfl⟩

theorem splitAll_good {D : Vec → Prop} (hD : ∀ v, D v → D (norm v)) :
    ∀ (names : List (List Char)), (∀ s ∈ names, ∃ v, Good v ∧ D v ∧ vecText v = s) →
      ∃ vs, splitAll names = some vs ∧ (∀ v ∈ vs, Good v ∧ D v) ∧ mdExpandAll names = some (vs.flatMap vbits)
  | [], _ => ⟨[], rfl, by simp, rfl⟩
  | s :: names, h => by
    obtain ⟨v, hg, hd, rfl⟩ := h s (by simp)
    obtain ⟨vs, h1, h2, h3⟩ := splitAll_good hD names (fun x hx => h x (by simp [hx]))
    refine ⟨norm v :: vs, ?_, ?_, ?_⟩
    · simp only [splitAll, split_text hg.wf, h1]
      rfl
    · intro x hx
      simp only [List.mem_cons] at hx
      rcases hx with rfl | hx
      · exact ⟨good_norm hg, hD v hd⟩
      · exact h2 x hx
    · simp only [mdExpandAll, good_expand hg, h3]
      simp [vbits_norm hg]

theorem oneDim_norm (v : Vec) (h : OneDim v) : OneDim (norm v) := by
  have : ∀ v : Vec, ((norm v).filter Seg.isIdx).length = (v.filter Seg.isIdx).length := by
    intro v
    induction v with
    | nil => rfl
    | cons x v ih =>
      cases x with
      | txt s => rw [norm_cons_txt]; simpa [List.filter_cons, Seg.isIdx] using ih
      | idx rs => rw [norm_cons_idx]; simpa [List.filter_cons, Seg.isIdx] using ih
  unfold OneDim at *
  rw [this]
  exact h

theorem mdMerge_spec {R : List (List Char) → List (List Char) → Prop} {D : Vec → Prop} (M : MInv R D)
    (hD : ∀ v, D v → D (norm v)) {names out : List (List Char)}
    (h : ∀ s ∈ names, ∃ v, Good v ∧ D v ∧ vecText v = s) (hm : mdMerge names = some out) :
    ∃ l l', mdExpandAll names = some l ∧ mdExpandAll out = some l' ∧ R l' l := by
  obtain ⟨vs, h1, h2, h3⟩ := splitAll_good hD names h
  obtain ⟨ws, e1, e2, e3⟩ := mergeVecs_spec M h2
  unfold mdMerge at hm
  simp only [h1, e1, Option.bind_eq_bind, Option.bind_some] at hm
  have ht := showAll_text _ _ hm
  refine ⟨_, _, h3, ?_, e3⟩
  rw [ht]
  exact mdExpandAll_good ws (fun v hv => (e2 v hv).1)

end Voss.Vec
