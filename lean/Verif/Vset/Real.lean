import Verif.Vset.Props
import Verif.Vec.KeepProps
/-
C109: the functions on names do what the set functions need (`Sound`).
-/
namespace Voss.Vec

/-- Ranges from the highest index down in all groups. -/
def Slopes : Vec → Prop
  | [] => True
  | .txt _ :: v => Slopes v
  | .idx rs :: v => Descending rs ∧ Slopes v

theorem slopes_tidies : ∀ v : Vec, Slopes v → Tidies v
  | [], _ => trivial
  | .txt _ :: v, h => slopes_tidies v h
  | .idx _ :: v, h => ⟨.inr h.1, slopes_tidies v h.2⟩

theorem canon_slopes : ∀ v : Vec, Tidies v → Slopes (canonVec v)
  | [], _ => trivial
  | .txt _ :: v, h => canon_slopes v h
  | .idx rs :: v, h => by
    refine ⟨?_, canon_slopes v h.2⟩
    rcases h.1 with ⟨r, rfl, hr⟩ | h
    · have e : canon [r] = [if r.up < r.lo then ⟨r.lo, r.up⟩ else r] := by
        simp only [canon, List.length_cons, List.length_nil, canonF]
        rw [if_neg (fun x => hr x.2)]
      rw [e]
      show Rng.lo _ ≤ Rng.up _
      split
      · dsimp only; omega
      · omega
    · exact (canonF_descending _ rs (Nat.le_refl _) h).desc

theorem compressF_desc : ∀ (n : Nat) (x y : List Rng) (u : Int), Descending x → Descending y → Below u x → Below u y →
    Descending (compressF n x y) ∧ Below u (compressF n x y)
  | n, [], y, u, _, hy, _, by' => by
    have e : compressF n [] y = y := by cases n <;> cases y <;> rfl
    rw [e]
    exact ⟨hy, by'⟩
  | n, a :: as, [], u, hx, _, bx, _ => by
    have e : compressF n (a :: as) [] = a :: as := by cases n <;> rfl
    rw [e]
    exact ⟨hx, bx⟩
  | 0, a :: as, b :: bs, u, hx, _, bx, _ => ⟨hx, bx⟩
  | n+1, a :: as, b :: bs, u, hx, hy, bx, by' => by
    have step : ∀ (a : Rng) (as : List Rng) (b : Rng) (bs : List Rng), Descending (a :: as) → Descending (b :: bs) →
        a.up ≤ u → b.up ≤ a.up →
        Descending (compressStep (compressF n) a as b bs) ∧ Below u (compressStep (compressF n) a as b bs) := by
      intro a as b bs hx hy ha hab
      obtain ⟨a1, a2, a3⟩ := (desc_cons a as).1 hx
      obtain ⟨b1, b2, b3⟩ := (desc_cons b bs).1 hy
      have head : ∀ (r : Rng) (rs : List Rng) (w : Int), r.up ≤ w → Below w (r :: rs) := by
        intro r rs w hw x hx
        simp only [List.head?_cons, Option.mem_some_iff] at hx
        subst hx
        exact hw
      unfold compressStep
      split
      · obtain ⟨h1, h2⟩ := compressF_desc n as (b :: bs) a.up a3 hy a2 (head b bs _ hab)
        exact ⟨(desc_cons _ _).2 ⟨a1, h2, h1⟩, head _ _ _ ha⟩
      · split
        · exact compressF_desc n (a :: as) bs u hx b3 (head _ _ _ ha) (b2.mono (by omega))
        · cases as with
          | nil =>
            refine compressF_desc n _ bs u ?_ b3 (head _ _ _ ha) (b2.mono (by omega))
            show b.lo ≤ a.up
            omega
          | cons c cs =>
            obtain ⟨c1, c2, c3⟩ := (desc_cons c cs).1 a3
            have hc : c.up ≤ a.up := a2 c (by simp)
            dsimp only
            split
            · refine compressF_desc n _ bs u ((desc_cons _ _).2 ⟨?_, c2.mono hc, c3⟩) b3 (head _ _ _ ha)
                (b2.mono (by omega))
              dsimp only
              omega
            · refine compressF_desc n _ bs u ((desc_cons _ _).2 ⟨?_, a2, a3⟩) b3 (head _ _ _ ha) (b2.mono (by omega))
              dsimp only
              omega
    have ha : a.up ≤ u := bx a (by simp)
    have hb : b.up ≤ u := by' b (by simp)
    simp only [compressF]
    split
    · exact step b bs a as hy hx hb (by omega)
    · exact step a as b bs hx hy ha (by omega)

theorem compress_desc {x y : List Rng} (hx : Descending x) (hy : Descending y) : Descending (compress x y) := by
  obtain ⟨u, h1, h2⟩ : ∃ u, Below u x ∧ Below u y := by
    cases x with
    | nil => cases y with
      | nil => exact ⟨0, by simp [Below], by simp [Below]⟩
      | cons b bs => exact ⟨b.up, by simp [Below], by simp [Below]⟩
    | cons a as => cases y with
      | nil => exact ⟨a.up, by simp [Below], by simp [Below]⟩
      | cons b bs =>
        refine ⟨max a.up b.up, ?_, ?_⟩
        · simp only [Below, List.head?_cons, Option.mem_some_iff, forall_eq']; omega
        · simp only [Below, List.head?_cons, Option.mem_some_iff, forall_eq']; omega
  exact (compressF_desc _ x y u hx hy h1 h2).1

theorem extJoin_slopes : ∀ (a b c : Vec) (d : Bool), extJoin a b = .join c d → Slopes a → Slopes b →
    Slopes c ∧ shape c = shape a
  | [], b, c, d, e, _, _ => by simp [extJoin] at e
  | .txt s :: a, [], c, d, e, _, _ => by simp [extJoin] at e
  | .idx r :: a, [], c, d, e, _, _ => by simp [extJoin] at e
  | .idx r :: a, .txt s :: b, c, d, e, _, _ => by simp [extJoin] at e
  | .txt s :: a, y :: b, c, d, e, ha, hb => by
    simp only [extJoin] at e
    cases hj : extJoin a b with
    | join c' d' =>
      rw [hj] at e
      simp only [Join.cons, Join.join.injEq] at e
      obtain ⟨rfl, rfl⟩ := e
      have hb' : Slopes b := by
        cases y with
        | txt _ => exact hb
        | idx _ => exact hb.2
      obtain ⟨h1, h2⟩ := extJoin_slopes a b c' d' hj ha hb'
      exact ⟨h1, by rw [shape_txt, shape_txt, h2]⟩
    | same => rw [hj] at e; simp [Join.cons] at e
    | no => rw [hj] at e; simp [Join.cons] at e
    | ub => rw [hj] at e; simp [Join.cons] at e
  | .idx r :: a, .idx r' :: b, c, d, e, ha, hb => by
    simp only [extJoin] at e
    split at e
    · cases hj : extJoin a b with
      | join c' d' =>
        rw [hj] at e
        simp only [Join.cons, Join.join.injEq] at e
        obtain ⟨rfl, rfl⟩ := e
        obtain ⟨h1, h2⟩ := extJoin_slopes a b c' d' hj ha.2 hb.2
        exact ⟨⟨ha.1, h1⟩, by rw [shape_idx, shape_idx, h2]⟩
      | same => rw [hj] at e; simp [Join.cons] at e
      | no => rw [hj] at e; simp [Join.cons] at e
      | ub => rw [hj] at e; simp [Join.cons] at e
    · split at e
      · simp at e
      · simp at e
      · simp only [Join.join.injEq] at e
        obtain ⟨rfl, -⟩ := e
        exact ⟨⟨compress_desc ha.1 hb.1, ha.2⟩, rfl⟩

theorem extractLoop_slopes : ∀ (n : Nat) (xs : List Vec) (nc : Nat) (out : List Vec),
    (∀ v ∈ xs, Slopes v ∧ isConst v = false) → extractLoop n xs nc = some out → ∀ v ∈ out, Slopes v ∧ isConst v = false
  | 0, xs, nc, out, _, e => by simp [extractLoop] at e
  | n+1, [], nc, out, h, e => by
    simp only [extractLoop, Option.some.injEq] at e
    subst e
    exact h
  | n+1, [a], nc, out, h, e => by
    simp only [extractLoop, Option.some.injEq] at e
    subst e
    exact h
  | n+1, a :: b :: post, nc, out, h, e => by
    have next : ∀ (xs : List Vec) (nc : Nat), (∀ v ∈ xs, Slopes v ∧ isConst v = false) →
        (if xs.length > 1 ∧ nc ≤ xs.length then extractLoop n xs nc else some xs) = some out →
        ∀ v ∈ out, Slopes v ∧ isConst v = false := by
      intro xs nc hx e
      split at e
      · exact extractLoop_slopes n xs nc out hx e
      · simp only [Option.some.injEq] at e
        subst e
        exact hx
    have rot : ∀ v ∈ b :: post ++ [a], Slopes v ∧ isConst v = false := by
      intro v hv
      refine h v ?_
      simp only [List.mem_append, List.mem_cons, List.not_mem_nil, or_false] at hv ⊢
      rcases hv with (h | h) | h <;> simp [h]
    have keep : ∀ c, Slopes c ∧ isConst c = false → ∀ v ∈ c :: post, Slopes v ∧ isConst v = false := by
      intro c hc v hv
      rcases List.mem_cons.1 hv with rfl | hv
      · exact hc
      · exact h v (by simp [hv])
    simp only [extractLoop] at e
    split at e
    · exact next _ _ rot e
    · cases hj : extJoin a b with
      | same => rw [hj] at e; exact next _ _ (keep a (h a (by simp))) e
      | no => rw [hj] at e; exact next _ _ rot e
      | ub => rw [hj] at e; simp at e
      | join c d =>
        rw [hj] at e
        obtain ⟨h1, h2⟩ := extJoin_slopes a b c d hj (h a (by simp)).1 (h b (by simp)).1
        exact next _ _ (keep c ⟨h1, by rw [isConst_shape h2]; exact (h a (by simp)).2⟩) e

theorem selects_shape {v b : Vec} (h : Selects v b) : shape b = shape v := by
  induction h with
  | nil => rfl
  | txt s v b _ ih => rw [shape_txt, shape_txt, ih]
  | idx rs v b r i _ _ _ ih => rw [shape_idx, shape_idx, ih]

theorem sig_shape : ∀ v : Vec, sig (shape v) = sig v
  | [] => rfl
  | .txt s :: v => by rw [shape_txt, sig, sig, sig_shape v]
  | .idx rs :: v => by rw [shape_idx, sig, sig, sig_shape v]

theorem shape_norm : ∀ v : Vec, shape (norm v) = shape v
  | [] => rfl
  | .txt s :: v => by rw [norm_cons_txt, shape_txt, shape_txt, shape_norm v]
  | .idx rs :: v => by rw [norm_cons_idx, shape_idx, shape_idx, shape_norm v]

theorem nostar_shape : ∀ v w : Vec, shape v = shape w → NoStar w → NoStar v
  | [], _, _, _ => trivial
  | .txt s :: v, [], e, _ => by simp [shape] at e
  | .idx s :: v, [], e, _ => by simp [shape] at e
  | .txt s :: v, .idx _ :: w, e, _ => by simp [shape] at e
  | .idx _ :: v, .txt _ :: w, e, _ => by simp [shape] at e
  | .txt s :: v, .txt t :: w, e, h => by
    rw [shape_txt, shape_txt] at e
    simp only [List.cons.injEq, Seg.txt.injEq] at e
    obtain ⟨rfl, e⟩ := e
    exact ⟨h.1, nostar_shape v w e h.2⟩
  | .idx s :: v, .idx t :: w, e, h => by
    rw [shape_idx, shape_idx] at e
    simp only [List.cons.injEq, true_and] at e
    exact nostar_shape v w e h

theorem selects_inners {v b : Vec} (h : Selects v b) (hi : Inners v) : Inners b ∧ Tidies b := by
  induction h with
  | nil => exact ⟨trivial, trivial⟩
  | txt s v b _ ih => exact ih hi
  | idx rs v b r i hr hb _ ih =>
    have := hi.1 r hr
    refine ⟨⟨fun x hx => ?_, (ih hi.2).1⟩, .inr (show i ≤ i by omega), (ih hi.2).2⟩
    simp only [List.mem_singleton] at hx
    subst hx
    unfold Inner at this ⊢
    dsimp only at this ⊢
    omega

theorem expand_ne : ∀ v : Vec, WF v → expand v ≠ []
  | [], _ => by simp [expand]
  | .txt s :: v, h => by
    have := expand_ne v h.2
    simpa [expand] using this
  | .idx rs :: v, h => by
    have := expand_ne v h.2.2.2
    obtain ⟨r, rs, rfl⟩ := List.exists_cons_of_ne_nil h.1
    obtain ⟨b, l, e⟩ := List.exists_cons_of_ne_nil this
    have hl := bits_length r
    cases hb : r.bits with
    | nil => rw [hb] at hl; simp at hl
    | cons i is => simp [expand_idx, hb, e]

end Voss.Vec

namespace Voss.Vset
open Voss.Vec

/-- Names that are not constants: no asterisk, and in each group one range, or ranges that go from the highest index
down. -/
def Named (s : List Char) : Prop := ∃ v, Good v ∧ Tidies v ∧ isConst v = false ∧ vecText v = s

theorem edge_good : ∀ v : Vec, Inners v → edge v = false
  | [], _ => rfl
  | .txt _ :: v, h => edge_good v h
  | .idx rs :: v, h => by
    simp only [edge, edge_good v h.2, Bool.or_false, List.any_eq_false, Bool.not_eq_true]
    exact fun r hr => inner_edge (h.1 r hr)

/-- C109: the functions of voss_strings.c do what the set functions need, for names that are not constants. -/
theorem c109_sound (sort : List Vec → List Vec) (hsort : ∀ l, (sort l).Perm l) : Sound (real sort) Named := by
  have bit : ∀ v, Good v → isConst v = false → ∀ b ∈ vbits v, ∃ w, b = vecText w ∧ Selects v w ∧ Vec.Bit w ∧ WF w := by
    intro v hv hc b hb
    rw [vbits_nonconst hc] at hb
    obtain ⟨w, hw, rfl⟩ := List.mem_map.1 hb
    have hs := (mem_expand _ _).1 hw
    exact ⟨w, rfl, hs, selects_bit hs hv.wf (edge_good v hv.inner)⟩
  have sigOf : ∀ v, Good v → (real sort).sig (vecText v) = some (sig v) := by
    intro v hv
    show (split (vecText v)).map sig = _
    rw [split_text hv.wf, Option.map_some, ← sig_shape (norm v), shape_norm, sig_shape]
  have goodBit : ∀ v w, Good v → isConst v = false → Selects v w → WF w → Good w ∧ Tidies w ∧ isConst w = false := by
    intro v w hv hc hs hw
    have hc' : isConst w = false := by rw [isConst_shape (selects_shape hs)]; exact hc
    obtain ⟨i1, i2⟩ := selects_inners hs hv.inner
    exact ⟨⟨hw, i1, nostar_shape w v (selects_shape hs) hv.nostar, fun h => by rw [hc'] at h; cases h⟩, i2, hc'⟩
  refine ⟨?_, ?_, ?_⟩
  · rintro n ⟨v, hv, ht, hc, rfl⟩
    refine ⟨vbits v, good_expand hv, ?_, fun b hb => ?_⟩
    · rw [vbits_nonconst hc]
      simpa using expand_ne v hv.wf
    · obtain ⟨w, rfl, hs, hb, hw⟩ := bit v hv hc b hb
      obtain ⟨g1, g2, g3⟩ := goodBit v w hv hc hs hw
      refine ⟨⟨w, g1, g2, g3, rfl⟩, ?_⟩
      show mdExpand (vecText w) = _
      rw [good_expand g1, vbits_nonconst g3, expand_bit w hb]
      rfl
  · intro ns out hp hm
    obtain ⟨vs, h1, h2, h3⟩ := splitAll_good (D := fun v => Tidies v ∧ isConst v = false)
      (fun v hv => ⟨tidies_norm v hv.1, by rw [isConst_shape (shape_norm v)]; exact hv.2⟩) ns
      (fun s hs => by obtain ⟨v, a, b, c, d⟩ := hp s hs; exact ⟨v, a, ⟨b, c⟩, d⟩)
    have hcan : ∀ v ∈ vs.map canonVec, Slopes v ∧ isConst v = false := by
      intro v hv
      obtain ⟨w, hw, rfl⟩ := List.mem_map.1 hv
      exact ⟨canon_slopes w (h2 w hw).2.1, by rw [isConst_shape (canon_shape w)]; exact (h2 w hw).2.2⟩
    obtain ⟨ws, e1, e2, e3⟩ := extractVecs_spec sort hsort (vs := vs.map canonVec) (by
      intro v hv
      obtain ⟨w, hw, rfl⟩ := List.mem_map.1 hv
      exact ⟨good_canon (h2 w hw).1 (h2 w hw).2.1, canon_downs w (h2 w hw).2.1⟩)
    have hws : ∀ v ∈ ws, Slopes v ∧ isConst v = false :=
      extractLoop_slopes _ _ _ _ (fun v hv => hcan v ((hsort _).mem_iff.1 hv)) e1
    have hm' : mdExtract sort ns = some out := hm
    unfold mdExtract at hm'
    simp only [h1, e1, Option.bind_eq_bind, Option.bind_some] at hm'
    have ht := showAll_text _ _ hm'
    have all : ∀ (ss : List (List Char)) (l : List (List Char)), mdExpandAll ss = some l →
        ∀ b, Bit (real sort) ss b ↔ b ∈ l := by
      intro ss
      induction ss with
      | nil =>
        intro l e b
        simp only [mdExpandAll, Option.some.injEq] at e
        subst e
        simp [Bit]
      | cons s ss ih =>
        intro l e b
        simp only [mdExpandAll, Option.bind_eq_bind, Option.bind_eq_some_iff, Option.some.injEq] at e
        obtain ⟨k, k1, k', k2, rfl⟩ := e
        rw [List.mem_append, ← ih k' k2]
        unfold Bit
        have k1' : (real sort).expand s = some k := k1
        simp [k1']
    have hout : mdExpandAll out = some (ws.flatMap vbits) := by
      rw [ht]; exact mdExpandAll_good ws (fun v hv => (e2 v hv).1)
    refine ⟨fun n hn => ?_, fun b => ?_⟩
    · rw [ht] at hn
      obtain ⟨w, hw, rfl⟩ := List.mem_map.1 hn
      exact ⟨w, (e2 w hw).1, slopes_tidies w (hws w hw).1, (hws w hw).2, rfl⟩
    · rw [all _ _ hout, all _ _ h3, e3]
      simp only [List.mem_flatMap, List.mem_map]
      constructor
      · rintro ⟨_, ⟨w, hw, rfl⟩, hb⟩
        exact ⟨w, hw, (vbits_canon (h2 w hw).1 (h2 w hw).2.1 b).1 hb⟩
      · rintro ⟨w, hw, hb⟩
        exact ⟨_, ⟨w, hw, rfl⟩, (vbits_canon (h2 w hw).1 (h2 w hw).2.1 b).2 hb⟩
  · rintro n m b ⟨v, hv, -, hc, rfl⟩ ⟨v', hv', -, hc', rfl⟩ h1 h2
    have of : ∀ v, Good v → Bit (real sort) [vecText v] b → b ∈ vbits v := by
      rintro v hv ⟨n, hn, l, e, hb⟩
      rw [List.mem_singleton.1 hn] at e
      have e' : mdExpand (vecText v) = some l := e
      rw [good_expand hv] at e'
      obtain rfl := Option.some.inj e'
      exact hb
    obtain ⟨w, rfl, hs, hb, hw⟩ := bit v hv hc b (of v hv h1)
    obtain ⟨w', e, hs', hb', hw'⟩ := bit v' hv' hc' _ (of v' hv' h2)
    have k1 := split_text hw
    have k2 := split_text hw'
    rw [← e, k1, norm_bit w hb, norm_bit w' hb'] at k2
    obtain rfl := Option.some.inj k2
    rw [sigOf v hv, sigOf v' hv', ← sig_shape v, ← sig_shape v', ← selects_shape hs, ← selects_shape hs']

/-- The names: a text without asterisk that does not begin with `0b`, with groups of indices that are one range, or
ranges from the highest index down. -/
def Name (s : List Char) : Prop :=
  ∃ v, WF v ∧ Inners v ∧ Tidies v ∧ vecText v = s ∧ '*' ∉ s ∧ ∀ cs, s ≠ '0' :: 'b' :: cs

theorem name_named {s : List Char} (h : Name s) : Named s := by
  obtain ⟨v, hw, hi, ht, rfl, hs, hc⟩ := h
  have g := good_of_text hw hi hs hc
  refine ⟨v, g, ht, ?_, rfl⟩
  cases e : isConst v with
  | false => rfl
  | true =>
    obtain ⟨t, rfl, cs, rfl, -⟩ := g.const e
    exact absurd (by simp [vecText, Seg.text]) (hc cs)

/-- The bits of a list of names, as `md_expand_vector` gives them. -/
def HasBit (ns : List (List Char)) (b : List Char) : Prop := ∃ n ∈ ns, ∃ l, mdExpand n = some l ∧ b ∈ l

section
variable (sort : List Vec → List Vec) (hsort : ∀ l, (sort l).Perm l) {vl1 vl2 : List (List Char)}
  (h1 : ∀ n ∈ vl1, Name n) (h2 : ∀ n ∈ vl2, Name n)
include hsort h1 h2

/-- C109: `vec_intersect` gives names with exactly the common bits of two lists of names. -/
theorem c109_intersect_partial {out : List (List Char)} (e : vecIntersect (real sort) vl1 vl2 = some out) (b : List Char) :
    HasBit out b ↔ HasBit vl1 b ∧ HasBit vl2 b :=
  (c109_intersect_of (c109_sound sort hsort) (fun n hn => name_named (h1 n hn)) (fun n hn => name_named (h2 n hn)) e).2 b

/-- C109: `vec_overlap` answers, and decides whether two lists of names have a common bit. -/
theorem c109_overlap_partial :
    ∃ r, vecOverlap (real sort) vl1 vl2 = some r ∧ (r = true ↔ ∃ b, HasBit vl1 b ∧ HasBit vl2 b) :=
  c109_overlap_of (c109_sound sort hsort) (fun n hn => name_named (h1 n hn)) fun n hn => name_named (h2 n hn)

/-- C109: `vec_subtract` gives names with bits of the first list only, among them all that are not in the second list;
no others if, within each class of names with the same signature, the names that extraction makes of the first list do
not share bits. -/
theorem c109_subtract_partial {out : List (List Char)} (e : vecSubtract (real sort) vl1 vl2 = some out) :
    (∀ b, HasBit out b → HasBit vl1 b) ∧ (∀ b, HasBit vl1 b → ¬ HasBit vl2 b → HasBit out b) ∧
    ((∀ s l, mdExtract sort (vl1.filter fun v => decide ((split v).map sig = s)) = some l →
        ∀ n ∈ l, ∀ m ∈ l, ∀ b, HasBit [n] b → HasBit [m] b → n = m) →
      ∀ b, HasBit out b → ¬ HasBit vl2 b) :=
  (c109_subtract_of (c109_sound sort hsort) (fun n hn => name_named (h1 n hn)) (fun n hn => name_named (h2 n hn)) e).2

end

example : vecIntersect (real id) ["x[5:0]".toList, "y[3]".toList] ["x[2]".toList, "x[9:4]".toList, "y[3:2]".toList] =
    some ["y[3]".toList, "x[5:4,2]".toList] := by decide +kernel

example : vecSubtract (real id) ["x[5:0]".toList, "y[3]".toList] ["x[2]".toList, "x[9:4]".toList, "z[3:2]".toList] =
    some ["y[3]".toList, "x[3,1:0]".toList] := by decide +kernel

example : Name "x[5:0]".toList :=
  ⟨[.txt "x[".toList, .idx [⟨5, 0⟩], .txt "]".toList],
    range_wf (base := ['x']) ⟨by decide, by decide, by decide, by decide⟩ (by unfold Inner; decide),
    ⟨by simp [Inner], trivial⟩, ⟨.inr (by simp [Descending]), trivial⟩, by decide +kernel, by decide +kernel,
    by intro cs h; simp at h⟩

end Voss.Vset
