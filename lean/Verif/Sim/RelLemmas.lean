import Verif.Sim.Spec
import Mathlib.Data.List.Forall2
/-
Every primitive except the lattice comparison preserves any relation between two kinds of handles that is
preserved by the constants, AND and OR.  Exactness under an assignment, monotonicity and the effect of
size limited operations are instances.
-/
namespace Voss.Sim

/-- The relation is preserved by the constants, AND and OR. -/
structure RelOps {F G : Type} (R : F → G → Prop) (o : Ops F) (o' : Ops G) : Prop where
  zero : R o.zero o'.zero
  one : R o.one o'.one
  and : ∀ {a b a' b'}, R a a' → R b b' → R (o.and a b) (o'.and a' b')
  or : ∀ {a b a' b'}, R a a' → R b b' → R (o.or a b) (o'.or a' b')

variable {F G : Type} {R : F → G → Prop} {o : Ops F} {o' : Ops G}

/-- The relation on pairs and words. -/
def RD (R : F → G → Prop) (a : DR F) (b : DR G) : Prop := R a.h b.h ∧ R a.l b.l
abbrev RW (R : F → G → Prop) (as : List (DR F)) (bs : List (DR G)) : Prop := List.Forall₂ (RD R) as bs

theorem rd_dr0 (H : RelOps R o o') : RD R (dr0 o) (dr0 o') := ⟨H.zero, H.one⟩
theorem rd_dr1 (H : RelOps R o o') : RD R (dr1 o) (dr1 o') := ⟨H.one, H.zero⟩
theorem rd_drX (H : RelOps R o o') : RD R (drX o) (drX o') := ⟨H.one, H.one⟩
theorem rd_swap {a : DR F} {b : DR G} (h : RD R a b) : RD R a.swap b.swap := ⟨h.2, h.1⟩

theorem rw_map {f : DR F → DR F} {g : DR G → DR G} (hfg : ∀ {a b}, RD R a b → RD R (f a) (g b)) {as bs}
    (h : RW R as bs) : RW R (as.map f) (bs.map g) := by
  induction h with
  | nil => simp
  | cons h1 _ ih => exact .cons (hfg h1) ih

theorem rw_zipWith {f : DR F → DR F → DR F} {g : DR G → DR G → DR G}
    (hfg : ∀ {a b a' b'}, RD R a a' → RD R b b' → RD R (f a b) (g a' b')) {as bs as' bs'}
    (h : RW R as as') (h2 : RW R bs bs') : RW R (List.zipWith f as bs) (List.zipWith g as' bs') := by
  induction h generalizing bs bs' with
  | nil => simp
  | cons h1 _ ih =>
    cases h2 with
    | nil => simp
    | cons h3 h4 => exact .cons (hfg h1 h3) (ih h4)

theorem rw_take {as : List (DR F)} {bs} (n : Nat) (h : RW R as bs) : RW R (as.take n) (bs.take n) := List.forall₂_take n h
theorem rw_drop {as : List (DR F)} {bs} (n : Nat) (h : RW R as bs) : RW R (as.drop n) (bs.drop n) := List.forall₂_drop n h
theorem rw_replicate {a : DR F} {b : DR G} (n : Nat) (h : RD R a b) : RW R (List.replicate n a) (List.replicate n b) := by
  induction n with
  | zero => simp
  | succ n ih => exact .cons h ih
theorem rw_append {as bs : List (DR F)} {as' bs' : List (DR G)} (h : RW R as as') (h2 : RW R bs bs') :
    RW R (as ++ bs) (as' ++ bs') := List.rel_append h h2
theorem rw_getD {as : List (DR F)} {bs : List (DR G)} (h : RW R as bs) (i : Nat) {x : DR F} {y : DR G} (hx : RD R x y) :
    RD R (as.getD i x) (bs.getD i y) := by
  induction h generalizing i with
  | nil => simpa
  | cons h1 _ ih => cases i with
    | zero => simpa
    | succ i => simpa using ih i
theorem rw_headD {as : List (DR F)} {bs : List (DR G)} (h : RW R as bs) {x : DR F} {y : DR G} (hx : RD R x y) :
    RD R (as.headD x) (bs.headD y) := by cases h <;> simpa

theorem rw_mapNat {f : Nat → DR F} {g : Nat → DR G} (l : List Nat) (h : ∀ i, RD R (f i) (g i)) : RW R (l.map f) (l.map g) := by
  induction l with
  | nil => simp
  | cons a l ih => exact .cons (h a) ih

theorem rd_cmpCell (H : RelOps R o o') {a b g : DR F} {a' b' g' : DR G} (h1 : RD R a a') (h2 : RD R b b') (h3 : RD R g g') :
    RD R (cmpCell o a b g) (cmpCell o' a' b' g') :=
  ⟨H.or (H.and h1.1 h2.2) (H.and (H.or h1.1 h2.2) h3.1), H.and (H.or h1.2 h2.1) (H.or (H.and h1.2 h2.1) h3.2)⟩

theorem rd_cmpFn (H : RelOps R o o') {i : DR F} {i' : DR G} (hi : RD R i i') {as bs : List (DR F)} {as' bs' : List (DR G)}
    (h1 : RW R as as') (h2 : RW R bs bs') : RD R (cmpFn o i as bs) (cmpFn o' i' as' bs') := by
  induction h1 generalizing bs bs' with
  | nil => simpa [cmpFn]
  | cons h _ ih => cases h2 with
    | nil => simpa [cmpFn]
    | cons h3 h4 => exact rd_cmpCell H h h3 (ih h4)

theorem rd_sumCell (H : RelOps R o o') {a b g : DR F} {a' b' g' : DR G} (h1 : RD R a a') (h2 : RD R b b') (h3 : RD R g g') :
    RD R (sumCell o a b g) (sumCell o' a' b' g') :=
  ⟨H.or (H.and (H.or (H.and h1.1 h2.2) (H.and h1.2 h2.1)) h3.2) (H.and (H.and (H.or h1.2 h2.1) (H.or h1.1 h2.2)) h3.1),
   H.and (H.or (H.and (H.or h1.2 h2.1) (H.or h1.1 h2.2)) h3.1) (H.or (H.or (H.and h1.1 h2.2) (H.and h1.2 h2.1)) h3.2)⟩

theorem rd_carryCell (H : RelOps R o o') {a b g : DR F} {a' b' g' : DR G} (h1 : RD R a a') (h2 : RD R b b') (h3 : RD R g g') :
    RD R (carryCell o a b g) (carryCell o' a' b' g') :=
  ⟨H.or (H.or (H.and h1.1 h2.1) (H.and h1.1 h3.1)) (H.and h2.1 h3.1),
   H.and (H.and (H.or h1.2 h2.2) (H.or h1.2 h3.2)) (H.or h2.2 h3.2)⟩

theorem rw_ripple (H : RelOps R o o') {i : DR F} {i' : DR G} (hi : RD R i i') {as bs : List (DR F)} {as' bs' : List (DR G)}
    (h1 : RW R as as') (h2 : RW R bs bs') :
    RW R (ripple o i as bs).1 (ripple o' i' as' bs').1 ∧ RD R (ripple o i as bs).2 (ripple o' i' as' bs').2 := by
  induction h1 generalizing bs bs' with
  | nil => exact ⟨.nil, hi⟩
  | cons h _ ih => cases h2 with
    | nil => exact ⟨.nil, hi⟩
    | cons h3 h4 => exact ⟨.cons (rd_sumCell H h h3 (ih h4).2) (ih h4).1, rd_carryCell H h h3 (ih h4).2⟩

theorem rw_subFn (H : RelOps R o o') {as bs : List (DR F)} {as' bs' : List (DR G)}
    (h1 : RW R as as') (h2 : RW R bs bs') : RW R (subFn o as bs) (subFn o' as' bs') :=
  (rw_ripple H (rd_dr1 H) h1 (rw_map rd_swap h2)).1

theorem rd_iteCell (H : RelOps R o o') {c a b : DR F} {c' a' b' : DR G} (h1 : RD R c c') (h2 : RD R a a') (h3 : RD R b b') :
    RD R (iteCell o c a b) (iteCell o' c' a' b') :=
  ⟨H.or (H.or (H.and h2.1 h3.1) (H.and h1.1 h2.1)) (H.and h1.2 h3.1),
   H.and (H.and (H.or h2.2 h3.2) (H.or h1.2 h2.2)) (H.or h1.1 h3.2)⟩

theorem rd_iteCellQuick (H : RelOps R o o') {c a b : DR F} {c' a' b' : DR G} (h1 : RD R c c') (h2 : RD R a a') (h3 : RD R b b') :
    RD R (iteCellQuick o c a b) (iteCellQuick o' c' a' b') :=
  ⟨H.or (H.and h1.1 h2.1) (H.and h1.2 h3.1), H.and (H.or h1.2 h2.2) (H.or h1.1 h3.2)⟩

theorem rw_iteFn (H : RelOps R o o') {c : DR F} {c' : DR G} (hc : RD R c c') {as bs : List (DR F)} {as' bs' : List (DR G)}
    (h1 : RW R as as') (h2 : RW R bs bs') : RW R (iteFn o c as bs) (iteFn o' c' as' bs') :=
  rw_zipWith (fun h h' => rd_iteCell H hc h h') h1 h2

theorem rw_shiftIn {v : List (DR F)} {v' : List (DR G)} {i i'} (h : RW R v v') (hi : RD R i i') :
    RW R (shiftIn v i) (shiftIn v' i') := rw_append (rw_drop 1 h) (.cons hi .nil)

theorem rw_divMod (H : RelOps R o o') {as bs : List (DR F)} {as' bs' : List (DR G)}
    (h1 : RW R as as') (h2 : RW R bs bs') :
    RW R (divMod o as bs).1 (divMod o' as' bs').1 ∧ RW R (divMod o as bs).2 (divMod o' as' bs').2 := by
  unfold divMod
  have hl : as.length = as'.length := h1.length_eq
  rw [hl]
  generalize as'.length = n
  have key : ∀ {q r : List (DR F)} {q' r' : List (DR G)}, RW R q q' → RW R r r' →
      RW R (as.foldl (divStep o bs) (q, r)).1 (as'.foldl (divStep o' bs') (q', r')).1 ∧
      RW R (as.foldl (divStep o bs) (q, r)).2 (as'.foldl (divStep o' bs') (q', r')).2 := by
    clear hl
    induction h1 with
    | nil => intro q r q' r' h3 h4; exact ⟨h3, h4⟩
    | cons h _ ih =>
      intro q r q' r' h3 h4
      have hr2 := rw_shiftIn h4 h
      have hc : RD R _ _ := rd_cmpFn H (rd_dr1 H) hr2 h2
      exact ih (rw_shiftIn h3 hc) (rw_iteFn H hc (rw_subFn H hr2 h2) hr2)
  exact key (rw_replicate n (rd_dr0 H)) (rw_replicate n (rd_dr0 H))

theorem rw_partial1 (H : RelOps R o o') (k : Nat) {b : DR F} {b' : DR G} (hb : RD R b b') {as : List (DR F)} {as' : List (DR G)}
    (h : RW R as as') : RW R (partial1 o k b as) (partial1 o' k b' as') := by
  unfold partial1
  rw [h.length_eq]
  exact rw_append (rw_map (fun h => ⟨H.and hb.1 h.1, H.or hb.2 h.2⟩) (rw_drop k h)) (rw_replicate _ (rd_dr0 H))

theorem rw_mulFn (H : RelOps R o o') {as bs : List (DR F)} {as' bs' : List (DR G)}
    (h1 : RW R as as') (h2 : RW R bs bs') : RW R (mulFn o as bs) (mulFn o' as' bs') := by
  induction h2 with
  | nil => rw [mulFn, mulFn, h1.length_eq]; exact rw_replicate _ (rd_dr0 H)
  | cons h h3 ih =>
    rw [mulFn, mulFn, List.Forall₂.length_eq h3]
    exact (rw_ripple H (rd_dr0 H) (rw_partial1 H _ h h1) ih).1

theorem rw_sshlFun (H : RelOps R o o') (cnt : Nat) {v : List (DR F)} {v' : List (DR G)} (h : RW R v v') :
    RW R (sshlFun o v cnt) (sshlFun o' v' cnt) := by
  unfold sshlFun
  rw [h.length_eq]
  apply rw_mapNat
  intro i
  dsimp only
  split
  · exact rd_dr0 H
  · exact rw_getD h _ (rd_dr0 H)

theorem rw_shlLoop (H : RelOps R o o') {v bs : List (DR F)} {v' bs' : List (DR G)} (h : RW R v v') (h2 : RW R bs bs') :
    RW R (shlLoop o v bs) (shlLoop o' v' bs') := by
  induction h2 with
  | nil => exact h
  | cons h1 h3 ih =>
    rw [shlLoop, shlLoop, List.Forall₂.length_eq h3]
    exact rw_iteFn H h1 (rw_sshlFun H _ ih) ih

/-- Both undefined, or both defined with related words. -/
def RO (R : F → G → Prop) (x : Option (List (DR F))) (y : Option (List (DR G))) : Prop :=
  (x = none ∧ y = none) ∨ ∃ v w, x = some v ∧ y = some w ∧ RW R v w

theorem RO.some {v : List (DR F)} {w : List (DR G)} (h : RW R v w) : RO R (some v) (some w) := Or.inr ⟨v, w, rfl, rfl, h⟩
theorem RO.none : RO R none none := Or.inl ⟨rfl, rfl⟩

theorem ro_sshrFun (cnt : Nat) {v : List (DR F)} {v' : List (DR G)} (h : RW R v v') {f : DR F} {f' : DR G} (hf : RD R f f') :
    RO R (sshrFun v cnt f) (sshrFun v' cnt f') := by
  unfold sshrFun
  rw [h.length_eq]
  split
  · exact .none
  · apply RO.some
    apply rw_mapNat
    intro i
    dsimp only
    split
    · exact hf
    · exact rw_getD h _ hf

theorem ro_shrLoop (H : RelOps R o o') (ar : Bool) {v bs : List (DR F)} {v' bs' : List (DR G)} (h : RW R v v') (h2 : RW R bs bs') :
    RO R (shrLoop o ar v bs) (shrLoop o' ar v' bs') := by
  induction h2 with
  | nil => exact .some h
  | cons h1 h3 ih =>
    rw [shrLoop, shrLoop, List.Forall₂.length_eq h3]
    rcases ih with ⟨e1, e2⟩ | ⟨c, c', e1, e2, hc⟩
    · rw [e1, e2]; exact .none
    · rw [e1, e2]
      simp only [Option.bind_eq_bind, Option.bind_some]
      have hf : RD R (if ar then c.headD (dr0 o) else dr0 o) (if ar then c'.headD (dr0 o') else dr0 o') := by
        cases ar
        · exact rd_dr0 H
        · exact rw_headD hc (rd_dr0 H)
      rcases ro_sshrFun (shiftAmt _) hc hf with ⟨e3, e4⟩ | ⟨t, t', e3, e4, ht⟩
      · rw [e3, e4]; exact .none
      · rw [e3, e4]; exact .some (rw_iteFn H h1 ht hc)

theorem rw_extend (n : Nat) {f : DR F} {f' : DR G} (hf : RD R f f') {v : List (DR F)} {v' : List (DR G)} (h : RW R v v') :
    RW R (extend n f v) (extend n f' v') := by
  unfold extend
  rw [h.length_eq]
  exact rw_append (rw_replicate _ hf) (rw_drop _ h)

theorem rd_lineSel (H : RelOps R o o') (k : Nat) {a : List (DR F)} {a' : List (DR G)} (h : RW R a a') :
    RD R (lineSel o k a).1 (lineSel o' k a').1 ∧ (lineSel o k a).2 = (lineSel o' k a').2 := by
  induction h with
  | nil => exact ⟨rd_dr1 H, rfl⟩
  | cons h1 _ ih =>
    simp only [lineSel, ih.2, and_true]
    split
    · exact ⟨H.and ih.1.1 h1.1, H.or ih.1.2 h1.2⟩
    · exact ⟨H.and ih.1.1 h1.2, H.or ih.1.2 h1.1⟩

theorem rw_memLine (n d k : Nat) {m : List (DR F)} {m' : List (DR G)} (h : RW R m m') :
    RW R (memLine n d k m) (memLine n d k m') := rw_take _ (rw_drop _ h)

theorem rw_memRead (H : RelOps R o o') (n d : Nat) {a m : List (DR F)} {a' m' : List (DR G)} (h : RW R a a') (h2 : RW R m m') :
    RW R (memReadFn o n d a m) (memReadFn o' n d a' m') := by
  unfold memReadFn
  have key : ∀ (l : List Nat) {x : List (DR F)} {y : List (DR G)}, RW R x y →
      RW R (l.foldl (fun out line => iteFn o (lineSel o line a).1 (memLine n d line m) out) x)
        (l.foldl (fun out line => iteFn o' (lineSel o' line a').1 (memLine n d line m') out) y) := by
    intro l
    induction l with
    | nil => intro x y h; exact h
    | cons k l ih => intro x y hxy; exact ih (rw_iteFn H (rd_lineSel H k h).1 (rw_memLine n d k h2) hxy)
  exact key _ (rw_replicate d (rd_drX H))

theorem rw_memWrite (H : RelOps R o o') (n d : Nat) {a dt m : List (DR F)} {a' dt' m' : List (DR G)} (h : RW R a a') (h1 : RW R dt dt')
    (h2 : RW R m m') : RW R (memWriteFn o n d a dt m) (memWriteFn o' n d a' dt' m') := by
  unfold memWriteFn
  induction (List.range n).reverse with
  | nil => simp
  | cons k l ih =>
    simp only [List.map_cons, List.flatten_cons]
    exact rw_append (rw_iteFn H (rd_lineSel H k h).1 h1 (rw_memLine n d k h2)) ih

theorem rw_set {a : List (DR F)} {b : List (DR G)} (h : RW R a b) (i : Nat) {x : DR F} {y : DR G} (hx : RD R x y) :
    RW R (a.set i x) (b.set i y) := by
  induction h generalizing i with
  | nil => simp
  | cons h1 h2 ih => cases i with
    | zero => exact .cons hx h2
    | succ i => exact .cons h1 (ih i)

theorem rw_updFn (idxs : List Nat) {a b : List (DR F)} {a' b' : List (DR G)} (h : RW R a a') (h2 : RW R b b') :
    RW R (updFn a idxs b) (updFn a' idxs b') := by
  unfold updFn
  induction h2 generalizing idxs a a' with
  | nil => simpa
  | cons h1 _ ih => cases idxs with
    | nil => simpa
    | cons i l => exact ih l (rw_set h i h1)

theorem r_foldl (f : F → F → F) (g : G → G → G) (hfg : ∀ {a b a' b'}, R a a' → R b b' → R (f a b) (g a' b')) {l : List F} {l' : List G}
    (h : List.Forall₂ R l l') {x : F} {y : G} (hx : R x y) : R (l.foldl f x) (l'.foldl g y) := by
  induction h generalizing x y with
  | nil => exact hx
  | cons h1 _ ih => exact ih (hfg hx h1)

theorem r_idelayRail (H : RelOps R o o') (m M : Nat) {c : F} {c' : G} (hc : R c c') {l : List F} {l' : List G} (h : List.Forall₂ R l l') :
    R (idelayRail o m M c l) (idelayRail o' m M c' l') :=
  H.or (r_foldl _ _ H.and (List.forall₂_take m h) H.one) (H.and hc (r_foldl _ _ H.or (List.forall₂_take M h) H.zero))

theorem rd_idelayBit (H : RelOps R o o') (mr Mr mf Mf : Nat) {c : DR F} {c' : DR G} (hc : RD R c c') {l : List (DR F)} {l' : List (DR G)}
    (h : RW R l l') : RD R (idelayBit o mr Mr mf Mf c l) (idelayBit o' mr Mr mf Mf c' l') := by
  refine ⟨r_idelayRail H mr Mf hc.1 ?_, r_idelayRail H mf Mr hc.2 ?_⟩
  · exact List.forall₂_map_left_iff.2 (List.forall₂_map_right_iff.2 (h.imp fun _ _ h => h.1))
  · exact List.forall₂_map_left_iff.2 (List.forall₂_map_right_iff.2 (h.imp fun _ _ h => h.2))

theorem ro_constLoop (H : RelOps R o o') (v : List Arbi.W) : ∀ (n : Nat) (p : List Arbi.W) {a : List (DR F)} {a' : List (DR G)},
    RW R a a' → RO R (constLoop o v n p a) (constLoop o' v n p a')
  | 0, _, _, _, h => .some h
  | n+1, p, a, a', h => by
    rw [constLoop, constLoop]
    split
    · refine ro_constLoop H v n _ (.cons ?_ h)
      split
      · exact rd_dr1 H
      · exact rd_dr0 H
    · exact .none

theorem rd_eqFold (H : RelOps R o o') {as bs : List (DR F)} {as' bs' : List (DR G)} (h1 : RW R as as') (h2 : RW R bs bs')
    {x : DR F} {y : DR G} (hx : RD R x y) : RD R ((as.zip bs).foldl (eqCell o) x) ((as'.zip bs').foldl (eqCell o') y) := by
  induction h1 generalizing bs bs' x y with
  | nil => simpa
  | cons h _ ih => cases h2 with
    | nil => simpa
    | cons h3 h4 =>
      exact ih h4 ⟨H.and (H.or (H.and h.1 h3.1) (H.and h.2 h3.2)) hx.1, H.or (H.and (H.or h.2 h3.2) (H.or h.1 h3.1)) hx.2⟩

/-- Every primitive other than the lattice comparison preserves the relation. -/
theorem eval_rel (H : RelOps R o o') (p : Prim) (hp : p ≠ .latLeq) (size : Nat) {inps : List (DR F)} {inps' : List (DR G)}
    (h : RW R inps inps') : RO R (p.eval o size inps) (p.eval o' size inps') := by
  unfold Prim.eval
  rw [h.length_eq]
  split
  · exact .none
  have ha := rw_take size h
  have hb := rw_take size (rw_drop size h)
  cases p with
  | latLeq => exact absurd rfl hp
  | unknown => exact .some (rw_replicate _ (rd_drX H))
  | const v => exact ro_constLoop H v size _ .nil
  | wire => exact .some ha
  | and => exact .some (rw_zipWith (fun h h' => ⟨H.and h.1 h'.1, H.or h.2 h'.2⟩) ha hb)
  | or => exact .some (rw_zipWith (fun h h' => ⟨H.or h.1 h'.1, H.and h.2 h'.2⟩) ha hb)
  | not => exact .some (rw_map rd_swap ha)
  | idelay mr Mr mf Mf =>
    refine .some (rw_mapNat _ fun i => rd_idelayBit H mr Mr mf Mf (rw_getD h i (rd_drX H)) ?_)
    unfold samples
    rw [h.length_eq]
    exact rw_mapNat _ fun k => rw_getD h _ (rd_drX H)
  | eq n => exact .some (.cons (rd_eqFold H (rw_take n h) (rw_take n (rw_drop n h)) (rd_dr1 H)) .nil)
  | gr n => exact .some (.cons (rd_cmpFn H (rd_dr0 H) (rw_take n h) (rw_take n (rw_drop n h))) .nil)
  | add => exact .some (rw_ripple H (rd_dr0 H) ha hb).1
  | sub => exact .some (rw_subFn H ha hb)
  | mul => exact .some (rw_mulFn H ha hb)
  | div => exact .some (rw_divMod H ha hb).1
  | mod => exact .some (rw_divMod H ha hb).2
  | shl => exact .some (rw_shlLoop H ha hb)
  | shr => exact ro_shrLoop H false ha hb
  | ashr => exact ro_shrLoop H true ha hb
  | ite acc =>
    cases h with
    | nil => exact .none
    | cons h1 h2 =>
      refine .some (rw_zipWith ?_ (rw_take size h2) (rw_take size (rw_drop size h2)))
      intro a b a' b' h3 h4
      cases acc
      · exact rd_iteCellQuick H h1 h3 h4
      · exact rd_iteCell H h1 h3 h4
  | sx n =>
    dsimp only; split
    · exact .none
    · exact .some (rw_extend size (rw_headD h (rd_drX H)) (rw_take n h))
  | zx n => exact .some (rw_extend size (rd_dr0 H) (rw_take n h))
  | slice idxs =>
    dsimp only; split
    · exact .none
    · exact .some (rw_mapNat _ fun i => rw_getD h i (rd_drX H))
  | updSlice idxs =>
    dsimp only; split
    · exact .none
    · exact .some (rw_updFn idxs ha (rw_take _ (rw_drop size h)))
  | memRead asz n d =>
    dsimp only; split
    · exact .none
    · exact .some (rw_memRead H n d (rw_take asz h) (rw_take _ (rw_drop asz h)))
  | memWrite asz n d =>
    dsimp only; split
    · exact .none
    · exact .some (rw_memWrite H n d (rw_take asz h) (rw_take _ (rw_drop asz h)) (rw_take _ (rw_drop _ h)))

end Voss.Sim
