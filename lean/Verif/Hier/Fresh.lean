import Verif.Hier.Subst
import Mathlib.Data.List.Perm.Subperm

namespace Voss.Hier
open Vec

/-! ### Base names -/

theorem split_wf {s : Name} {v : Vec} (h : split s = some v) (he : edge v = false) {b : Vec} (hb : b ∈ expand v) :
    ∃ w, split (vecText b) = some w ∧ baseName w = baseName v := by
  cases hl : splitLoop s.length s with
  | ok v' =>
    unfold split at h
    rw [hl] at h
    simp only [Option.some.injEq] at h
    subst h
    have hw := splitLoop_wf _ _ _ hl
    have hs := (mem_expand v' b).1 hb
    obtain ⟨h1, h2⟩ := selects_bit hs hw he
    refine ⟨b, by rw [split_text h2, norm_bit b h1], ?_⟩
    cases hs <;> rfl
  | bad =>
    have h0 := h
    unfold split at h
    rw [hl] at h
    simp only [Option.some.injEq] at h
    subst h
    simp [expand] at hb
    subst hb
    refine ⟨[.txt s], ?_, rfl⟩
    simpa [vecText, Seg.text] using h0
  | ub =>
    unfold split at h
    rw [hl] at h
    simp at h

/-- The bits of a name have its base name. -/
theorem base_bit {s : Name} {l : List Name} (hc : ¬ IsConstant s) (h : mdExpand s = some l) :
    ∀ b ∈ l, baseOf b = baseOf s := by
  intro b hb
  unfold mdExpand at h
  cases he : expandConstant s with
  | some cl => exact absurd (constant_of he) hc
  | none =>
    rw [he] at h
    simp only at h
    cases hv : split s with
    | none => simp [hv] at h
    | some v =>
      simp only [hv, Option.bind_eq_bind, Option.bind_some] at h
      split at h
      · simp at h
      · rename_i hed
        have := showAll_text _ _ h
        subst this
        simp only [List.mem_map] at hb
        obtain ⟨w, hw, rfl⟩ := hb
        obtain ⟨x, h1, h2⟩ := split_wf hv (by simpa using hed) hw
        simp [baseOf, h1, hv, h2]

theorem vdbOf_mem {ss bs : List Name} (h : vdbOf ss = some bs) : ∀ s ∈ ss, ∃ b ∈ bs, baseOf s = some b := by
  induction ss generalizing bs with
  | nil => simp
  | cons s ss ih =>
    simp only [vdbOf] at h
    cases h1 : baseOf s with
    | none => simp [h1] at h
    | some b =>
      cases h2 : vdbOf ss with
      | none => simp [h1, h2] at h
      | some r =>
        simp only [h1, h2, Option.bind_eq_bind, Option.bind_some, Option.some.injEq] at h
        subst h
        simp only [List.mem_cons, forall_eq_or_imp]
        refine ⟨⟨b, by simp, h1⟩, ?_⟩
        intro x hx
        obtain ⟨y, hy, hy'⟩ := ih h2 x hx
        exact ⟨y, by simp [hy], hy'⟩

/-! ### New prefixes -/

/-- The new name has another prefix than the old one. -/
structure Reprefix (old new pre0 pre tl : Name) : Prop where
  old : old = pre0 ++ tl
  new : new = pre ++ tl
  no0 : '[' ∉ pre0
  no1 : '[' ∉ pre
  star : '*' ∉ pre
  head : pre = pre0 ∨ pre.head? = some '_'

theorem counted_some {s r : Name} {n : Nat} (h : counted s = some (n, r)) :
    ∃ ds, s = '_' :: '$' :: (ds ++ r) ∧ ∀ c ∈ ds, c.isDigit = true := by
  unfold counted at h
  split at h
  · rename_i cs
    split at h
    · simp at h
    · rename_i d ds heq
      simp only [Option.some.injEq, Prod.mk.injEq] at h
      refine ⟨d :: ds, ?_, ?_⟩
      · rw [← h.2, ← heq, List.takeWhile_append_dropWhile]
      · rw [← heq]
        intro c hc
        have := List.all_takeWhile (p := Char.isDigit) (l := cs)
        exact List.all_eq_true.1 this c hc
  · simp at h

theorem digit_plain {c : Char} (h : c.isDigit = true) : c ≠ '[' ∧ c ≠ '*' := by
  constructor <;> rintro rfl <;> simp at h

theorem nextName_reprefix {old new pre0 pre tl : Name} (hs : '*' ∉ old) (h : Reprefix old new pre0 pre tl) :
    ∃ pre0' pre' tl', Reprefix old (nextName old new) pre0' pre' tl' := by
  unfold nextName
  cases hc : counted new with
  | none => exact ⟨[], ['_', '$', '1', '_'], old, rfl, rfl, by simp, by decide, by decide, .inr rfl⟩
  | some x =>
    obtain ⟨n, r⟩ := x
    obtain ⟨ds, hn, hds⟩ := counted_some hc
    have hd2 := digits_isDigit (n + 1)
    have hno : ∀ l : Name, (∀ c ∈ l, c.isDigit = true) → '[' ∉ l ∧ '*' ∉ l := fun l hl =>
      ⟨fun hm => (digit_plain (hl _ hm)).1 rfl, fun hm => (digit_plain (hl _ hm)).2 rfl⟩
    have e1 := hno ds hds
    have e2 := hno _ hd2
    simp only
    have hn' : pre ++ tl = ('_' :: '$' :: ds) ++ r := by rw [← h.new, hn]; simp
    rcases List.append_eq_append_iff.1 hn' with ⟨x, hx1, hx2⟩ | ⟨y, hy1, hy2⟩
    · have hxno : '[' ∉ x := by
        intro hm
        have : '[' ∈ '_' :: '$' :: ds := by rw [hx1]; simp [hm]
        simp [e1.1] at this
      refine ⟨pre0 ++ x, '_' :: '$' :: Nat.toDigits 10 (n + 1), r, ?_, by simp, ?_, ?_, ?_, .inr rfl⟩
      · rw [h.old, hx2]; simp
      · simp [h.no0, hxno]
      · simp [e2.1]
      · simp [e2.2]
    · have hyno : '[' ∉ y := fun hm => h.no1 (by rw [hy1]; simp [hm])
      have hyst : '*' ∉ y := fun hm => h.star (by rw [hy1]; simp [hm])
      refine ⟨pre0, '_' :: '$' :: (Nat.toDigits 10 (n + 1) ++ y), tl, h.old, by rw [hy2]; simp, h.no0, ?_, ?_, .inr rfl⟩
      · simp [e2.1, hyno]
      · simp [e2.2, hyst]

theorem freshName_spec : ∀ (n : Nat) (vdb : List Name) (old new res pre0 pre tl : Name), '*' ∉ old →
    Reprefix old new pre0 pre tl → freshName n vdb old new = some res →
    (∃ pre0 pre tl, Reprefix old res pre0 pre tl) ∧ ∃ b, baseOf res = some b ∧ b ∉ vdb
  | 0, _, _, _, _, _, _, _, _, _, h => by simp [freshName] at h
  | n+1, vdb, old, new, res, pre0, pre, tl, hs, hr, h => by
    simp only [freshName] at h
    cases hb : baseOf new with
    | none => simp [hb] at h
    | some b =>
      simp only [hb, Option.bind_eq_bind, Option.bind_some] at h
      split at h
      · obtain ⟨p0, p, t, hr'⟩ := nextName_reprefix hs hr
        exact freshName_spec n vdb old _ res p0 p t hs hr' h
      · rename_i hn
        simp only [Option.some.injEq] at h
        subst h
        exact ⟨⟨_, _, _, hr⟩, b, hb, hn⟩

theorem text_pre : ∀ (x t : Name), '[' ∉ x → text (x ++ t) = (x ++ (text t).1, (text t).2)
  | [], t, _ => rfl
  | c :: x, t, h => by
    simp only [List.mem_cons, not_or] at h
    have hc : ¬ (c = '[' ∧ (x ++ t = [] ∨ valid .item (x ++ t) = true)) := fun e => h.1 e.1.symm
    rw [List.cons_append, text, if_neg hc, text_pre x t h.2]
    rfl

theorem ends_open {x t u : Name} (hx : '[' ∉ x) (h : x ++ t = u ++ ['[']) : ∃ y, t = y ++ ['['] := by
  rcases List.eq_nil_or_concat t with rfl | ⟨y, c, rfl⟩
  · rw [List.append_nil] at h
    exact absurd (by rw [h]; simp) hx
  · rw [List.concat_eq_append, ← List.append_assoc] at h
    obtain ⟨_, hc⟩ := List.append_inj' h rfl
    simp only [List.cons.injEq, and_true] at hc
    exact ⟨y, by rw [hc, List.concat_eq_append]⟩

/-- Names that differ in the prefix have bits that differ in the prefix. -/
theorem reprefix_bits {old new pre0 pre tl : Name} (ho : Ordinary old) (h : Reprefix old new pre0 pre tl) :
    Ordinary new ∧ ∃ suf : List Name, mdExpand old = some (suf.map (pre0 ++ ·)) ∧ mdExpand new = some (suf.map (pre ++ ·)) := by
  obtain ⟨t, w, h1, h2, h3, h4, h5, h6, h7⟩ := ho
  have htx : Txt t ∧ (w = [] ∨ ((∃ u, t = u ++ ['[']) ∧ ∃ rs v', w = .idx rs :: v')) := by
    rcases h1.1 with ⟨b, rfl, _⟩ | h
    · simp at h7
    · exact h
  have hsplit : ∃ t', t = pre0 ++ t' ∧ tl = t' ++ vecText w := by
    have he : t ++ vecText w = pre0 ++ tl := by rw [← h.old, ← h4]; rfl
    rcases List.append_eq_append_iff.1 he with ⟨x, hx1, hx2⟩ | ⟨y, hy1, hy2⟩
    · rcases htx.2 with rfl | ⟨⟨u, rfl⟩, _⟩
      · simp only [vecText, List.flatMap_nil, List.nil_eq, List.append_eq_nil_iff] at hx2
        exact ⟨[], by rw [hx1, hx2.1]; simp, by rw [hx2.2]; simp [vecText]⟩
      · exact absurd (by rw [hx1]; simp) h.no0
    · exact ⟨y, hy1, hy2⟩
  obtain ⟨t', rfl, htl⟩ := hsplit
  have hwhole : text t' = (t', []) := by
    have := htx.1.whole
    rw [text_pre _ _ h.no0] at this
    simp only [Prod.mk.injEq, List.append_cancel_left_eq] at this
    exact Prod.ext this.1 this.2
  have hnew : vecText (.txt (pre ++ t') :: w) = new := by
    rw [h.new, htl, vecText_cons, Seg.text]
    simp
  have hold : Good (.txt (pre0 ++ t') :: w) := good_of_text h1 h2 (by rw [h4]; exact h5) (by rw [h4]; exact h6)
  have hord : Ordinary new := by
    rcases h.head with he | he
    · subst he
      exact ⟨_, w, h1, h2, h3, hnew, by rw [← hnew, h4]; exact h5, by rw [← hnew, h4]; exact h6, h7⟩
    · obtain ⟨q, rfl⟩ : ∃ q, pre = '_' :: q := by
        cases pre with
        | nil => simp at he
        | cons c q => simp at he; exact ⟨q, by rw [he]⟩
      refine ⟨('_' :: q) ++ t', w, ⟨.inr ⟨⟨by simp, rfl, by simp, ?_⟩, ?_⟩, h1.2⟩, h2, h3, hnew, ?_, ?_, by simp⟩
      · rw [text_pre _ _ h.no1, hwhole]
      · rcases htx.2 with hw | ⟨⟨u, hu⟩, hw⟩
        · exact .inl hw
        · refine .inr ⟨?_, hw⟩
          obtain ⟨x, rfl⟩ := ends_open h.no0 hu
          exact ⟨'_' :: q ++ x, by simp⟩
      · rw [h.new]
        simp only [List.mem_append, not_or]
        refine ⟨h.star, fun hm => h5 ?_⟩
        rw [h.old]
        simp [hm]
      · intro cs hcs
        rw [h.new] at hcs
        simp at hcs
  refine ⟨hord, ?_⟩
  obtain ⟨t2, w2, g1, g2, g3, g4, g5, g6, g7⟩ := hord
  have hbits : ∀ x : Name, Good (.txt x :: w) → (∀ cs, x ++ vecText w ≠ '0' :: 'b' :: cs) →
      mdExpand (x ++ vecText w) = some ((expand w).map fun b => x ++ vecText b) := by
    intro x hg hc
    have := good_expand hg
    rw [vecText_cons, Seg.text] at this
    rw [this]
    congr 1
    rw [vbits_nonconst]
    · simp [expand, vecText_cons, Seg.text, Function.comp_def]
    · cases hk : isConst (Seg.txt x :: w) with
      | false => rfl
      | true =>
        obtain ⟨s, hs, cs, rfl, _⟩ := hg.const hk
        simp only [List.cons.injEq, Seg.txt.injEq] at hs
        exact absurd (by rw [hs.1]; rfl) (hc (cs ++ vecText w))
  have hg2 : Good (.txt (pre ++ t') :: w) := by
    refine good_of_text ?_ h2 (by rw [hnew]; exact g5) (by rw [hnew]; exact g6)
    rcases h.head with he | he
    · rw [he]; exact h1
    · obtain ⟨q, rfl⟩ : ∃ q, pre = '_' :: q := by
        cases pre with
        | nil => simp at he
        | cons c q => simp at he; exact ⟨q, by rw [he]⟩
      refine ⟨.inr ⟨⟨by simp, rfl, by simp, by rw [text_pre _ _ h.no1, hwhole]⟩, ?_⟩, h1.2⟩
      rcases htx.2 with hw | ⟨⟨u, hu⟩, hw⟩
      · exact .inl hw
      · refine .inr ⟨?_, hw⟩
        obtain ⟨x, rfl⟩ := ends_open h.no0 hu
        exact ⟨'_' :: q ++ x, by simp⟩
  refine ⟨(expand w).map fun b => t' ++ vecText b, ?_, ?_⟩
  · have := hbits (pre0 ++ t') hold (by
      intro cs hcs
      refine h6 cs ?_
      rw [← h4, vecText_cons, Seg.text]
      exact hcs)
    rw [h.old, htl, ← List.append_assoc, this]
    simp
  · have := hbits (pre ++ t') hg2 (by
      intro cs hcs
      refine g6 cs ?_
      rw [← hnew, vecText_cons, Seg.text]
      exact hcs)
    rw [h.new, htl, ← List.append_assoc, this]
    simp

theorem ordinary_const {s : Name} (h : Ordinary s) : ¬ IsConstant s := by
  obtain ⟨t, w, h1, h2, h3, h4, h5, h6, h7⟩ := h
  rintro ⟨cs, rfl, _⟩
  exact h6 cs rfl

theorem ordinary_fine {s : Name} (h : Ordinary s) : Fine s := by
  obtain ⟨t, w, h1, h2, h3, h4, h5, h6, h7⟩ := h
  exact proper1_good (.vec _ h1 h2 h3.1 h4 h5 h6)

theorem ordinary_properE {s : Name} (h : Ordinary s) : ProperE s := by
  obtain ⟨t, w, h1, h2, h3, h4, h5, h6, h7⟩ := h
  exact .vec _ h1 h2 h3.2 h4 h5 h6

/-- **The new names are right**: as many bits, distinct, and none with a base name that was in use. -/
theorem renameAll_spec : ∀ (os vdb new : List Name), (∀ o ∈ os, Ordinary o) → renameAll vdb os = some new →
    (∀ n ∈ new, Ordinary n) ∧ ∃ ob nb c, mdExpandAll os = some ob ∧ mdExpandAll new = some nb ∧ ob.length = nb.length ∧
      conn ((os.zip new).map fun x => ⟨x.1, [x.2]⟩) = some c ∧ c = ob.zip nb ∧
      (∀ b ∈ nb, ∀ x, baseOf b = some x → x ∉ vdb) ∧ (∀ b ∈ nb, ∃ x, baseOf b = some x) ∧ (ob.Nodup → nb.Nodup)
  | [], vdb, new, _, h => by
    simp only [renameAll, Option.some.injEq] at h
    subst h
    exact ⟨by simp, [], [], [], rfl, rfl, rfl, rfl, rfl, by simp, by simp, fun h => h⟩
  | o :: os, vdb, new, ho, h => by
    simp only [List.mem_cons, forall_eq_or_imp] at ho
    simp only [renameAll] at h
    cases h1 : freshName (vdb.length + 2) vdb o o with
    | none => simp [h1] at h
    | some n =>
      cases h2 : baseOf n with
      | none => simp [h1, h2] at h
      | some b =>
        cases h3 : renameAll (b :: vdb) os with
        | none => simp [h1, h2, h3] at h
        | some r =>
          simp only [h1, h2, h3, Option.bind_eq_bind, Option.bind_some, Option.some.injEq] at h
          subst h
          have hst : '*' ∉ o := by
            obtain ⟨t, w, _, _, _, _, h5, _⟩ := ho.1
            exact h5
          obtain ⟨⟨pre0, pre, tl, hr⟩, b', hb', hn⟩ := freshName_spec _ vdb o o n [] [] o hst
            ⟨rfl, rfl, by simp, by simp, by simp, .inl rfl⟩ h1
          rw [h2] at hb'
          simp only [Option.some.injEq] at hb'
          subst hb'
          obtain ⟨hon, suf, e1, e2⟩ := reprefix_bits ho.1 hr
          obtain ⟨i1, ob, nb, c, i2, i3, i4, i5, i6, i7, i8, i9⟩ := renameAll_spec os (b :: vdb) r ho.2 h3
          have hbase := base_bit (ordinary_const hon) e2
          refine ⟨by simpa using ⟨hon, i1⟩, suf.map (pre0 ++ ·) ++ ob, suf.map (pre ++ ·) ++ nb,
            (suf.map (pre0 ++ ·)).zip (suf.map (pre ++ ·)) ++ c, ?_, ?_, by simp [i4], ?_, ?_, ?_, ?_, ?_⟩
          · simp only [mdExpandAll, e1, i2]; rfl
          · simp only [mdExpandAll, e2, i3]; rfl
          · simp only [List.zip_cons_cons, List.map_cons, conn, i5]
            have : connPin ⟨o, [n]⟩ = some ((suf.map (pre0 ++ ·)).zip (suf.map (pre ++ ·))) := by
              unfold connPin
              simp [mdExpandAll, e1, e2]
            rw [this]
            rfl
          · rw [i6, List.zip_append (by simp)]
          · intro y hy x hx
            rcases List.mem_append.1 hy with hy | hy
            · rw [hbase y hy, h2] at hx
              simp only [Option.some.injEq] at hx
              subst hx
              exact hn
            · exact fun hm => i7 y hy x hx (List.mem_cons_of_mem _ hm)
          · intro y hy
            rcases List.mem_append.1 hy with hy | hy
            · exact ⟨b, by rw [hbase y hy, h2]⟩
            · exact i8 y hy
          · intro hnd
            rw [List.nodup_append] at hnd ⊢
            refine ⟨?_, i9 hnd.2.1, ?_⟩
            · have := hnd.1
              exact (List.Nodup.of_map _ this).map fun _ _ h => List.append_cancel_left h
            · intro x hx y hy he
              subst he
              refine i7 x hy b ?_ List.mem_cons_self
              rw [hbase x hx, h2]

/-! ### The search for a new name ends -/

theorem takeWhile_open (u x : Name) : (u ++ '[' :: x).takeWhile (· != '[') = u.takeWhile (· != '[') := by
  induction u with
  | nil => simp
  | cons c u ih =>
    simp only [List.cons_append, List.takeWhile_cons]
    split
    · rw [ih]
    · rfl

theorem base_ordinary {s : Name} (h : Ordinary s) : baseOf s = some (s.takeWhile (· != '[')) := by
  obtain ⟨t, w, h1, h2, h3, h4, h5, h6, h7⟩ := h
  have htx : w = [] ∨ ((∃ u, t = u ++ ['[']) ∧ ∃ rs v', w = .idx rs :: v') := by
    rcases h1.1 with ⟨b, rfl, _⟩ | h
    · simp at h7
    · exact h.2
  have hb : baseOf s = some (t.takeWhile (· != '[')) := by
    rw [← h4, baseOf, split_text h1, norm_cons_txt]
    rfl
  rw [hb, ← h4, vecText_cons, Seg.text]
  rcases htx with rfl | ⟨⟨u, rfl⟩, _⟩
  · simp [vecText]
  · rw [List.append_assoc, List.singleton_append, takeWhile_open u [], takeWhile_open u (vecText w)]

/-- The names that are tried from the second one on. -/
def tried (m : Nat) (r : Name) : Name := '_' :: '$' :: (Nat.toDigits 10 m ++ r)

theorem counted_tried (m : Nat) {r : Name} (hr : ∀ c cs, r = c :: cs → c.isDigit = false) :
    counted (tried m r) = some (m, r) := by
  have h1 : (Nat.toDigits 10 m ++ r).takeWhile Char.isDigit = Nat.toDigits 10 m ∧
      (Nat.toDigits 10 m ++ r).dropWhile Char.isDigit = r := by
    exact takeWhile_digits (digits_isDigit m) (fun c hc => by
      cases r with
      | nil => simp at hc
      | cons d ds => simp at hc; exact hc ▸ hr d ds rfl)
  have hne := digits_ne m
  simp only [tried, counted, h1.1, h1.2]
  cases hd : Nat.toDigits 10 m with
  | nil => exact absurd hd hne
  | cons d ds => simp only [← hd, Nat.ofDigitChars_toDigits (by decide : 1 < 10) (by decide)]

theorem tried_base_inj {m n : Nat} {r : Name}
    (h : (tried m r).takeWhile (· != '[') = (tried n r).takeWhile (· != '[')) : m = n := by
  have key : ∀ m : Nat, (tried m r).takeWhile (· != '[') = '_' :: '$' :: (Nat.toDigits 10 m ++ r.takeWhile (· != '[')) := by
    intro m
    have hd := digits_isDigit m
    simp only [tried, List.takeWhile_cons]
    simp only [bne_iff_ne, ne_eq, show ('_' : Char) ≠ '[' by decide, show ('$' : Char) ≠ '[' by decide,
      not_false_eq_true, if_true, List.cons.injEq, true_and]
    rw [List.takeWhile_append_of_pos]
    intro c hc
    simpa using (digit_plain (hd c hc)).1
  rw [key, key] at h
  simp only [List.cons.injEq, true_and, List.append_cancel_right_eq] at h
  have := congrArg (fun l => Nat.ofDigitChars 10 l 0) h
  simpa [Nat.ofDigitChars_toDigits (by decide : 1 < 10) (by decide)] using this

theorem freshName_tried (old : Name) (vdb : List Name) {r : Name} (hr : ∀ c cs, r = c :: cs → c.isDigit = false)
    (ho : ∀ m, Ordinary (tried m r)) : ∀ (n m : Nat), freshName n vdb old (tried m r) = none →
    ∀ i < n, (tried (m + i) r).takeWhile (· != '[') ∈ vdb
  | 0, _, _ => by simp
  | n+1, m, h => by
    simp only [freshName, base_ordinary (ho m), Option.bind_eq_bind, Option.bind_some] at h
    split at h
    · rename_i hm
      have hn : nextName old (tried m r) = tried (m + 1) r := by
        simp only [nextName, counted_tried m hr]
        rfl
      rw [hn] at h
      have ih := freshName_tried old vdb hr ho n (m + 1) h
      intro i hi
      cases i with
      | zero => exact hm
      | succ i =>
        have := ih i (by omega)
        rwa [show m + 1 + i = m + (i + 1) by omega] at this
    · simp at h

theorem freshName_total {old : Name} (ho : Ordinary old) (vdb : List Name) :
    ∃ new, freshName (vdb.length + 2) vdb old old = some new := by
  cases hf : freshName (vdb.length + 2) vdb old old with
  | some new => exact ⟨new, rfl⟩
  | none =>
    exfalso
    have hst : '*' ∉ old := by
      obtain ⟨t, w, _, _, _, _, h5, _⟩ := ho
      exact h5
    rw [show vdb.length + 2 = (vdb.length + 1) + 1 by rfl, freshName, base_ordinary ho] at hf
    simp only [Option.bind_eq_bind, Option.bind_some] at hf
    split at hf
    · -- the second name
      have hex : ∃ m r, nextName old old = tried m r ∧ (∀ c cs, r = c :: cs → c.isDigit = false) ∧
          ∀ n, Ordinary (tried n r) := by
        cases hc : counted old with
        | none =>
          refine ⟨1, '_' :: old, ?_, ?_, ?_⟩
          · simp [nextName, hc, tried, show Nat.toDigits 10 1 = ['1'] from rfl]
          · intro c cs h
            simp only [List.cons.injEq] at h
            rw [← h.1]
            decide
          · intro n
            have hd := digits_isDigit n
            refine (reprefix_bits ho (pre0 := []) (pre := '_' :: '$' :: (Nat.toDigits 10 n ++ ['_'])) (tl := old)
              ⟨rfl, by simp [tried], by simp, ?_, ?_, .inr rfl⟩).1
            · simp only [List.mem_cons, List.mem_append, not_or, List.not_mem_nil, not_false_eq_true, and_true]
              exact ⟨by decide, by decide, fun h => (digit_plain (hd _ h)).1 rfl, by decide⟩
            · simp only [List.mem_cons, List.mem_append, not_or, List.not_mem_nil, not_false_eq_true, and_true]
              exact ⟨by decide, by decide, fun h => (digit_plain (hd _ h)).2 rfl, by decide⟩
        | some x =>
          obtain ⟨k, r⟩ := x
          obtain ⟨ds, hn, hds⟩ := counted_some hc
          refine ⟨k + 1, r, by simp [nextName, hc, tried], ?_, ?_⟩
          · intro c cs h
            subst h
            unfold counted at hc
            rw [hn] at hc
            simp only at hc
            split at hc
            · simp at hc
            · simp only [Option.some.injEq, Prod.mk.injEq] at hc
              have := List.head?_dropWhile_not (p := Char.isDigit) (l := ds ++ c :: cs)
              rw [hc.2] at this
              simpa using this
          · intro n
            have hd := digits_isDigit n
            refine (reprefix_bits ho (pre0 := '_' :: '$' :: ds) (pre := '_' :: '$' :: Nat.toDigits 10 n) (tl := r)
              ⟨by rw [hn]; simp, by simp [tried], ?_, ?_, ?_, .inr rfl⟩).1
            · simp only [List.mem_cons, not_or]
              exact ⟨by decide, by decide, fun h => (digit_plain (hds _ h)).1 rfl⟩
            · simp only [List.mem_cons, not_or]
              exact ⟨by decide, by decide, fun h => (digit_plain (hd _ h)).1 rfl⟩
            · simp only [List.mem_cons, not_or]
              exact ⟨by decide, by decide, fun h => (digit_plain (hd _ h)).2 rfl⟩
      obtain ⟨m, r, hn, hr, hor⟩ := hex
      rw [hn] at hf
      have hall := freshName_tried old vdb hr hor (vdb.length + 1) m hf
      have hsub : (List.range (vdb.length + 1)).map (fun i => (tried (m + i) r).takeWhile (· != '[')) ⊆ vdb := by
        intro b hb
        obtain ⟨i, hi, rfl⟩ := List.mem_map.1 hb
        exact hall i (List.mem_range.1 hi)
      have hnd : ((List.range (vdb.length + 1)).map (fun i => (tried (m + i) r).takeWhile (· != '['))).Nodup := by
        refine List.Nodup.map ?_ List.nodup_range
        intro i j h
        have := tried_base_inj h
        omega
      have := (List.Nodup.subperm hnd hsub).length_le
      simp only [List.length_map, List.length_range] at this
      omega
    · simp at hf

/-- New names are found for all internals. -/
theorem renameAll_total : ∀ (os vdb : List Name), (∀ o ∈ os, Ordinary o) → ∃ new, renameAll vdb os = some new
  | [], vdb, _ => ⟨[], rfl⟩
  | o :: os, vdb, h => by
    simp only [List.mem_cons, forall_eq_or_imp] at h
    obtain ⟨n, hn⟩ := freshName_total h.1 vdb
    have hst : '*' ∉ o := by
      obtain ⟨t, w, _, _, _, _, h5, _⟩ := h.1
      exact h5
    obtain ⟨_, b, hb, _⟩ := freshName_spec _ vdb o o n [] [] o hst
      ⟨rfl, rfl, by simp, by simp, by simp, .inl rfl⟩ hn
    obtain ⟨r, hr⟩ := renameAll_total os (b :: vdb) h.2
    exact ⟨n :: r, by simp [renameAll, hn, hb, hr]⟩

end Voss.Hier
