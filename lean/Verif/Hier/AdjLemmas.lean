import Verif.Hier.Subst
import Verif.Hier.AdjSpec

namespace Voss.Hier
open Vec

/-! ### Overlaps -/

theorem sig_shape : ∀ {v w : Vec}, shape v = shape w → sig v = sig w
  | [], w, h => by
    rw [shape_nil (w := w) h.symm]
  | .txt s :: v, w, h => by
    rw [shape_txt] at h
    obtain ⟨w', rfl, hw⟩ := shape_txt_inv h.symm
    simp only [sig]
    rw [sig_shape hw.symm]
  | .idx rs :: v, w, h => by
    rw [shape_idx] at h
    obtain ⟨r, w', rfl, hw⟩ := shape_idx_inv h.symm
    simp only [sig]
    rw [sig_shape hw.symm]

theorem overlap_common : ∀ {v w : Vec}, shape v = shape w → Singles v → Singles w → overlap v w = true →
    ∃ b, b ∈ expand v ∧ b ∈ expand w
  | [], w, h, _, _, _ => by
    rw [shape_nil (w := w) h.symm]
    exact ⟨[], by simp [expand], by simp [expand]⟩
  | .txt s :: v, w, h, hv, hw, ho => by
    rw [shape_txt] at h
    obtain ⟨w', rfl, hsh⟩ := shape_txt_inv h.symm
    simp only [overlap, ne_eq, not_true_eq_false, if_false] at ho
    obtain ⟨b, h1, h2⟩ := overlap_common hsh.symm hv hw ho
    exact ⟨.txt s :: b, by simp [expand, h1], by simp [expand, h2]⟩
  | .idx rs :: v, w, h, hv, hw, ho => by
    rw [shape_idx] at h
    obtain ⟨ss, w', rfl, hsh⟩ := shape_idx_inv h.symm
    obtain ⟨⟨r, rfl, hr⟩, hv⟩ := hv
    obtain ⟨⟨s, rfl, hs⟩, hw⟩ := hw
    simp only [overlap] at ho
    split at ho
    · rename_i hov
      obtain ⟨b, h1, h2⟩ := overlap_common hsh.symm hv hw ho
      simp only [overlapRngs] at hov
      split at hov
      · simp at hov
      · rename_i hc
        simp only [not_not] at hc
        refine ⟨.idx [⟨max r.lo s.lo, max r.lo s.lo⟩] :: b, ?_, ?_⟩
        · simp only [expand, List.flatMap_cons, List.flatMap_nil, List.append_nil, List.mem_flatMap, List.mem_map]
          exact ⟨_, (mem_bits r _).2 (by omega), b, h1, rfl⟩
        · simp only [expand, List.flatMap_cons, List.flatMap_nil, List.append_nil, List.mem_flatMap, List.mem_map]
          exact ⟨_, (mem_bits s _).2 (by omega), b, h2, rfl⟩
    · simp at ho

theorem common_overlap : ∀ {v w b : Vec}, Singles v → Singles w → Selects v b → Selects w b → overlap v w = true
  | [], [], _, _, _, _, _ => rfl
  | .txt s :: v, w, b, hv, hw, h1, h2 => by
    cases h1 with
    | txt _ _ b h1 =>
      cases h2 with
      | txt _ w _ h2 => simp [overlap, common_overlap (v := v) (w := w) (by simpa [Singles] using hv) (by simpa [Singles] using hw) h1 h2]
  | .idx rs :: v, w, b, hv, hw, h1, h2 => by
    obtain ⟨⟨r, rfl, hr⟩, hv⟩ := hv
    cases h1 with
    | idx _ _ b r' i hr' hi h1 =>
      cases h2 with
      | idx ss w _ s' _ hs' hi' h2 =>
        obtain ⟨⟨s, rfl, hs⟩, hw⟩ := hw
        simp only [List.mem_singleton] at hr' hs'
        subst hr'
        subst hs'
        have : r'.lo ≤ s'.up ∧ s'.lo ≤ r'.up := by omega
        simp [overlap, overlapRngs, this, common_overlap hv hw h1 h2]
  | [], _ :: _, _, _, _, h1, h2 => by
    cases h1
    cases h2

/-- The vector of a name. -/
structure NameVec (s : Name) (v : Vec) : Prop where
  split : split s = some v
  text : vecText v = s
  good : Good v
  singles : Singles v

theorem norm_singles : ∀ v : Vec, Singles v → norm v = v
  | [], _ => rfl
  | .txt s :: v, h => by rw [norm_cons_txt, norm_singles v h]
  | .idx rs :: v, h => by
    obtain ⟨⟨r, rfl, hr⟩, hv⟩ := h
    rw [norm_cons_idx, norm_singles v hv]
    rfl

theorem single_vec {s : Name} (h : Single s) : ∃ v, NameVec s v ∧ isConst v = false := by
  obtain ⟨v, h1, h2, h3, h4, h5, h6⟩ := h
  subst h4
  have hg := good_of_text h1 h2 h5 h6
  refine ⟨v, ⟨by rw [split_text h1, norm_singles v h3], rfl, hg, h3⟩, ?_⟩
  cases hc : isConst v with
  | false => rfl
  | true =>
    obtain ⟨s, rfl, cs, rfl, _⟩ := hg.const hc
    exact absurd (by simp [vecText, Seg.text]) (h6 cs)

theorem const_vec {s : Name} (h : IsConstant s) : NameVec s [.txt s] := by
  have hg := good_const h
  refine ⟨?_, by simp [vecText, Seg.text], hg, trivial⟩
  have := split_text hg.wf
  simpa [vecText, Seg.text, norm] using this

theorem expand_bitwf {v b : Vec} (hg : Good v) (h : b ∈ expand v) : Bit b ∧ WF b :=
  selects_bit ((mem_expand v b).1 h) hg.wf (edge_inners v hg.inner)

/-- **Overlap is having a bit in common.** -/
theorem overlap_iff {n m : Name} {v w : Vec} (hn : NameVec n v) (hc : isConst v = false) (hm : NameVec m w) :
    (sig v = sig w ∧ overlap v w = true) ↔ Share n m := by
  have e1 : mdExpand n = some (vbits v) := by rw [← hn.text]; exact good_expand hn.good
  have e2 : mdExpand m = some (vbits w) := by rw [← hm.text]; exact good_expand hm.good
  constructor
  · rintro ⟨hs, ho⟩
    have hsh := shape_of_sig v w hn.good.wf hm.good.wf hn.good.nostar hm.good.nostar hs
    obtain ⟨b, h1, h2⟩ := overlap_common hsh hn.singles hm.singles ho
    refine ⟨_, _, vecText b, e1, e2, ?_, ?_⟩
    · rw [vbits_nonconst hc]; exact List.mem_map.2 ⟨b, h1, rfl⟩
    · rw [vbits_nonconst (by rw [← isConst_shape hsh]; exact hc)]; exact List.mem_map.2 ⟨b, h2, rfl⟩
  · rintro ⟨l, l', b, h1, h2, h3, h4⟩
    rw [e1] at h1
    rw [e2] at h2
    simp only [Option.some.injEq] at h1 h2
    subst h1
    subst h2
    rw [vbits_nonconst hc] at h3
    obtain ⟨x, hx, rfl⟩ := List.mem_map.1 h3
    have hxb := expand_bitwf hn.good hx
    have hxs := (mem_expand v x).1 hx
    cases hcw : isConst w with
    | true =>
      exfalso
      obtain ⟨s, rfl, cs, rfl, hne, hcs⟩ := hm.good.const hcw
      simp only [vbits, List.mem_map] at h4
      obtain ⟨c, hcc, he⟩ := h4
      have hk := good_const (s := ['0', 'b', c]) ⟨[c], rfl, by simp, by simpa using hcs c hcc⟩
      have hb : ([.txt ['0', 'b', c]] : Vec) ∈ expand [.txt ['0', 'b', c]] := by simp [expand]
      have := vecText_inj hxb (expand_bitwf hk hb) (by rw [← he]; simp [vecText, Seg.text])
      subst this
      rw [← isConst_shape (selects_shape hxs)] at hc
      simp [isConst] at hc
    | false =>
      rw [vbits_nonconst hcw] at h4
      obtain ⟨y, hy, he⟩ := List.mem_map.1 h4
      have := vecText_inj hxb (expand_bitwf hm.good hy) he.symm
      subst this
      have hys := (mem_expand w x).1 hy
      exact ⟨sig_shape (by rw [← selects_shape hxs, ← selects_shape hys]), common_overlap hn.singles hm.singles hxs hys⟩

theorem share_symm {n m : Name} (h : Share n m) : Share m n := by
  obtain ⟨l, l', b, h1, h2, h3, h4⟩ := h
  exact ⟨l', l, b, h2, h1, h4, h3⟩

/-! ### The tables -/

theorem mkKeys_mem {input : Bool} {ss : List Name} {ks : List Key} (h : mkKeys input ss = some ks) (x : Key) :
    x ∈ ks ↔ x.name ∈ ss ∧ x.input = input ∧ split x.name = some x.vec := by
  induction ss generalizing ks with
  | nil => simp only [mkKeys, Option.some.injEq] at h; subst h; simp
  | cons s ss ih =>
    simp only [mkKeys] at h
    cases h1 : split s with
    | none => simp [h1] at h
    | some v =>
      cases h2 : mkKeys input ss with
      | none => simp [h1, h2] at h
      | some r =>
        simp only [h1, h2, Option.bind_eq_bind, Option.bind_some, Option.some.injEq] at h
        subst h
        simp only [List.mem_cons, ih h2]
        constructor
        · rintro (rfl | ⟨h3, h4, h5⟩)
          · exact ⟨.inl rfl, rfl, h1⟩
          · exact ⟨.inr h3, h4, h5⟩
        · rintro ⟨rfl | h3, h4, h5⟩
          · left
            rw [h1] at h5
            simp only [Option.some.injEq] at h5
            subst h4
            subst h5
            rfl
          · exact .inr ⟨h3, h4, h5⟩

/-- The keys of one instance. -/
def at' (keys : List (List Key)) (i : Nat) : List Key := keys[i]?.getD []

theorem kidsKeys_get {ks : List Pex} {keys : List (List Key)} (h : kidsKeys ks = some keys) (i : Nat) :
    match ks[i]? with
    | some k => ∃ l, kidKeys k = some l ∧ keys[i]? = some l
    | none => keys[i]? = none := by
  induction ks generalizing keys i with
  | nil => simp only [kidsKeys, Option.some.injEq] at h; subst h; simp
  | cons k ks ih =>
    simp only [kidsKeys] at h
    cases h1 : kidKeys k with
    | none => simp [h1] at h
    | some a =>
      cases h2 : kidsKeys ks with
      | none => simp [h1, h2] at h
      | some r =>
        simp only [h1, h2, Option.bind_eq_bind, Option.bind_some, Option.some.injEq] at h
        subst h
        cases i with
        | zero => simp [h1]
        | succ i => simpa using ih h2 i

theorem adjKeys_mem {p : Pex} {keys : List (List Key)} (h : adjKeys p = some keys) (i : Nat) (x : Key) :
    x ∈ at' keys i ↔ split x.name = some x.vec ∧ x.name ∈ if x.input then reads p i else drives p i := by
  unfold adjKeys at h
  cases hk : p.kids with
  | none => simp [hk] at h
  | some ks =>
    simp only [hk] at h
    cases h1 : mkKeys false (p.inps.map Pin.formal) with
    | none => simp [h1] at h
    | some a =>
      cases h2 : mkKeys true (p.outs.map Pin.formal) with
      | none => simp [h1, h2] at h
      | some b =>
        cases h3 : kidsKeys ks with
        | none => simp [h1, h2, h3] at h
        | some r =>
          simp only [h1, h2, h3, Option.bind_eq_bind, Option.bind_some, Option.some.injEq] at h
          subst h
          cases i with
          | zero =>
            simp only [at', List.getElem?_cons_zero, Option.getD_some, List.mem_append, mkKeys_mem h1, mkKeys_mem h2,
              reads, drives, if_true]
            cases x.input <;> simp [and_comm]
          | succ i =>
            have hg := kidsKeys_get h3 i
            simp only [at', List.getElem?_cons_succ, reads, drives, kid, hk, Option.bind_some, Nat.add_one_ne_zero,
              if_false, Nat.add_sub_cancel]
            cases hki : ks[i]? with
            | none =>
              rw [hki] at hg
              simp [hg]
            | some k =>
              rw [hki] at hg
              obtain ⟨l, hl, hr⟩ := hg
              simp only [hr, Option.getD_some]
              unfold kidKeys at hl
              cases g1 : mkKeys true (k.inps.flatMap Pin.acts) with
              | none => simp [g1] at hl
              | some a' =>
                cases g2 : mkKeys false (k.outs.flatMap Pin.acts) with
                | none => simp [g1, g2] at hl
                | some b' =>
                  simp only [g1, g2, Option.bind_eq_bind, Option.bind_some, Option.some.injEq] at hl
                  subst hl
                  rw [List.mem_append, mkKeys_mem g1, mkKeys_mem g2]
                  cases x.input <;> simp [and_comm]

theorem mem_zipIdx' {α : Type} (l : List (List α)) (x : α) (i : Nat) :
    (∃ e ∈ l.zipIdx, e.2 = i ∧ x ∈ e.1) ↔ x ∈ l[i]?.getD [] := by
  constructor
  · rintro ⟨⟨e, j⟩, he, rfl, hx⟩
    rw [List.mem_zipIdx_iff_getElem?] at he
    simp only at he hx ⊢
    rw [he]
    exact hx
  · intro hx
    cases h : l[i]? with
    | none => simp [h] at hx
    | some e =>
      rw [h] at hx
      exact ⟨(e, i), List.mem_zipIdx_iff_getElem?.2 h, rfl, hx⟩

theorem hits_mem (keys : List (List Key)) (x : Key) (j : Nat) :
    j ∈ hits keys x ↔ ∃ y ∈ at' keys j, y.input = !x.input ∧ sig y.vec = sig x.vec ∧ overlap x.vec y.vec = true := by
  simp only [hits, List.mem_flatMap, List.mem_map, List.mem_filter, Bool.and_eq_true, beq_iff_eq]
  constructor
  · rintro ⟨e, he, y, ⟨hy, ⟨h1, h2⟩, h3⟩, rfl⟩
    exact ⟨y, (mem_zipIdx' keys y e.2).1 ⟨e, he, rfl, hy⟩, h1, h2, h3⟩
  · rintro ⟨y, hy, h1, h2, h3⟩
    obtain ⟨e, he, rfl, hy'⟩ := (mem_zipIdx' keys y j).2 hy
    exact ⟨e, he, y, ⟨hy', ⟨h1, h2⟩, h3⟩, rfl⟩

/-- The numbers under which a read name is driven. -/
theorem hits_input {p : Pex} (ht : Tame p) {keys : List (List Key)} (h : adjKeys p = some keys) {i : Nat} {x : Key}
    (hx : x ∈ at' keys i) (hin : x.input = true) (j : Nat) :
    j ∈ hits keys x ↔ ∃ n ∈ drives p j, Share n x.name := by
  obtain ⟨hsp, hmem⟩ := (adjKeys_mem h i x).1 hx
  rw [hin, if_pos rfl] at hmem
  have hxv : ∃ w, NameVec x.name w := by
    rcases ht.reads i _ hmem with hs | hs
    · obtain ⟨v, hv, _⟩ := single_vec hs
      exact ⟨v, hv⟩
    · exact ⟨_, const_vec hs⟩
  obtain ⟨w, hw⟩ := hxv
  have he : x.vec = w := by
    have := hw.split
    rw [hsp] at this
    exact Option.some.inj this
  rw [hits_mem]
  constructor
  · rintro ⟨y, hy, h1, h2, h3⟩
    obtain ⟨hysp, hymem⟩ := (adjKeys_mem h j y).1 hy
    rw [h1, hin] at hymem
    simp only [Bool.not_true, Bool.false_eq_true, if_false] at hymem
    obtain ⟨v, hv, hc⟩ := single_vec (ht.drives j _ hymem)
    have he' : y.vec = v := by
      have := hv.split
      rw [hysp] at this
      exact Option.some.inj this
    refine ⟨y.name, hymem, (overlap_iff hv hc hw).1 ⟨by rw [← he, ← he', h2], ?_⟩⟩
    rw [he, he'] at h3
    have hsh := shape_of_sig w v hw.good.wf hv.good.wf hw.good.nostar hv.good.nostar (by rw [← he, ← he', h2])
    obtain ⟨b, h4, h5⟩ := overlap_common hsh hw.singles hv.singles h3
    exact common_overlap hv.singles hw.singles ((mem_expand v b).1 h5) ((mem_expand w b).1 h4)
  · rintro ⟨n, hn, hsh⟩
    obtain ⟨v, hv, hc⟩ := single_vec (ht.drives j _ hn)
    obtain ⟨h4, h5⟩ := (overlap_iff hv hc hw).2 hsh
    refine ⟨⟨n, v, false⟩, (adjKeys_mem h j _).2 ⟨hv.split, by simpa using hn⟩, by simp [hin], by rw [he]; exact h4, ?_⟩
    rw [he]
    have hshp := shape_of_sig v w hv.good.wf hw.good.wf hv.good.nostar hw.good.nostar h4
    obtain ⟨b, h6, h7⟩ := overlap_common hshp hv.singles hw.singles h5
    exact common_overlap hw.singles hv.singles ((mem_expand w b).1 h7) ((mem_expand v b).1 h6)

/-- The numbers under which a driven name is read. -/
theorem hits_output {p : Pex} (ht : Tame p) {keys : List (List Key)} (h : adjKeys p = some keys) {i : Nat} {x : Key}
    (hx : x ∈ at' keys i) (hin : x.input = false) (j : Nat) :
    j ∈ hits keys x ↔ ∃ n ∈ reads p j, Share x.name n := by
  obtain ⟨hsp, hmem⟩ := (adjKeys_mem h i x).1 hx
  rw [hin] at hmem
  simp only [Bool.false_eq_true, if_false] at hmem
  obtain ⟨v, hv, hc⟩ := single_vec (ht.drives i _ hmem)
  have he : x.vec = v := by
    have := hv.split
    rw [hsp] at this
    exact Option.some.inj this
  rw [hits_mem]
  constructor
  · rintro ⟨y, hy, h1, h2, h3⟩
    obtain ⟨hysp, hymem⟩ := (adjKeys_mem h j y).1 hy
    rw [h1, hin] at hymem
    simp only [Bool.not_false, if_true] at hymem
    have hyv : ∃ w, NameVec y.name w := by
      rcases ht.reads j _ hymem with hs | hs
      · obtain ⟨v, hv, _⟩ := single_vec hs
        exact ⟨v, hv⟩
      · exact ⟨_, const_vec hs⟩
    obtain ⟨w, hw⟩ := hyv
    have he' : y.vec = w := by
      have := hw.split
      rw [hysp] at this
      exact Option.some.inj this
    exact ⟨y.name, hymem, (overlap_iff hv hc hw).1 ⟨by rw [← he, ← he', h2], by rw [← he, ← he']; exact h3⟩⟩
  · rintro ⟨n, hn, hsh⟩
    have hyv : ∃ w, NameVec n w := by
      rcases ht.reads j _ hn with hs | hs
      · obtain ⟨v, hv, _⟩ := single_vec hs
        exact ⟨v, hv⟩
      · exact ⟨_, const_vec hs⟩
    obtain ⟨w, hw⟩ := hyv
    obtain ⟨h4, h5⟩ := (overlap_iff hv hc hw).2 hsh
    exact ⟨⟨n, w, true⟩, (adjKeys_mem h j _).2 ⟨hw.split, by simpa using hn⟩, by simp [hin], by rw [he]; exact h4.symm,
      by rw [he]; exact h5⟩

end Voss.Hier
