import Verif.Node.Lemmas

namespace Voss.Node
open Voss.Vec

theorem sig_norm (v : Vec) : sig (norm v) = sig v := by
  induction v with
  | nil => rfl
  | cons x v ih => cases x <;> simp [norm, sig] <;> exact ih

theorem shape_norm (v : Vec) : shape (norm v) = shape v := by
  induction v with
  | nil => rfl
  | cons x v ih =>
    cases x with
    | txt s => rw [norm_cons_txt, shape_txt, shape_txt, ih]
    | idx rs => rw [norm_cons_idx, shape_idx, shape_idx, ih]

theorem mergeTail_ne (t : Rng) (cs : List Rng) : mergeTail t cs ≠ [] := by
  induction cs generalizing t with
  | nil => simp [mergeTail]
  | cons c cs ih =>
    rw [mergeTail]
    split
    · exact ih _
    · split
      · exact ih _
      · simp

theorem mergeIndices_ne {rs : List Rng} (h : rs ≠ []) : mergeIndices rs ≠ [] := by
  cases rs with
  | nil => exact absurd rfl h
  | cons t cs => exact mergeTail_ne t cs

theorem wf_idx : ∀ v : Vec, WF v → ∀ rs, Seg.idx rs ∈ v → rs ≠ []
  | [], _, _, h => by simp at h
  | .txt s :: v, hw, rs, h => by
    rcases List.mem_cons.mp h with h | h
    · simp at h
    · exact wf_idx v hw.2 rs h
  | .idx qs :: v, hw, rs, h => by
    rcases List.mem_cons.mp h with h | h
    · simp only [Seg.idx.injEq] at h
      exact h ▸ hw.1
    · exact wf_idx v hw.2.2.2 rs h

theorem norm_idx {v : Vec} (h : ∀ rs, Seg.idx rs ∈ v → rs ≠ []) : ∀ rs, Seg.idx rs ∈ norm v → rs ≠ [] := by
  intro rs hr
  simp only [norm, List.mem_map] at hr
  obtain ⟨x, hx, he⟩ := hr
  cases x with
  | txt s => simp at he
  | idx qs =>
    simp only [Seg.idx.injEq] at he
    exact he ▸ mergeIndices_ne (h qs hx)

theorem fits_of_shape : ∀ d v : Vec, shape d = shape v → (∀ rs, Seg.idx rs ∈ v → rs ≠ []) → Fits d v
  | [], [], _, _ => .nil
  | [], x :: v, h, _ => by simp [shape] at h
  | x :: d, [], h, _ => by simp [shape] at h
  | .txt s :: d, .txt t :: v, h, hv => by
    simp only [shape_txt, List.cons.injEq, Seg.txt.injEq] at h
    obtain ⟨rfl, h⟩ := h
    exact .txt s d v (fits_of_shape d v h fun rs hr => hv rs (List.mem_cons_of_mem _ hr))
  | .txt s :: d, .idx t :: v, h, hv => by simp [shape] at h
  | .idx s :: d, .txt t :: v, h, hv => by simp [shape] at h
  | .idx s :: d, .idx [] :: v, h, hv => absurd rfl (hv [] List.mem_cons_self)
  | .idx s :: d, .idx (q :: qs) :: v, h, hv => by
    simp only [shape_idx, List.cons.injEq, true_and] at h
    exact .idx s d q qs v (fits_of_shape d v h fun rs hr => hv rs (List.mem_cons_of_mem _ hr))

theorem nostar_of_text : ∀ v : Vec, '*' ∉ vecText v → NoStar v
  | [], _ => trivial
  | .txt s :: v, h => by
    rw [vecText_cons, List.mem_append] at h
    exact ⟨fun hc => h (.inl hc), nostar_of_text v fun hc => h (.inr hc)⟩
  | .idx _ :: v, h => by
    rw [vecText_cons, List.mem_append] at h
    exact nostar_of_text v fun hc => h (.inr hc)

theorem star_of_nostar : ∀ v : Vec, NoStar v → '*' ∉ vecText v
  | [], _ => by simp [vecText]
  | .txt s :: v, h => by
    rw [vecText_cons, List.mem_append]
    rintro (hc | hc)
    · exact h.1 hc
    · exact star_of_nostar v h.2 hc
  | .idx rs :: v, h => by
    rw [vecText_cons, List.mem_append]
    rintro (hc | hc)
    · have := rngsText_chars rs '*' hc
      revert this
      decide
    · exact star_of_nostar v h hc

theorem fits_shape {d v : Vec} (h : Fits d v) : shape d = shape v := by
  induction h with
  | nil => rfl
  | txt s d v _ ih => rw [shape_txt, shape_txt, ih]
  | idx rs d q qs v _ ih => rw [shape_idx, shape_idx, ih]

theorem selects_shape {v b : Vec} (h : Selects v b) : shape v = shape b := by
  induction h with
  | nil => rfl
  | txt s v b _ ih => rw [shape_txt, shape_txt, ih]
  | idx rs v b r i _ _ _ ih => rw [shape_idx, shape_idx, ih]

theorem nostar_shape : ∀ {v b : Vec}, shape v = shape b → NoStar v → NoStar b
  | [], [], _, _ => trivial
  | [], x :: v, h, _ => by simp [shape] at h
  | x :: d, [], h, _ => by simp [shape] at h
  | .txt s :: d, .txt t :: v, h, hv => by
    simp only [shape_txt, List.cons.injEq, Seg.txt.injEq] at h
    exact ⟨h.1 ▸ hv.1, nostar_shape h.2 hv.2⟩
  | .txt s :: d, .idx t :: v, h, hv => by simp [shape] at h
  | .idx s :: d, .txt t :: v, h, hv => by simp [shape] at h
  | .idx s :: d, .idx t :: v, h, hv => by
    simp only [shape_idx, List.cons.injEq, true_and] at h
    exact nostar_shape (v := d) (b := v) h hv

theorem inner_edge_vec : ∀ v : Vec, Inners v → edge v = false
  | [], _ => rfl
  | .txt _ :: v, h => inner_edge_vec v h
  | .idx rs :: v, h => by
    rw [edge, inner_edge_vec v h.2, Bool.or_false, List.any_eq_false]
    intro r hr
    rw [inner_edge (h.1 r hr)]
    simp

theorem mem_flatMap_unique {α β : Type} {l : List α} {f : α → List β} (h : (l.flatMap f).Nodup) {p q : α} {b : β}
    (hp : p ∈ l) (hq : q ∈ l) (hbp : b ∈ f p) (hbq : b ∈ f q) : p = q := by
  induction l with
  | nil => simp at hp
  | cons a l ih =>
    rw [List.flatMap_cons, List.nodup_append] at h
    obtain ⟨_, h2, h3⟩ := h
    rcases List.mem_cons.mp hp with h4 | hp' <;> rcases List.mem_cons.mp hq with h5 | hq'
    · rw [h4, h5]
    · exact absurd rfl (h3 b (h4 ▸ hbp) b (List.mem_flatMap.mpr ⟨q, hq', hbq⟩))
    · exact absurd rfl (h3 b (h5 ▸ hbq) b (List.mem_flatMap.mpr ⟨p, hp', hbp⟩))
    · exact ih h2 hp' hq'

theorem nodup_of_flatMap {α β : Type} {l : List α} {f : α → List β} (h : (l.flatMap f).Nodup) {p : α}
    (hp : p ∈ l) : (f p).Nodup := by
  induction l with
  | nil => simp at hp
  | cons a l ih =>
    rw [List.flatMap_cons, List.nodup_append] at h
    rcases List.mem_cons.mp hp with rfl | hp
    · exact h.1
    · exact ih h.2.1 hp

/-- A signal and its entry. -/
structure Entry (x : Sg) (e : Info) : Prop where
  hier : e.hier = x.hier
  decl : e.decl = norm x.name
  runs : Runs e.map
  len : (nodesOf e.map).length = size (norm x.name)
  act : ∀ m, x.act = some m → e.map = m
  own : x.act = none → ∃ n : Nat, e.map = [⟨n, n + size (norm x.name) - 1, size (norm x.name)⟩]

/-- What holds of the state. -/
structure Inv (ps : List (Sg × Info)) (st : State) : Prop where
  infos : st.infos = ps.map Prod.snd
  entry : ∀ p ∈ ps, Entry p.1 p.2
  node : ∀ k e, st.nodes[k]? = some e → ∃ x, (x, e) ∈ ps ∧ x.act = none ∧
    ∃ n j : Nat, e.map = [⟨n, n + size (norm x.name) - 1, size (norm x.name)⟩] ∧ j < size (norm x.name) ∧ k = n + j
  back : ∀ p ∈ ps, p.1.act = none → ∀ n : Nat, p.2.map = [⟨n, n + size (norm p.1.name) - 1, size (norm p.1.name)⟩] →
    ∀ j < size (norm p.1.name), st.nodes[n + j]? = some p.2

theorem split_name {x : Sg} (h : x.Ok) : split (vecText x.name) = some (norm x.name) := split_text h.wfName

theorem size_name {x : Sg} (h : x.Ok) : 0 < size (norm x.name) :=
  size_pos _ (norm_idx (wf_idx _ h.wfName))

theorem declare_inv {ps : List (Sg × Info)} {st st' : State} {x : Sg} (h : Inv ps st) (hx : x.Ok)
    (hd : declare st x.decl = some st') : ∃ e, Inv (ps ++ [(x, e)]) st' := by
  unfold declare at hd
  rw [show x.decl.name = vecText x.name from rfl, split_name hx] at hd
  simp only at hd
  have hact : x.decl.act = x.act := rfl
  rw [hact] at hd
  cases ha : x.act with
  | some m =>
    rw [ha] at hd
    simp only at hd
    split at hd
    · simp at hd
    · rename_i hsz
      simp only [ne_eq, Decidable.not_not] at hsz
      simp only [Option.some.injEq] at hd
      subst hd
      refine ⟨⟨x.hier, norm x.name, m⟩, ?_, ?_, ?_, ?_⟩
      · simp only [h.infos, List.map_append, List.map_cons, List.map_nil]
        rfl
      · intro p hp
        rcases List.mem_append.mp hp with hp | hp
        · exact h.entry p hp
        · simp only [List.mem_singleton] at hp
          subst hp
          refine ⟨rfl, rfl, hx.act m ha, ?_, ?_, ?_⟩
          · rw [nodesOf_length m (hx.act m ha)]
            exact hsz.symm
          · intro m' hm'
            rw [ha] at hm'
            exact Option.some.inj hm'
          · intro hn
            rw [ha] at hn
            simp at hn
      · intro k e hk
        obtain ⟨y, hy, hr⟩ := h.node k e hk
        exact ⟨y, List.mem_append_left _ hy, hr⟩
      · intro p hp hpa
        rcases List.mem_append.mp hp with hp | hp
        · exact h.back p hp hpa
        · simp only [List.mem_singleton] at hp
          subst hp
          rw [ha] at hpa
          simp at hpa
  | none =>
    rw [ha] at hd
    simp only [Option.some.injEq] at hd
    subst hd
    have hpos := size_name hx
    refine ⟨⟨x.hier, norm x.name, [⟨st.nodes.length, st.nodes.length + size (norm x.name) - 1, size (norm x.name)⟩]⟩,
      ?_, ?_, ?_, ?_⟩
    · simp only [h.infos, List.map_append, List.map_cons, List.map_nil]
      rfl
    · intro p hp
      rcases List.mem_append.mp hp with hp | hp
      · exact h.entry p hp
      · simp only [List.mem_singleton] at hp
        subst hp
        refine ⟨rfl, rfl, ?_, ?_, ?_, ?_⟩
        · intro r hr
          simp only [List.mem_singleton] at hr
          subst hr
          simp only
          omega
        · simp only [nodesOf, List.flatMap_cons, List.flatMap_nil, List.append_nil, bits_length]
          omega
        · intro m' hm'
          rw [ha] at hm'
          simp at hm'
        · intro _
          exact ⟨st.nodes.length, rfl⟩
    · intro k e hk
      by_cases hl : k < st.nodes.length
      · rw [List.getElem?_append_left hl] at hk
        obtain ⟨y, hy, hr⟩ := h.node k e hk
        exact ⟨y, List.mem_append_left _ hy, hr⟩
      · rw [List.getElem?_append_right (by omega), List.getElem?_replicate] at hk
        split at hk
        · rename_i hlt
          simp only [Option.some.injEq] at hk
          subst hk
          exact ⟨x, List.mem_append_right _ List.mem_cons_self, ha, st.nodes.length, k - st.nodes.length, rfl, hlt, by omega⟩
        · simp at hk
    · intro p hp hpa n hn j hj
      rcases List.mem_append.mp hp with hp | hp
      · have := h.back p hp hpa n hn j hj
        rw [List.getElem?_append_left]
        · exact this
        · exact (List.getElem?_eq_some_iff.mp this).1
      · simp only [List.mem_singleton] at hp
        subst hp
        simp only [List.cons.injEq, Run.mk.injEq, and_true] at hn hj
        have : n = st.nodes.length := by omega
        subst this
        simp only
        rw [List.getElem?_append_right (by omega), List.getElem?_replicate, if_pos (by omega)]
        rfl

theorem declareAll_inv : ∀ (xs : List Sg) (ps : List (Sg × Info)) (st st' : State), Inv ps st → (∀ x ∈ xs, x.Ok) →
    declareAll st (xs.map Sg.decl) = some st' → ∃ qs, Inv qs st' ∧ qs.map Prod.fst = ps.map Prod.fst ++ xs
  | [], ps, st, st', h, _, hd => by
    simp only [List.map_nil, declareAll, Option.some.injEq] at hd
    subst hd
    exact ⟨ps, h, by simp⟩
  | x :: xs, ps, st, st', h, hx, hd => by
    rw [List.map_cons, declareAll] at hd
    split at hd
    · simp at hd
    · rename_i st1 h1
      obtain ⟨e, he⟩ := declare_inv h (hx x List.mem_cons_self) h1
      obtain ⟨qs, hq, hm⟩ := declareAll_inv xs _ st1 st' he (fun y hy => hx y (List.mem_cons_of_mem _ hy)) hd
      refine ⟨qs, hq, ?_⟩
      rw [hm]
      simp

theorem run_inv {xs : List Sg} {st : State} (h : Circuit xs) (hd : declareAll ⟨[], []⟩ (xs.map Sg.decl) = some st) :
    ∃ ps, Inv ps st ∧ ps.map Prod.fst = xs := by
  obtain ⟨qs, hq, hm⟩ := declareAll_inv xs [] _ st ⟨rfl, by simp, by simp, by simp⟩ h.ok hd
  exact ⟨qs, hq, by simpa using hm⟩

/-! ### Looking up -/

theorem bits_norm (x : Sg) : x.bits = (expand (norm x.rest)).map (.txt (x.hier ++ x.base) :: ·) := by
  rw [Sg.bits, Sg.full, expand, expand_norm]

theorem sig_entry {x : Sg} {e : Info} (h : Entry x e) : e.hier ++ sig e.decl = sig x.full := by
  rw [h.hier, h.decl, sig_norm]
  simp [Sg.name, Sg.full, sig]

/-- The name of a vector, and a signal found under its signature. -/
theorem entry_fits {x : Sg} {e : Info} {v : Vec} (h : Entry x e) (hx : x.Ok) (hv : WF v) (hs : NoStar v)
    (hk : e.hier ++ sig e.decl = sig v) :
    ∃ v', norm v = .txt (x.hier ++ x.base) :: v' ∧ Fits (norm x.rest) v' ∧ e.decl = .txt x.base :: norm x.rest := by
  have h1 : shape x.full = shape v :=
    shape_of_sig _ _ hx.wf hv (nostar_of_text _ hx.star) hs (by rw [← sig_entry h, hk])
  have h2 : shape x.full = shape (norm v) := by rw [shape_norm, h1]
  rw [Sg.full, shape_txt] at h2
  have hd : e.decl = .txt x.base :: norm x.rest := by rw [h.decl]; rfl
  have hne := norm_idx (wf_idx v hv)
  cases hn : norm v with
  | nil => rw [hn] at h2; simp [shape] at h2
  | cons y v' =>
    rw [hn] at h2 hne
    cases y with
    | idx rs => simp [shape] at h2
    | txt t =>
      simp only [shape_txt, List.cons.injEq, Seg.txt.injEq] at h2
      refine ⟨v', by rw [h2.1], fits_of_shape _ _ ?_ fun rs hr => hne rs (List.mem_cons_of_mem _ hr), hd⟩
      rw [shape_norm, h2.2]

theorem fits_full {x : Sg} {v' : Vec} {b : Vec} (h : b ∈ expand v') :
    (.txt (x.hier ++ x.base) :: b ∈ x.bits ↔ b ∈ expand (norm x.rest)) := by
  rw [bits_norm]
  constructor
  · intro hc
    obtain ⟨b', h1, h2⟩ := List.mem_map.mp hc
    simp only [List.cons.injEq, true_and] at h2
    exact h2 ▸ h1
  · intro hc
    exact List.mem_map.mpr ⟨b, hc, rfl⟩

theorem nameLoop_spec {v : Vec} {n : Int} (hn : 0 ≤ n) : ∀ es : List Info,
    (∀ e ∈ es, ∃ r m, e.map = r :: m ∧ (findNode e.decl v r.frm = .miss ∨ findNode e.decl v r.frm = .ok n)) →
    (∃ e ∈ es, ∃ r m, e.map = r :: m ∧ findNode e.decl v r.frm = .ok n) → nameLoop v es = .ok n
  | [], _, ⟨e, he, _⟩ => by simp at he
  | e :: es, h, ⟨e', he', hr⟩ => by
    obtain ⟨r, m, h1, h2⟩ := h e List.mem_cons_self
    rw [nameLoop, h1]
    simp only
    rcases h2 with h2 | h2
    · rw [h2]
      simp only
      refine nameLoop_spec hn es (fun y hy => h y (List.mem_cons_of_mem _ hy)) ?_
      rcases List.mem_cons.mp he' with rfl | he'
      · obtain ⟨r', m', h3, h4⟩ := hr
        rw [h1] at h3
        simp only [List.cons.injEq] at h3
        obtain ⟨rfl, rfl⟩ := h3
        rw [h2] at h4
        simp at h4
      · exact ⟨e', he', hr⟩
    · rw [h2]
      simp only [ge_iff_le, if_pos hn]

/-- A bit of a signal in its own instance. -/
theorem bit_of {x : Sg} (hx : x.Ok) {b : Vec} (hb : b ∈ x.bits) :
    Bit b ∧ WF b ∧ NoStar b ∧ norm b = b ∧ ∃ b', b = .txt (x.hier ++ x.base) :: b' ∧ b' ∈ expand (norm x.rest) := by
  have hs := (mem_expand _ _).mp hb
  have h1 := selects_bit hs hx.wf (inner_edge_vec _ hx.inner)
  refine ⟨h1.1, h1.2, nostar_shape (selects_shape hs) (nostar_of_text _ hx.star), norm_bit b h1.1, ?_⟩
  rw [bits_norm] at hb
  obtain ⟨b', h2, h3⟩ := List.mem_map.mp hb
  exact ⟨b', h3.symm, h2⟩

theorem ps_unique {ps : List (Sg × Info)} (hn : ((ps.map Prod.fst).flatMap Sg.bits).Nodup) {p q : Sg × Info} {b : Vec}
    (hp : p ∈ ps) (hq : q ∈ ps) (hbp : b ∈ p.1.bits) (hbq : b ∈ q.1.bits) : p = q := by
  have : (ps.flatMap fun p => p.1.bits).Nodup := by
    rw [List.flatMap_map] at hn
    exact hn
  exact mem_flatMap_unique this hp hq hbp hbq

theorem name_found {ps : List (Sg × Info)} {st : State} (h : Inv ps st) (hok : ∀ p ∈ ps, p.1.Ok)
    (hn : ((ps.map Prod.fst).flatMap Sg.bits).Nodup) {p : Sg × Info} (hp : p ∈ ps) {b : Vec} (hb : b ∈ p.1.bits)
    {r : Run} {m : List Run} (hm : p.2.map = r :: m) :
    name2idx st (vecText b) = .ok (r.frm + (p.1.bits.idxOf b : Nat)) := by
  obtain ⟨hbit, hwf, hns, hnorm, b', rfl, hb'⟩ := bit_of (hok p hp) hb
  have hfrm : 0 ≤ r.frm := ((h.entry p hp).runs r (hm ▸ List.mem_cons_self)).2.1
  have hidx : p.1.bits.idxOf (.txt (p.1.hier ++ p.1.base) :: b') = (expand (norm p.1.rest)).idxOf b' := by
    rw [bits_norm, idxOf_map_cons]
  unfold name2idx
  rw [split_text hwf, hnorm]
  simp only
  refine nameLoop_spec (by omega) _ ?_ ?_
  · intro e he
    simp only [chain, List.mem_filter, decide_eq_true_eq, h.infos, List.mem_map] at he
    obtain ⟨⟨q, hq, rfl⟩, hk⟩ := he
    have hent := h.entry q hq
    have hlen := size_name (hok q hq)
    rw [← hent.len] at hlen
    cases hqm : q.2.map with
    | nil => rw [hqm] at hlen; simp [nodesOf] at hlen
    | cons r' m' =>
      refine ⟨r', m', rfl, ?_⟩
      obtain ⟨v', h1, h2, h3⟩ := entry_fits hent (hok q hq) hwf hns hk
      rw [hnorm] at h1
      simp only [List.cons.injEq, Seg.txt.injEq] at h1
      obtain ⟨h1, rfl⟩ := h1
      rw [h3, findNode, findNode_spec _ _ _ h2 hbit (hok q hq).down]
      by_cases hmem : b' ∈ expand (norm q.1.rest)
      · right
        have hq2 : .txt (p.1.hier ++ p.1.base) :: b' ∈ q.1.bits := by
          rw [bits_norm, h1]
          exact List.mem_map.mpr ⟨b', hmem, rfl⟩
        have := ps_unique hn hp hq hb hq2
        subst this
        rw [hm] at hqm
        simp only [List.cons.injEq] at hqm
        rw [if_pos hmem, hidx, hqm.1]
      · left
        rw [if_neg hmem]
  · refine ⟨p.2, ?_, r, m, hm, ?_⟩
    · simp only [chain, List.mem_filter, decide_eq_true_eq, h.infos, List.mem_map]
      refine ⟨⟨p, hp, rfl⟩, ?_⟩
      rw [sig_entry (h.entry p hp)]
      have : ∀ v w : Vec, shape v = shape w → sig v = sig w := by
        intro v
        induction v with
        | nil => intro w hw; cases w with
          | nil => rfl
          | cons y w => simp [shape] at hw
        | cons x v ih =>
          intro w hw
          cases w with
          | nil => simp [shape] at hw
          | cons y w =>
            cases x with
            | txt s => cases y with
              | txt t =>
                simp only [shape_txt, List.cons.injEq, Seg.txt.injEq] at hw
                rw [sig, sig, hw.1, ih w hw.2]
              | idx t => simp [shape] at hw
            | idx s => cases y with
              | txt t => simp [shape] at hw
              | idx t =>
                simp only [shape_idx, List.cons.injEq, true_and] at hw
                rw [sig, sig, ih w hw]
      exact this _ _ (selects_shape ((mem_expand _ _).mp hb))
    · have h3 : p.2.decl = .txt p.1.base :: norm p.1.rest := by rw [(h.entry p hp).decl]; rfl
      have hf : Fits (norm p.1.rest) b' := by
        refine fits_of_shape _ _ (selects_shape ((mem_expand _ _).mp hb')) ?_
        exact fun rs hr => wf_idx _ hwf rs (List.mem_cons_of_mem _ hr)
      rw [h3, findNode, findNode_spec _ _ _ hf hbit (hok p hp).down, if_pos hb', hidx]

theorem node_named {ps : List (Sg × Info)} {st : State} (h : Inv ps st) (hok : ∀ p ∈ ps, p.1.Ok)
    {p : Sg × Info} (hp : p ∈ ps) (ha : p.1.act = none) {n : Nat}
    (hm : p.2.map = [⟨n, n + size (norm p.1.name) - 1, size (norm p.1.name)⟩]) {j : Nat} {b : Vec}
    (hj : p.1.bits[j]? = some b) : idx2name st (n + j) = some (vecText b) := by
  have hent := h.entry p hp
  have hsz : p.1.bits.length = size (norm p.1.name) := by
    rw [bits_norm, List.length_map, expand_length]
    rfl
  have hlt := (List.getElem?_eq_some_iff.mp hj).1
  rw [hsz] at hlt
  unfold idx2name
  rw [h.back p hp ha n hm j hlt]
  simp only [Option.bind_eq_bind, Option.bind_some, hm, List.head?_cons]
  have e : (((n + j : Nat) : Int) - (n : Int)).toNat = j := by omega
  rw [e, hent.decl, realName_spec _ _ (norm_idx (wf_idx _ (hok p hp).wfName)) (hok p hp).down hlt, hent.hier]
  have : norm p.1.name = .txt p.1.base :: norm p.1.rest := rfl
  rw [bits_norm, List.getElem?_map] at hj
  rw [this, expand, List.getElem?_map]
  cases hb : (expand (norm p.1.rest))[j]? with
  | none => rw [hb] at hj; simp at hj
  | some b' =>
    rw [hb] at hj
    simp only [Option.map_some, Option.some.injEq] at hj
    subst hj
    simp only [Option.map_some, vecText_cons, Seg.text, List.append_assoc]

end Voss.Node
