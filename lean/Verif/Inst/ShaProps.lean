import Verif.Inst.ShaLemmas
import Verif.Sha.GraphProps

/-
C83: SHA-256 signatures of instances.
-/
namespace Voss.Inst
open Hier Sha

section
variable {sortT : List T → List T} {sortK : List Key → List Key}

theorem keys_eq (cs : List Kid) (ks : List Key) : keys cs = some ks ↔ cs.map key = ks.map some := by
  induction cs generalizing ks with
  | nil => cases ks <;> simp [keys]
  | cons c cs ih =>
    simp only [keys, List.map_cons, Option.bind_eq_bind]
    cases h : key c with
    | none => cases ks <;> simp
    | some k =>
      cases h2 : keys cs with
      | none =>
        have : ∀ ks : List Key, cs.map key ≠ ks.map some := fun ks e => by have := (ih ks).2 e; rw [h2] at this; simp at this
        cases ks with
        | nil => simp
        | cons k' ks => simp [this]
      | some r =>
        cases ks with
        | nil => simp
        | cons k' ks =>
          have := ih ks
          rw [h2] at this
          simp only [Option.some.injEq] at this
          simp [this]

theorem keys_none (cs : List Kid) : keys cs = none ↔ none ∈ cs.map key := by
  induction cs with
  | nil => simp [keys]
  | cons c cs ih =>
    simp only [keys, List.map_cons, Option.bind_eq_bind, List.mem_cons]
    cases h : key c with
    | none => simp
    | some k =>
      rw [← ih]
      cases keys cs <;> simp

theorem keys_perm {cs cs' : List Kid} (h : (cs.map key).Perm (cs'.map key)) :
    (keys cs = none ∧ keys cs' = none) ∨ ∃ a b, keys cs = some a ∧ keys cs' = some b ∧ a.Perm b := by
  cases h1 : keys cs with
  | none =>
    rw [keys_none] at h1
    exact .inl ⟨rfl, (keys_none _).2 (h.mem_iff.1 h1)⟩
  | some a =>
    cases h2 : keys cs' with
    | none =>
      rw [keys_none] at h2
      rw [(keys_none _).2 (h.mem_iff.2 h2)] at h1
      exact absurd h1 (by simp)
    | some b =>
      refine .inr ⟨a, b, rfl, rfl, ?_⟩
      rw [(keys_eq _ _).1 h1, (keys_eq _ _).1 h2] at h
      have := h.filterMap id
      simpa using this

/-- **Order.**  Listing functions or instances in another order does not change the signature; the comparisons that sort
them define total orders, as `qsort` demands. -/
theorem c83_order (hT : QSorts tcmp sortT) (hK : QSorts keyCmp sortK) (junk : List Byte) (p q : Inst T)
    (h : SameUpToOrder p q) : shaInst sortT sortK junk p = shaInst sortT sortK junk q := by
  obtain ⟨h1, h2, h3, h4, h5⟩ := h
  have hh : headText p = headText q := by
    have e : ∀ (c : Char) (l : List Pin), l.map (fun q => c :: ':' :: (q.formal ++ ['\n'])) =
        (l.map Pin.formal).map fun n => c :: ':' :: (n ++ ['\n']) := by intro c l; simp
    simp only [headText, e, h1, h2, h3, h4]
  have hc : contentText sortT sortK p.content = contentText sortT sortK q.content := by
    obtain ⟨_, _, _, _, cp⟩ := p
    obtain ⟨_, _, _, _, cq⟩ := q
    cases cp with
    | leaf fns =>
      cases cq with
      | leaf fns' => simp only [contentText]; rw [sort_perm good_tcmp hT h5]
      | hier cs' => exact h5.elim
    | hier cs =>
      cases cq with
      | leaf fns' => exact h5.elim
      | hier cs' =>
        simp only [contentText]
        rcases keys_perm h5 with ⟨k1, k2⟩ | ⟨a, b, k1, k2, k3⟩
        · rw [k1, k2]
        · rw [k1, k2, Option.map_some, Option.map_some, sort_perm good_key hK k3]
  simp only [shaInst, shaText, hh, hc]

theorem head_flat (p : Inst T) (R : Text) : (headText p).flatten ++ R =
    p.name ++ '\n' :: (tagged 'i' (p.inps.map Pin.formal) ++ (tagged 'o' (p.outs.map Pin.formal) ++ (tagged 'm' p.ints ++ R))) := by
  simp [headText, tagged, Function.comp_def]

/-- The text of the contents starts with a digit or with `c`. -/
theorem content_start {c : Content T} {ps : List Text} (h : contentText sortT sortK c = some ps) (d : Char)
    (hd : d.isDigit = false) (hc : d ≠ 'c') : NotStart d ps.flatten := by
  intro r e
  cases c with
  | leaf fns =>
    simp only [contentText, Option.some.injEq] at h
    subst h
    cases h2 : sortT fns with
    | nil => rw [h2] at e; simp [fnLines] at e
    | cons t ts =>
      rw [h2, fnLines_cons] at e
      cases h3 : (lines 1 t).1 with
      | nil => obtain ⟨o, ho⟩ := lines_last 1 t; rw [h3] at ho; simp at ho
      | cons l ls =>
        obtain ⟨x, y, h4, h5⟩ := lines_digit t 1 l (by rw [h3]; simp)
        rw [h3, h4] at e
        simp only [List.cons_append, List.flatten_cons, List.cons.injEq] at e
        rw [e.1, hd] at h5
        exact absurd h5 (by simp)
  | hier cs =>
    simp only [contentText] at h
    cases h2 : keys cs with
    | none => rw [h2] at h; simp at h
    | some ks =>
      rw [h2, Option.map_some, Option.some.injEq] at h
      subst h
      have e : kidsFlat 1 (sortK ks) = d :: r := e
      cases h3 : sortK ks with
      | nil => rw [h3] at e; simp [kidsFlat, kidText] at e
      | cons k ks' =>
        rw [h3, kidsFlat_cons] at e
        have e' : chMark 1 = 'c' :: ("h[".toList ++ dec 1 ++ "]:".toList) := rfl
        rw [e'] at e
        simp only [List.cons_append, List.cons.injEq] at e
        exact hc e.1.symm

theorem mem_keys {cs : List Kid} {ks : List Key} (h : keys cs = some ks) {k : Key} (hk : k ∈ ks) : ∃ c ∈ cs, key c = some k := by
  have h1 := (keys_eq _ _).1 h
  have h2 : some k ∈ cs.map key := by rw [h1]; exact List.mem_map_of_mem hk
  obtain ⟨c, hc, e⟩ := List.mem_map.1 h2
  exact ⟨c, hc, e⟩

/-- **Text.**  The text that is hashed determines the instance: name, ports and internals in their order, and functions, or
names, signatures and connections of the instances inside, up to order. -/
theorem c83_text_partial (hT : QSorts tcmp sortT) (hK : QSorts keyCmp sortK) (p q : Inst T) (hp : CleanInst p) (hq : CleanInst q)
    (ps qs : List Text) (h1 : shaText sortT sortK p = some ps) (h2 : shaText sortT sortK q = some qs)
    (h : ps.flatten = qs.flatten) : SameUpToOrder p q := by
  unfold shaText at h1 h2
  cases hc1 : contentText sortT sortK p.content with
  | none => rw [hc1] at h1; simp at h1
  | some c1 =>
  cases hc2 : contentText sortT sortK q.content with
  | none => rw [hc2] at h2; simp at h2
  | some c2 =>
  rw [hc1, Option.map_some, Option.some.injEq] at h1
  rw [hc2, Option.map_some, Option.some.injEq] at h2
  subst h1; subst h2
  rw [List.flatten_append, List.flatten_append, head_flat, head_flat] at h
  obtain ⟨e1, h⟩ := split_ch '\n' (fun c hc => (hp.name c hc).1) (fun c hc => (hq.name c hc).1) h
  have s1 := fun d hd hc => content_start hc1 d hd hc
  have s2 := fun d hd hc => content_start hc2 d hd hc
  have fm : ∀ (l : List Pin), (∀ x ∈ l, OneLine x.formal) → ∀ n ∈ l.map Pin.formal, OneLine n := by
    intro l hl n hn
    obtain ⟨x, hx, rfl⟩ := List.mem_map.1 hn
    exact hl x hx
  obtain ⟨e2, h⟩ := tag_split 'i' (tagged_start _ _ (by decide) _ (tagged_start _ _ (by decide) _ (s1 'i' (by decide) (by decide))))
    (tagged_start _ _ (by decide) _ (tagged_start _ _ (by decide) _ (s2 'i' (by decide) (by decide)))) _ _ (fm _ hp.inps)
    (fm _ hq.inps) h
  obtain ⟨e3, h⟩ := tag_split 'o' (tagged_start _ _ (by decide) _ (s1 'o' (by decide) (by decide)))
    (tagged_start _ _ (by decide) _ (s2 'o' (by decide) (by decide))) _ _ (fm _ hp.outs) (fm _ hq.outs) h
  obtain ⟨e4, hfin⟩ := tag_split 'm' (s1 'm' (by decide) (by decide)) (s2 'm' (by decide) (by decide)) _ _ hp.ints hq.ints h
  refine ⟨e1, e2, e3, e4, ?_⟩
  obtain ⟨_, _, _, _, cp⟩ := p
  obtain ⟨_, _, _, _, cq⟩ := q
  have k1 := hp.content
  have k2 := hq.content
  simp only at k1 k2 hc1 hc2
  -- a leaf with a function and instances have different texts
  have mixed : ∀ (fns : List T) (cs : List Kid) (a b : List Text), fns ≠ [] → contentText sortT sortK (.leaf fns) = some a →
      contentText sortT sortK (.hier cs) = some b → a.flatten = b.flatten → False := by
    intro fns cs a b hne ha hb e
    simp only [contentText, Option.some.injEq] at ha
    subst ha
    have hs : sortT fns ≠ [] := fun e => hne (List.Perm.eq_nil (e ▸ (hT good_tcmp fns).1.symm))
    cases h2 : sortT fns with
    | nil => exact hs h2
    | cons t ts =>
      rw [h2, fnLines_cons] at e
      cases h3 : (lines 1 t).1 with
      | nil => obtain ⟨o, ho⟩ := lines_last 1 t; rw [h3] at ho; simp at ho
      | cons l ls =>
        obtain ⟨x, y, h4, h5⟩ := lines_digit t 1 l (by rw [h3]; simp)
        rw [h3, h4] at e
        simp only [List.cons_append, List.flatten_cons] at e
        have hx : x.isDigit = true := h5
        simp only [contentText] at hb
        cases h6 : keys cs with
        | none => rw [h6] at hb; simp at hb
        | some ks =>
          rw [h6, Option.map_some, Option.some.injEq] at hb
          subst hb
          have e : _ = kidsFlat 1 (sortK ks) := e
          cases h7 : sortK ks with
          | nil => rw [h7] at e; simp [kidsFlat, kidText] at e
          | cons k ks' =>
            rw [h7, kidsFlat_cons] at e
            have e' : chMark 1 = 'c' :: ("h[".toList ++ dec 1 ++ "]:".toList) := rfl
            rw [e'] at e
            simp only [List.cons_append, List.cons.injEq] at e
            rw [e.1] at hx
            exact absurd hx (by decide)
  cases cp with
  | leaf fns =>
    cases cq with
    | leaf fns' =>
      simp only [contentText, Option.some.injEq] at hc1 hc2
      subst hc1; subst hc2
      have m1 : ∀ t ∈ sortT fns, t.Clean := fun t ht => k1.2 t ((hT good_tcmp fns).1.mem_iff.1 ht)
      have m2 : ∀ t ∈ sortT fns', t.Clean := fun t ht => k2.2 t ((hT good_tcmp fns').1.mem_iff.1 ht)
      have := lns_inj _ _ (fun t ht => (fnLines_ln _ _ _ m1 t ht).1) (fun t ht => (fnLines_ln _ _ _ m2 t ht).1) hfin
      have := fnLines_inj _ _ _ _ m1 m2 this
      exact (hT good_tcmp fns).1.symm.trans (this ▸ (hT good_tcmp fns').1)
    | hier cs' => exact mixed fns cs' c1 c2 k1.1 hc1 hc2 hfin
  | hier cs =>
    cases cq with
    | leaf fns' => exact mixed fns' cs c2 c1 k2.1 hc2 hc1 hfin.symm
    | hier cs' =>
      simp only [contentText] at hc1 hc2
      cases h6 : keys cs with
      | none => rw [h6] at hc1; simp at hc1
      | some ks =>
      cases h7 : keys cs' with
      | none => rw [h7] at hc2; simp at hc2
      | some ks' =>
      rw [h6, Option.map_some, Option.some.injEq] at hc1
      rw [h7, Option.map_some, Option.some.injEq] at hc2
      subst hc1; subst hc2
      have p1 := (hK good_key ks).1
      have p2 := (hK good_key ks').1
      have := kids_inj (sortK ks) (sortK ks') 1
        (fun k hk => by obtain ⟨c, hc, e⟩ := mem_keys h6 (p1.mem_iff.1 hk); exact k1 c hc k e)
        (fun k hk => by obtain ⟨c, hc, e⟩ := mem_keys h7 (p2.mem_iff.1 hk); exact k2 c hc k e) hfin
      have hp : ks.Perm ks' := p1.symm.trans (this ▸ p2)
      show (cs.map key).Perm (cs'.map key)
      rw [(keys_eq _ _).1 h6, (keys_eq _ _).1 h7]
      exact hp.map _

/-! ### Hierarchies -/

/-- The text of an instance of a hierarchy is of characters of one byte, in short pieces, and has been hashed to its attribute. -/
structure Signed (sortT : List T → List T) (sortK : List Key → List Key) (x : Tree) : Prop where
  clean : CleanInst x.inst
  made : ∃ junk ps, junk.length = 64 ∧ shaText sortT sortK x.inst = some ps ∧ (∀ p ∈ ps, p.length ≤ 4095 ∧ ∀ c ∈ p, c.toNat < 256) ∧
    8 * ps.flatten.length < 2 ^ 64 ∧ findSha x.head.attrs = shaInst sortT sortK junk x.inst

/-- The text that is hashed for an instance. -/
def text (sortT : List T → List T) (sortK : List Key → List Key) (x : Tree) : List Byte :=
  toBytes (((shaText sortT sortK x.inst).getD []).flatten)

theorem perm_map_key {l l' : List Tree} (h : (l.map fun t => key t.kid).Perm (l'.map fun t => key t.kid)) :
    ∃ m, l.Perm m ∧ (m.map fun t => key t.kid) = l'.map fun t => key t.kid := by
  have hf : List.Forall₂ (fun b a => b = key (Tree.kid a)) (l.map fun t => key t.kid) l := by
    rw [List.forall₂_map_left_iff]
    exact List.forall₂_same.2 fun _ _ => rfl
  obtain ⟨m, h1, h2⟩ := List.perm_comp_forall₂ h.symm hf
  refine ⟨m, h2.symm, ?_⟩
  rw [List.forall₂_map_left_iff] at h1
  clear hf h h2
  induction h1 with
  | nil => rfl
  | cons h _ ih => rw [List.map_cons, List.map_cons, ih, h]

/-- Heads of instances with the same key and the same formals. -/
theorem pins_eq {l l' : List Pin} (h : l.map Pin.formal = l'.map Pin.formal) (k : l.map Pin.acts = l'.map Pin.acts) : l = l' := by
  induction l generalizing l' with
  | nil => cases l' with
    | nil => rfl
    | cons _ _ => simp at h
  | cons a l ih =>
    cases l' with
    | nil => simp at h
    | cons b l' =>
      simp only [List.map_cons, List.cons.injEq] at h k
      obtain ⟨f, g⟩ := a
      obtain ⟨f', g'⟩ := b
      simp only at h k
      rw [ih h.2 k.2, h.1, k.1]

theorem SameTree.same_head {a b : Tree} (h : SameTree a b) : SameHead a.head b.head := by
  cases h with
  | leaf h _ => exact h
  | hier h _ _ => exact h

/-- **Hierarchies.**  Two hierarchies, every instance of which was signed by the program and has no confusing names, with the
same signature: either they are the same but for the order of functions and instances, or two instances in them are a
collision of SHA-256. -/
theorem c83_hierarchy_partial : ∃ k h0, Fips.Constants k h0 ∧ ∀ (sortT : List T → List T) (sortK : List Key → List Key),
    QSorts tcmp sortT → QSorts keyCmp sortK → ∀ a b : Tree,
    (∀ x, Within x a → Signed sortT sortK x) → (∀ x, Within x b → Signed sortT sortK x) →
    findSha a.head.attrs = findSha b.head.attrs →
    SameTree a b ∨ ∃ x y, Within x a ∧ Within y b ∧ text sortT sortK x ≠ text sortT sortK y ∧
      (Fips.sha256 k h0 (text sortT sortK x)).flatMap Fips.hex = (Fips.sha256 k h0 (text sortT sortK y)).flatMap Fips.hex := by
  obtain ⟨k, h0, hk, hsha⟩ := c79_sha256
  refine ⟨k, h0, hk, ?_⟩
  intro sortT sortK hT hK
  suffices H : ∀ n (a b : Tree), sizeOf a < n → (∀ x, Within x a → Signed sortT sortK x) → (∀ x, Within x b → Signed sortT sortK x) →
      findSha a.head.attrs = findSha b.head.attrs → SameTree a b ∨ ∃ x y, Within x a ∧ Within y b ∧
      text sortT sortK x ≠ text sortT sortK y ∧
      (Fips.sha256 k h0 (text sortT sortK x)).flatMap Fips.hex = (Fips.sha256 k h0 (text sortT sortK y)).flatMap Fips.hex by
    intro a b; exact H _ a b (Nat.lt_succ_self _)
  intro n
  induction n with
  | zero => intro a b h; omega
  | succ n ih =>
    intro a b hn ha hb hs
    obtain ⟨ca, ja, psa, hja, hta, hla, hba, hfa⟩ := ha a .self
    obtain ⟨cb, jb, psb, hjb, htb, hlb, hbb, hfb⟩ := hb b .self
    by_cases he : text sortT sortK a = text sortT sortK b
    · have hch : ∀ ps : List Text, (∀ p ∈ ps, p.length ≤ 4095 ∧ ∀ c ∈ p, c.toNat < 256) → ∀ c ∈ ps.flatten, c.toNat < 256 := by
        intro ps h c hc
        obtain ⟨p, hp, hc⟩ := List.mem_flatten.1 hc
        exact (h p hp).2 c hc
      have hfl : psa.flatten = psb.flatten := by
        unfold text at he
        rw [hta, htb] at he
        exact toBytes_inj _ _ (hch psa hla) (hch psb hlb) he
      have hso := c83_text_partial hT hK a.inst b.inst ca cb psa psb hta htb hfl
      obtain ⟨i1, i2, i3, i4, i5⟩ := hso
      cases a with
      | leaf h fns =>
        cases b with
        | leaf h' fns' => exact .inl (.leaf ⟨i1, i2, i3, i4⟩ i5)
        | hier h' kids' => exact i5.elim
      | hier h kids =>
        cases b with
        | leaf h' fns' => exact i5.elim
        | hier h' kids' =>
          have i5 : ((kids.map Tree.kid).map key).Perm ((kids'.map Tree.kid).map key) := i5
          rw [List.map_map, List.map_map] at i5
          obtain ⟨m, m1, m2⟩ := perm_map_key i5
          -- every instance inside
          have hall : ∀ (l l' : List Tree), (∀ t ∈ l, t ∈ kids) → (∀ t ∈ l', t ∈ kids') →
              (l.map fun t => key t.kid) = (l'.map fun t => key t.kid) → SameKids l l' ∨
              ∃ x y, Within x (.hier h kids) ∧ Within y (.hier h' kids') ∧ text sortT sortK x ≠ text sortT sortK y ∧
              (Fips.sha256 k h0 (text sortT sortK x)).flatMap Fips.hex =
                (Fips.sha256 k h0 (text sortT sortK y)).flatMap Fips.hex := by
            intro l
            induction l with
            | nil =>
              intro l' _ _ h
              cases l' with
              | nil => exact .inl .nil
              | cons _ _ => simp at h
            | cons c l ihl =>
              intro l' q1 q2 q
              cases l' with
              | nil => simp at q
              | cons c' l' =>
                simp only [List.map_cons, List.cons.injEq] at q
                have w1 : c ∈ kids := q1 c (by simp)
                have w2 : c' ∈ kids' := q2 c' (by simp)
                rcases ihl l' (fun t ht => q1 t (by simp [ht])) (fun t ht => q2 t (by simp [ht])) q.2 with r | r
                · have hsz : sizeOf c < n := by
                    have := List.sizeOf_lt_of_mem w1
                    simp only [Tree.hier.sizeOf_spec] at hn
                    omega
                  have hkey := q.1
                  unfold key at hkey
                  have hsh : findSha c.head.attrs = findSha c'.head.attrs := by
                    cases e1 : findSha c.kid.attrs with
                    | none =>
                      cases e2 : findSha c'.kid.attrs with
                      | none => exact e1.trans e2.symm
                      | some s => rw [e1, e2] at hkey; simp at hkey
                    | some s =>
                      cases e2 : findSha c'.kid.attrs with
                      | none => rw [e1, e2] at hkey; simp at hkey
                      | some s' =>
                        rw [e1, e2] at hkey
                        simp only [Option.map_some, Option.some.injEq, Key.mk.injEq] at hkey
                        exact e1.trans ((congrArg some hkey.2.1).trans e2.symm)
                  rcases ih c c' hsz (fun x hx => ha x (.kid w1 hx)) (fun x hx => hb x (.kid w2 hx)) hsh with s | ⟨x, y, x1, y1, z⟩
                  · have hacts : c.head.inps.map Pin.acts = c'.head.inps.map Pin.acts ∧
                        c.head.outs.map Pin.acts = c'.head.outs.map Pin.acts := by
                      obtain ⟨_, jc, pc, _, hpc, _, _, hfc⟩ := ha c (.kid w1 .self)
                      have e1 : findSha c.kid.attrs = some (hashOf jc (pc.map toBytes)) := by
                        show findSha c.head.attrs = _
                        rw [hfc, shaInst, hpc]; rfl
                      have e2 : findSha c'.kid.attrs = some (hashOf jc (pc.map toBytes)) := hsh ▸ e1
                      rw [e1, e2] at hkey
                      simp only [Option.map_some, Option.some.injEq, Key.mk.injEq] at hkey
                      exact ⟨hkey.2.2.1, hkey.2.2.2⟩
                    have sh := s.same_head
                    exact .inl (.cons s (pins_eq sh.inps hacts.1) (pins_eq sh.outs hacts.2) r)
                  · exact .inr ⟨x, y, .kid w1 x1, .kid w2 y1, z⟩
                · exact .inr r
          rcases hall m kids' (fun t ht => m1.mem_iff.2 ht) (fun t ht => ht) m2 with r | r
          · exact .inl (.hier ⟨i1, i2, i3, i4⟩ m1 r)
          · exact .inr r
    · refine .inr ⟨a, b, .self, .self, he, ?_⟩
      have e : ∀ (x : Tree) (j : List Byte) (ps : List Text), j.length = 64 → shaText sortT sortK x.inst = some ps →
          (∀ p ∈ ps, p.length ≤ 4095 ∧ ∀ c ∈ p, c.toNat < 256) → 8 * ps.flatten.length < 2 ^ 64 →
          shaInst sortT sortK j x.inst = some ((Fips.sha256 k h0 (text sortT sortK x)).flatMap Fips.hex) := by
        intro x j ps hj ht hl hb
        rw [shaInst, ht, Option.map_some, hsha j _ hj (by
          intro t ht
          obtain ⟨p, hp1, rfl⟩ := List.mem_map.1 ht
          simpa [toBytes] using (hl p hp1).1) (by rw [flatten_bytes, toBytes, List.length_map]; exact hb), flatten_bytes, text, ht]
        rfl
      rw [hfa, hfb, e a ja psa hja hta hla hba, e b jb psb hjb htb hlb hbb] at hs
      exact Option.some.inj hs

/-! ### Violations -/

/-- A circuit with one instance inside. -/
def around (pins : List Pin) : Inst T := ⟨"p".toList, [], [], [], .hier [⟨"c".toList, [("SHA".toList, "0".toList)], pins, [], []⟩]⟩

theorem around_sha (hK : QSorts keyCmp sortK) (junk : List Byte) (pins : List Pin) : shaInst sortT sortK junk (around pins) =
    some (hashOf junk ((headText (around pins) ++ kidText 1 [⟨"c".toList, "0".toList, pins.map Pin.acts, []⟩]).map toBytes)) := by
  have hs : ∀ k, sortK [k] = [k] := fun k => List.perm_singleton.1 (hK good_key [k]).1
  have : keys [⟨"c".toList, [("SHA".toList, "0".toList)], pins, [], []⟩] =
      some [⟨"c".toList, "0".toList, pins.map Pin.acts, []⟩] := by simp [keys, key, findSha]
  simp only [shaInst, shaText, contentText, around, this, Option.map_some, hs]

/-- **Violated: spaces in names.**  An actual with a space, which escaped identifiers have, is not distinguished from two
actuals; nor is an actual with `]:` from the start of the next pin. -/
theorem c83_space_violated (hK : QSorts keyCmp sortK) (junk : List Byte) (hj : junk.length = 64) :
    shaInst sortT sortK junk (around [⟨"i".toList, ["a b".toList]⟩]) =
      shaInst sortT sortK junk (around [⟨"i".toList, ["a".toList, "b".toList]⟩]) ∧
    shaInst sortT sortK junk (around [⟨"i".toList, ["a".toList]⟩, ⟨"j".toList, ["b".toList]⟩]) =
      shaInst sortT sortK junk (around [⟨"i".toList, ["a".toList, "act[2]:b".toList]⟩]) := by
  constructor
  · rw [around_sha hK, around_sha hK]
    exact congrArg some (c79_pieces junk junk _ _ hj hj (by decide +kernel) (by decide +kernel) (by decide +kernel)
      (by decide +kernel))
  · rw [around_sha hK, around_sha hK]
    exact congrArg some (c79_pieces junk junk _ _ hj hj (by decide +kernel) (by decide +kernel) (by decide +kernel)
      (by decide +kernel))

/-- **Violated: empty contents.**  A leaf without functions and a hierarchy without instances have the same signature. -/
theorem c83_empty_violated (hT : QSorts tcmp sortT) (hK : QSorts keyCmp sortK) (junk : List Byte) (n : Name) (i o : List Pin)
    (m : List Name) : shaInst sortT sortK junk ⟨n, i, o, m, .leaf []⟩ = shaInst sortT sortK junk ⟨n, i, o, m, .hier []⟩ := by
  have h1 : sortT [] = [] := List.Perm.eq_nil (hT good_tcmp []).1
  have h2 : sortK [] = [] := List.Perm.eq_nil (hK good_key []).1
  simp only [shaInst, shaText, contentText, keys, h1, h2, Option.map_some, fnLines, kidText]
  rfl
end

/-! ### Examples -/

/-- Insertion sort, as an instance of the contract. -/
def insert' {α} (cmp : α → α → Ordering) (a : α) : List α → List α
  | [] => [a]
  | b :: l => if cmp a b = .gt then b :: insert' cmp a l else a :: b :: l
def isort {α} (cmp : α → α → Ordering) : List α → List α
  | [] => []
  | a :: l => insert' cmp a (isort cmp l)

theorem good_le_trans {α} {cmp : α → α → Ordering} (hg : Good cmp) {a b c : α} (h1 : cmp a b ≠ .gt) (h2 : cmp b c ≠ .gt) :
    cmp a c ≠ .gt := by
  cases e1 : cmp a b with
  | gt => exact absurd e1 h1
  | eq => rw [hg.eq] at e1; rw [e1]; exact h2
  | lt =>
    cases e2 : cmp b c with
    | gt => exact absurd e2 h2
    | eq => rw [hg.eq] at e2; rw [← e2]; exact h1
    | lt => rw [hg.trans _ _ _ e1 e2]; simp

theorem insert_spec {α} {cmp : α → α → Ordering} (hg : Good cmp) (a : α) (l : List α)
    (h : l.Pairwise fun a b => cmp a b ≠ .gt) :
    (insert' cmp a l).Perm (a :: l) ∧ (insert' cmp a l).Pairwise fun a b => cmp a b ≠ .gt := by
  induction l with
  | nil => exact ⟨.refl _, by simp [insert']⟩
  | cons b l ih =>
    rw [List.pairwise_cons] at h
    obtain ⟨i1, i2⟩ := ih h.2
    rw [insert']
    by_cases hc : cmp a b = .gt
    · rw [if_pos hc]
      refine ⟨(i1.cons b).trans (.swap a b l), ?_⟩
      rw [List.pairwise_cons]
      refine ⟨fun x hx => ?_, i2⟩
      rcases List.mem_cons.1 (i1.mem_iff.1 hx) with rfl | hx
      · rw [hg.swap, hc]; simp
      · exact h.1 x hx
    · rw [if_neg hc]
      refine ⟨.refl _, ?_⟩
      rw [List.pairwise_cons]
      refine ⟨fun x hx => ?_, List.pairwise_cons.2 h⟩
      rcases List.mem_cons.1 hx with rfl | hx
      · exact hc
      · exact good_le_trans hg hc (h.1 x hx)

theorem isort_sorts {α} (cmp : α → α → Ordering) : QSorts cmp (isort cmp) := by
  intro hg l
  induction l with
  | nil => exact ⟨.refl _, .nil⟩
  | cons a l ih =>
    obtain ⟨h1, h2⟩ := insert_spec hg a _ ih.2
    exact ⟨h1.trans (ih.1.cons a), h2⟩

/-- A hierarchy of a leaf in an instance. -/
def leafWith (sig : Text) : Tree := .leaf ⟨"l".toList, [("SHA".toList, sig)],
  [⟨"i".toList, ["a".toList]⟩], [⟨"o".toList, ["b".toList]⟩], []⟩ [.cons (.str "W_NOT".toList) (.int 1)]
def topWith (sig sig' : Text) : Tree := .hier ⟨"t".toList, [("SHA".toList, sig')],
  [⟨"a".toList, []⟩], [⟨"b".toList, []⟩], []⟩ [leafWith sig]

/-- The text of the leaf and of the whole. -/
example : (shaText (isort tcmp) (isort keyCmp) (leafWith []).inst).map List.flatten =
    some "l\ni:i\no:o\n2=\"W_NOT\"\n3=I1\n1=2:3\nfn[1]:1\n".toList := by decide +kernel
example : (shaText (isort tcmp) (isort keyCmp) (topWith "SIG".toList []).inst).map List.flatten =
    some "t\ni:a\no:b\nch[1]:l SIG act_inps:\nact[1]:a act_outs:\nact[1]:b ".toList := by decide +kernel

/-- Their signatures. -/
def sigLeaf : Text := (shaInst (isort tcmp) (isort keyCmp) (List.replicate 64 0) (leafWith []).inst).getD []
def sigTop : Text := (shaInst (isort tcmp) (isort keyCmp) (List.replicate 64 0) (topWith sigLeaf []).inst).getD []

instance (s : Text) : Decidable (OneLine s) := inferInstanceAs (Decidable (∀ c ∈ s, _))
instance (s : Text) : Decidable (Word s) := inferInstanceAs (Decidable (_ ∧ _ ∧ _))

theorem sig_of (x : Inst T) (h : (shaText (isort tcmp) (isort keyCmp) x).isSome = true) :
    some ((shaInst (isort tcmp) (isort keyCmp) (List.replicate 64 0) x).getD []) =
      shaInst (isort tcmp) (isort keyCmp) (List.replicate 64 0) x := by
  unfold shaInst
  cases e : shaText (isort tcmp) (isort keyCmp) x with
  | none => rw [e] at h; simp at h
  | some ps => rfl

/-- The hypotheses of the theorem hold of this hierarchy. -/
example : ∀ x, Within x (topWith sigLeaf sigTop) → Signed (isort tcmp) (isort keyCmp) x := by
  have h1 : Signed (isort tcmp) (isort keyCmp) (leafWith sigLeaf) := by
    refine ⟨⟨by decide, by decide, by decide, by decide, ⟨by simp, ?_⟩⟩, List.replicate 64 0, _, rfl, rfl, by decide +kernel,
      by decide +kernel, sig_of (leafWith []).inst (by decide +kernel)⟩
    intro t ht
    simp only [List.mem_cons, List.not_mem_nil, or_false] at ht
    subst ht
    exact ⟨show OneLine _ by decide, trivial⟩
  have h2 : Signed (isort tcmp) (isort keyCmp) (topWith sigLeaf sigTop) := by
    refine ⟨⟨by decide, by decide, by decide, by decide, ?_⟩, List.replicate 64 0, _, rfl, rfl, by decide +kernel,
      by decide +kernel, sig_of (topWith sigLeaf []).inst (by decide +kernel)⟩
    intro c hc k hk
    simp only [List.map_cons, List.map_nil, List.mem_cons, List.not_mem_nil, or_false] at hc
    subst hc
    obtain rfl := Option.some.inj hk
    exact ⟨by decide +kernel, by decide +kernel, by decide +kernel, by decide +kernel⟩
  intro x hx
  cases hx with
  | self => exact h2
  | kid hc hx =>
    simp only [List.mem_cons, List.not_mem_nil, or_false] at hc
    subst hc
    cases hx with
    | self => exact h1

end Voss.Inst
