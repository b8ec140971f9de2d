import Verif.Hier.Fresh

namespace Voss.Hier
open Vec

/-! ### C76: unfolding an instance -/

theorem conn_mem {ps : List Pin} {c : List (Name × Name)} (h : conn ps = some c) {x : Name × Name} :
    x ∈ c ↔ ∃ p ∈ ps, ∃ d, connPin p = some d ∧ x ∈ d := by
  induction ps generalizing c with
  | nil => simp only [conn, Option.some.injEq] at h; subst h; simp
  | cons p ps ih =>
    obtain ⟨a, b, h1, h2, rfl⟩ := conn_cons h
    simp only [List.mem_append, List.mem_cons, exists_eq_or_imp, h1, Option.some.injEq, ih h2]
    simp

theorem conn_reverse {ps : List Pin} {c : List (Name × Name)} (h : conn ps = some c) :
    ∃ d, conn ps.reverse = some d ∧ ∀ x, x ∈ d ↔ x ∈ c := by
  have happ : ∀ (as bs : List Pin) (a b : List (Name × Name)), conn as = some a → conn bs = some b →
      conn (as ++ bs) = some (a ++ b) := by
    intro as
    induction as with
    | nil => intro bs a b h1 h2; simp only [conn, Option.some.injEq] at h1; subst h1; simpa using h2
    | cons p as ih =>
      intro bs a b h1 h2
      obtain ⟨x, y, h3, h4, rfl⟩ := conn_cons h1
      simp only [List.cons_append, conn, h3, ih bs y b h4 h2]
      simp
  have : ∃ d, conn ps.reverse = some d := by
    induction ps generalizing c with
    | nil => exact ⟨[], rfl⟩
    | cons p ps ih =>
      obtain ⟨a, b, h1, h2, rfl⟩ := conn_cons h
      obtain ⟨d, hd⟩ := ih h2
      rw [List.reverse_cons]
      refine ⟨d ++ a, happ _ _ _ _ hd ?_⟩
      simp [conn, h1]
  obtain ⟨d, hd⟩ := this
  refine ⟨d, hd, fun x => ?_⟩
  rw [conn_mem hd, conn_mem h]
  simp

theorem substKids_spec {kc : List (Name × Name)} {ρ : Name → Name} {t : Tbl} (hs : Sound (via kc ρ) t)
    (hk : ∀ b, ConstBit b → via kc ρ b = b) (attrs : List (Name × Name)) :
    ∀ {gs gs' : List Pex},
    (∀ g ∈ gs, ∀ p ∈ g.inps ++ g.outs, ∃ al, mdExpandAll p.acts = some al ∧ ∀ b ∈ al, b ∈ t.map Prod.fst ∨ ConstBit b) →
    substKids t attrs gs = some gs' → List.Forall₂ (Rewired kc ρ attrs) gs gs'
  | [], gs', _, h => by
    simp only [substKids, Option.some.injEq] at h
    subst h
    exact .nil
  | g :: gs, gs', hd, h => by
    simp only [List.mem_cons, forall_eq_or_imp] at hd
    simp only [substKids] at h
    cases h1 : substPins t g.inps with
    | none => simp [h1] at h
    | some i =>
      cases h2 : substPins t g.outs with
      | none => simp [h1, h2] at h
      | some o =>
        cases h3 : substKids t attrs gs with
        | none => simp [h1, h2, h3] at h
        | some r =>
          simp only [h1, h2, h3, Option.bind_eq_bind, Option.bind_some, Option.some.injEq] at h
          subst h
          obtain ⟨e1, e2⟩ := substPins_spec hs hk (fun p hp => hd.1 p (List.mem_append_left _ hp)) h1
          obtain ⟨e3, e4⟩ := substPins_spec hs hk (fun p hp => hd.1 p (List.mem_append_right _ hp)) h2
          exact .cons ⟨rfl, rfl, rfl, rfl, rfl, rfl, e1, e3, e2, e4⟩ (substKids_spec hs hk attrs hd.2 h3)

theorem of_bind {α β : Type} {r : Res α} {f : α → Res β} {b : β} (h : r.bind f = .ok b) :
    ∃ a, r = .ok a ∧ f a = .ok b := by
  cases r with
  | ok a => exact ⟨a, rfl, h⟩
  | fail => simp [Res.bind] at h
  | ub => simp [Res.bind] at h

theorem of_some {α : Type} {o : Option α} {a : α} (h : Res.of o = .ok a) : o = some a := by
  cases o with
  | none => simp [Res.of] at h
  | some b => simp only [Res.of, Res.ok.injEq] at h; rw [h]

theorem mdExpandAll_mem {ss l : List Name} (h : mdExpandAll ss = some l) :
    ∀ s ∈ ss, ∃ a, mdExpand s = some a ∧ ∀ b ∈ a, b ∈ l := by
  induction ss generalizing l with
  | nil => simp
  | cons s ss ih =>
    obtain ⟨a, b, h1, h2, rfl⟩ := mdExpandAll_cons h
    simp only [List.mem_cons, forall_eq_or_imp]
    refine ⟨⟨a, h1, fun x hx => List.mem_append_left _ hx⟩, ?_⟩
    intro s hs
    obtain ⟨x, h3, h4⟩ := ih h2 s hs
    exact ⟨x, h3, fun y hy => List.mem_append_right _ (h4 y hy)⟩

theorem mdExpandAll_mem_inv {ss l : List Name} (h : mdExpandAll ss = some l) :
    ∀ b ∈ l, ∃ s ∈ ss, ∃ a, mdExpand s = some a ∧ b ∈ a := by
  induction ss generalizing l with
  | nil => simp only [mdExpandAll, Option.some.injEq] at h; subst h; simp
  | cons s ss ih =>
    obtain ⟨a, b, h1, h2, rfl⟩ := mdExpandAll_cons h
    intro x hx
    rcases List.mem_append.1 hx with hx | hx
    · exact ⟨s, by simp, a, h1, hx⟩
    · obtain ⟨s', h3, a', h4, h5⟩ := ih h2 x hx
      exact ⟨s', by simp [h3], a', h4, h5⟩

theorem mdExpandAll_ex {ss : List Name} (h : ∀ s ∈ ss, ∃ a, mdExpand s = some a) : ∃ l, mdExpandAll ss = some l := by
  induction ss with
  | nil => exact ⟨[], rfl⟩
  | cons s ss ih =>
    simp only [List.mem_cons, forall_eq_or_imp] at h
    obtain ⟨⟨a, ha⟩, h⟩ := h
    obtain ⟨b, hb⟩ := ih h
    exact ⟨a ++ b, by simp [mdExpandAll, ha, hb]⟩

/-- **Unfolding keeps the connections.**  Let the instance `k` be unfolded, the bits of its formals be connected to
bits outside by `kc`, and its internal bits be `kb`.  There is a renaming `ρ` of the internal bits, under which they
are distinct from each other and from all bits that the circuit declares, such that the instances inside `k` take its
place and every bit of every formal is connected as before: to the bit that the corresponding formal of `k` was
connected to, or to the renamed internal bit.  Missing: connections written with more than one index group, escaped
names of internals. -/
theorem c76_wires_partial (sort : List Vec → List Vec) (hsort : ∀ l, (sort l).Perm l) {p p' k : Pex} {kids gs : List Pex} {id : Nat}
    {kc : List (Name × Name)} {kb pb : List Name}
    (hp : p.kids = some kids) (hi : kids[id]? = some k) (hk : k.kids = some gs)
    (hc : conn (k.inps ++ k.outs) = some kc) (hb : mdExpandAll k.inter = some kb)
    (hpb : mdExpandAll (declared p) = some pb)
    (hnd : (kc.map Prod.fst ++ kb).Nodup) (hcon : ∀ b, ConstBit b → b ∉ kc.map Prod.fst ++ kb)
    (hpc : ∀ s ∈ declared p, ¬ IsConstant s)
    (hacts : ∀ a ∈ pinActs k, Proper1 a) (hint : ∀ n ∈ k.inter, Ordinary n)
    (hdecl : ∀ g ∈ gs, ∀ a ∈ pinActs g, ∃ l, mdExpand a = some l ∧
      ∀ b ∈ l, b ∈ kc.map Prod.fst ++ kb ∨ ConstBit b)
    (h : unfold sort p (id + 1) = .ok p') :
    ∃ (ρ : Name → Name) (gs' : List Pex),
      (∀ a ∈ kb, ∀ b ∈ kb, ρ a = ρ b → a = b) ∧ (∀ a ∈ kb, ρ a ∉ pb) ∧ (∀ a, a ∉ kb → ρ a = a) ∧
      p'.kids = some (kids.eraseIdx id ++ gs') ∧ List.Forall₂ (Rewired kc ρ k.attrs) gs gs' ∧
      p'.name = p.name ∧ p'.attrs = p.attrs ∧ p'.leaf = p.leaf ∧ p'.inps = p.inps ∧ p'.outs = p.outs ∧
      ((∀ s ∈ p.inter, ProperE s) → ∃ ib ib', mdExpandAll p.inter = some ib ∧ mdExpandAll p'.inter = some ib' ∧
        ∀ b, b ∈ ib' ↔ b ∈ ib ∨ ∃ a ∈ kb, ρ a = b) := by
  unfold unfold at h
  simp only [hp] at h
  obtain ⟨vdb, hv, h⟩ := of_bind h
  have hv := of_some hv
  simp only [Nat.add_one_ne_zero, if_false, Nat.add_sub_cancel, hi, hk] at h
  obtain ⟨t1, ht1, h⟩ := of_bind h
  obtain ⟨t2, ht2, h⟩ := of_bind h
  obtain ⟨new, hnew, h⟩ := of_bind h
  obtain ⟨t3, ht3, h⟩ := of_bind h
  obtain ⟨gs', hgs, h⟩ := of_bind h
  obtain ⟨inter, hin, h⟩ := of_bind h
  simp only [Res.ok.injEq] at h
  subst h
  obtain ⟨hon, ob, nb, c, r1, r2, r3, r4, r5, r6, r7, r8⟩ := renameAll_spec k.inter vdb new hint (of_some hnew)
  rw [hb] at r1
  simp only [Option.some.injEq] at r1
  subst r1
  have hkb : kb.Nodup := (List.nodup_append.1 hnd).2.1
  have hkc : (kc.map Prod.fst).Nodup := (List.nodup_append.1 hnd).1
  have hnb := r8 hkb
  have hfst : (kb.zip nb).map Prod.fst = kb := List.map_fst_zip (by omega)
  have hsnd : (kb.zip nb).map Prod.snd = nb := List.map_snd_zip (by omega)
  let ρ : Name → Name := fun n => ((kb.zip nb).lookup n).getD n
  have hρ : ∀ x ∈ kb.zip nb, ρ x.1 = x.2 := by
    intro x hx
    have := lookup_nodup (t := kb.zip nb) (by rw [hfst]; exact hkb) (s := x.1) (r := x.2) hx
    simp only [ρ, this, Option.getD_some]
  have hρout : ∀ a, a ∉ kb → ρ a = a := by
    intro a ha
    have : (kb.zip nb).lookup a = none := by
      cases hl : (kb.zip nb).lookup a with
      | none => rfl
      | some r => exact absurd (by rw [← hfst, ← lookup_isSome, hl]; rfl) ha
    simp only [ρ, this, Option.getD_none]
  have hρin : ∀ a ∈ kb, (a, ρ a) ∈ kb.zip nb := by
    intro a ha
    rw [← hfst] at ha
    obtain ⟨x, hx, rfl⟩ := List.mem_map.1 ha
    rw [hρ x hx]
    exact hx
  have hρmem : ∀ a ∈ kb, ρ a ∈ nb := fun a ha => by
    rw [← hsnd]
    exact List.mem_map.2 ⟨_, hρin a ha, rfl⟩
  have hviac : ∀ x ∈ kc, via kc ρ x.1 = x.2 := by
    intro x hx
    simp only [via, lookup_nodup hkc (s := x.1) (r := x.2) hx, Option.getD_some]
  have hvian : ∀ x ∈ kb.zip nb, via kc ρ x.1 = x.2 := by
    intro x hx
    have hm : x.1 ∈ kb := by rw [← hfst]; exact List.mem_map.2 ⟨x, hx, rfl⟩
    have : kc.lookup x.1 = none := by
      cases hl : kc.lookup x.1 with
      | none => rfl
      | some r =>
        have : x.1 ∈ kc.map Prod.fst := by rw [← lookup_isSome, hl]; rfl
        exact absurd rfl ((List.nodup_append.1 hnd).2.2 _ this _ hm)
    simp only [via, this, Option.getD_none]
    exact hρ x hx
  have hviak : ∀ b, ConstBit b → via kc ρ b = b := by
    intro b hb
    have hn := hcon b hb
    simp only [List.mem_append, not_or] at hn
    have : kc.lookup b = none := by
      cases hl : kc.lookup b with
      | none => rfl
      | some r => exact absurd (by rw [← lookup_isSome, hl]; rfl) hn.1
    simp only [via, this, Option.getD_none]
    exact hρout b hn.2
  obtain ⟨ci, co, hci, hco, rfl⟩ := conn_append hc
  have hfine : ∀ q ∈ k.inps ++ k.outs, ∀ a ∈ q.acts, Fine a := by
    intro q hq a ha
    exact proper1_good (hacts a (List.mem_flatMap.2 ⟨q, hq, ha⟩))
  obtain ⟨a1, a2, a3⟩ := mkSubst_spec (via (ci ++ co) ρ) k.inps [] t1 ci ht1 hci
    (fun q hq => hfine q (List.mem_append_left _ hq)) (fun x hx => hviac x (List.mem_append_left _ hx)) (by simp [Sound])
  obtain ⟨b1, b2, b3⟩ := mkSubst_spec (via (ci ++ co) ρ) k.outs t1 t2 co ht2 hco
    (fun q hq => hfine q (List.mem_append_right _ hq)) (fun x hx => hviac x (List.mem_append_right _ hx)) a1
  obtain ⟨d, hd1, hd2⟩ := conn_reverse r4
  obtain ⟨c1, c2, c3⟩ := mkSubst_spec (via (ci ++ co) ρ) _ t2 t3 d ht3 hd1
    (by
      intro q hq a ha
      simp only [List.mem_reverse, List.mem_map] at hq
      obtain ⟨x, hx, rfl⟩ := hq
      simp only [List.mem_singleton] at ha
      subst ha
      exact ordinary_fine (hon _ (List.of_mem_zip hx).2))
    (fun x hx => hvian x (by rw [← r5]; exact (hd2 x).1 hx)) b1
  have hkeys : ∀ b ∈ (ci ++ co).map Prod.fst ++ kb, b ∈ t3.map Prod.fst := by
    intro b hb
    simp only [List.map_append, List.mem_append] at hb
    rcases hb with (hb | hb) | hb
    · exact c2 b (b2 b (a3 b hb))
    · exact c2 b (b3 b hb)
    · refine c3 b ?_
      rw [← hfst, List.mem_map] at hb
      obtain ⟨x, hx, rfl⟩ := hb
      exact List.mem_map.2 ⟨x, (hd2 x).2 (by rw [r5]; exact hx), rfl⟩
  refine ⟨ρ, gs', ?_, ?_, hρout, rfl, ?_, rfl, rfl, rfl, rfl, rfl, ?_⟩
  · intro a ha b hb e
    have h1 := hρin a ha
    have h2 := hρin b hb
    rw [← e] at h2
    have hsw : ((kb.zip nb).map Prod.swap).map Prod.fst = nb := by
      rw [List.map_map]; exact hsnd
    have e1 := lookup_nodup (t := (kb.zip nb).map Prod.swap) (by rw [hsw]; exact hnb)
      (List.mem_map.2 ⟨_, h1, rfl⟩ : (ρ a, a) ∈ _)
    have e2 := lookup_nodup (t := (kb.zip nb).map Prod.swap) (by rw [hsw]; exact hnb)
      (List.mem_map.2 ⟨_, h2, rfl⟩ : (ρ a, b) ∈ _)
    rw [e1] at e2
    exact Option.some.inj e2
  · intro a ha hm
    obtain ⟨s, hs, l, hl, hbl⟩ := mdExpandAll_mem_inv hpb _ hm
    obtain ⟨x, hx, hx'⟩ := vdbOf_mem hv s hs
    exact r6 _ (hρmem a ha) x (by rw [base_bit (hpc s hs) hl _ hbl]; exact hx') hx
  · refine substKids_spec c1 hviak k.attrs ?_ (of_some hgs)
    intro g hg q hq
    have hq' : ∀ a ∈ q.acts, ∃ l, mdExpand a = some l ∧ ∀ b ∈ l, b ∈ (ci ++ co).map Prod.fst ++ kb ∨ ConstBit b :=
      fun a ha => hdecl g hg a (List.mem_flatMap.2 ⟨q, hq, ha⟩)
    obtain ⟨al, hal⟩ := mdExpandAll_ex fun a ha => (hq' a ha).imp fun _ h => h.1
    refine ⟨al, hal, ?_⟩
    intro b hb
    obtain ⟨a, ha, l, hl, hbl⟩ := mdExpandAll_mem_inv hal b hb
    obtain ⟨l', hl', hall⟩ := hq' a ha
    rw [hl] at hl'
    simp only [Option.some.injEq] at hl'
    subst hl'
    exact (hall b hbl).imp (hkeys b) fun h => h
  · intro hpe
    obtain ⟨l, l', hl, hl', hiff⟩ := c72_bits_partial sort hsort (names := new.reverse ++ p.inter) (by
      intro s hs
      rcases List.mem_append.1 hs with hs | hs
      · exact ordinary_properE (hon s (List.mem_reverse.1 hs))
      · exact hpe s hs) (of_some hin)
    obtain ⟨ib, hib⟩ := mdExpandAll_ex fun s (hs : s ∈ p.inter) =>
      (mdExpandAll_mem hl s (List.mem_append_right _ hs)).imp fun _ h => h.1
    refine ⟨ib, l', hib, hl', ?_⟩
    intro b
    rw [hiff b]
    constructor
    · intro hb
      obtain ⟨s, hs, a, ha, hba⟩ := mdExpandAll_mem_inv hl b hb
      rcases List.mem_append.1 hs with hs | hs
      · obtain ⟨a', ha', hin'⟩ := mdExpandAll_mem r2 s (List.mem_reverse.1 hs)
        rw [ha] at ha'
        simp only [Option.some.injEq] at ha'
        subst ha'
        have hb' := hin' b hba
        rw [← hsnd] at hb'
        obtain ⟨x, hx, rfl⟩ := List.mem_map.1 hb'
        exact .inr ⟨x.1, by rw [← hfst]; exact List.mem_map.2 ⟨x, hx, rfl⟩, hρ x hx⟩
      · obtain ⟨a', ha', hin'⟩ := mdExpandAll_mem hib s hs
        rw [ha] at ha'
        simp only [Option.some.injEq] at ha'
        subst ha'
        exact .inl (hin' b hba)
    · rintro (hb | ⟨a, ha, rfl⟩)
      · obtain ⟨s, hs, a, ha, hba⟩ := mdExpandAll_mem_inv hib b hb
        obtain ⟨a', ha', hin'⟩ := mdExpandAll_mem hl s (List.mem_append_right _ hs)
        rw [ha] at ha'
        simp only [Option.some.injEq] at ha'
        subst ha'
        exact hin' b hba
      · obtain ⟨s, hs, x, hx, hbx⟩ := mdExpandAll_mem_inv r2 _ (hρmem a ha)
        obtain ⟨a', ha', hin'⟩ := mdExpandAll_mem hl s (List.mem_append_left _ (List.mem_reverse.2 hs))
        rw [hx] at ha'
        simp only [Option.some.injEq] at ha'
        subst ha'
        exact hin' _ hbx

/-- **New names are found**: the search for a name whose base name is not in use ends, whatever is in use. -/
theorem c76_rename_partial (vdb os : List Name) (h : ∀ o ∈ os, Ordinary o) : ∃ new, renameAll vdb os = some new :=
  renameAll_total os vdb h

/-- An instance without instances inside is left alone, and there is no instance 0 and none after the last one. -/
theorem c76_other (sort : List Vec → List Vec) {p : Pex} {kids : List Pex} {vdb : List Name} (hp : p.kids = some kids)
    (hv : vdbOf (declared p) = some vdb) :
    unfold sort p 0 = .fail ∧
    (∀ id, kids.length ≤ id → unfold sort p (id + 1) = .fail) ∧
    (∀ id k, kids[id]? = some k → k.kids = none → unfold sort p (id + 1) = .ok p) := by
  unfold declared at hv
  simp only [List.append_assoc] at hv
  refine ⟨?_, ?_, ?_⟩
  · simp [unfold, hp, hv, Res.of, Res.bind]
  · intro id h
    simp [unfold, hp, hv, Res.of, Res.bind, List.getElem?_eq_none h]
  · intro id k h hk
    simp [unfold, hp, hv, Res.of, Res.bind, h, hk]

/-! ### Violations and examples -/

/-- An instance of a primitive. -/
def prim (n : String) (inps outs : List Pin) : Pex := .mk n.toList [] true inps outs [] none 0

def pin (f : String) (as : List String) : Pin := ⟨f.toList, as.map String.toList⟩

/-- The connections of the instances. -/
def wires (r : Res Pex) : Option (List (List Pin × List Pin)) :=
  match r with
  | .ok p => p.kids.map fun ks => ks.map fun k => (k.inps, k.outs)
  | _ => none

/-- A circuit with the instance `k`. -/
def around (k : Pex) (inter : List String) : Pex :=
  .mk "top".toList [] false [pin "x[1:0][1:0]" ["x[1:0][1:0]"], pin "a" ["a"], pin "b" ["b"]] [pin "o" ["o"]]
    (inter.map String.toList) (some [k]) 0

/-- Wires are swapped: if the bits of a matrix are connected column by column, they are row by row afterwards. -/
theorem c76_order_violated :
    let g := prim "g" [pin "d" ["p[1:0]", "q[1:0]"]] []
    let k := Pex.mk "k".toList [] false
      [pin "p[1:0]" ["x[1][1]", "x[0][1]"], pin "q[1:0]" ["x[1][0]", "x[0][0]"]] [] [] (some [g]) 0
    wires (unfold id (around k []) 1) = some [([pin "d" ["x[1:0][1:0]"]], [])] ∧
    mdExpandAll ["x[1][1]".toList, "x[0][1]".toList, "x[1][0]".toList, "x[0][0]".toList] ≠
      mdExpandAll ["x[1:0][1:0]".toList] := by
  decide +kernel

/-- An internal with an escaped name that is also in use outside cannot be renamed: the name becomes a vector. -/
theorem c76_escaped_violated :
    let g := prim "g" [pin "d" ["\\w[3:0] "]] []
    let k := Pex.mk "k".toList [] false [] [] ["\\w[3:0] ".toList] (some [g]) 0
    unfold id (around k ["\\w[3:0] "]) 1 matches .fail := by
  decide +kernel

/-- A formal that is connected to nothing is undefined behaviour. -/
theorem c76_open_violated :
    let g := prim "g" [pin "d" ["w"]] []
    let k := Pex.mk "k".toList [] false [pin "c" []] [] ["w".toList] (some [g]) 0
    unfold id (around k []) 1 matches .ub := by
  decide +kernel

theorem ordinary_plain {base : Name} (hb : Plain base) (hs : '*' ∉ base) (h0 : base.head? ≠ some '0') {h l : Int}
    (hr : Inner ⟨h, l⟩) (hx : (⟨h, l⟩ : Rng) ≠ ⟨-1, 0⟩) : Ordinary (base ++ '[' :: (Rng.mk h l).text ++ [']']) := by
  refine ⟨base ++ ['['], [.idx [⟨h, l⟩], .txt [']']], range_wf hb hr, ⟨by simpa using hr, trivial⟩,
    ⟨by simp [OneDim, Seg.isIdx, List.filter_cons], .inl ⟨_, rfl, hx⟩, trivial⟩, by simp [vecText, Seg.text, rngsText], ?_, ?_, ?_⟩
  · simp only [List.append_assoc, List.cons_append, List.mem_append, List.mem_cons, List.not_mem_nil, or_false, not_or]
    refine ⟨hs, by decide, ?_, by decide⟩
    intro hm
    rcases rngText_chars _ _ hm with h | h | h <;> simp at h
  · intro cs hcs
    obtain ⟨hne, _⟩ := hb
    cases base with
    | nil => exact hne rfl
    | cons c b => simp at hcs; simp [hcs.1] at h0
  · obtain ⟨hne, hesc, _⟩ := hb
    cases base with
    | nil => exact absurd rfl hne
    | cons c b => simpa using hesc

/-- The hypotheses of `c76_wires_partial` for a circuit with an internal vector `w[1:0]` inside and outside. -/
example :
    let g := prim "g" [pin "d[2:0]" ["i[1]", "w[1:0]"]] [pin "q" ["z"]]
    let k := Pex.mk "k".toList [] false [pin "i[1:0]" ["b", "w[1]"]] [pin "z" ["o"]] ["w[1:0]".toList] (some [g]) 0
    let p := around k ["w[1:0]"]
    conn (k.inps ++ k.outs) = some [("i[1]".toList, "b".toList), ("i[0]".toList, "w[1]".toList),
      ("z".toList, "o".toList)] ∧
    mdExpandAll k.inter = some ["w[1]".toList, "w[0]".toList] ∧
    wires (unfold id p 1) = some [([pin "d[2:0]" ["b", "_$1_w[1:0]"]], [pin "q" ["o"]])] := by
  decide +kernel

example : Ordinary "w[1:0]".toList :=
  ordinary_plain (base := ['w']) ⟨by decide, by decide, by decide, by decide⟩ (by decide) (by decide) (h := 1) (l := 0)
    (by unfold Inner; decide) (by decide)

/-- An example: the internal `a` of the instance is renamed because `a` and `_$1_a` are in use. -/
example :
    let g := prim "g" [pin "d[2:0]" ["i[1]", "a", "i[0]"]] [pin "q" ["z"]]
    let k := Pex.mk "k".toList [] false [pin "i[1:0]" ["b", "_$1_a[7]"]] [pin "z" ["o"]] ["a".toList] (some [g]) 0
    wires (unfold id (around k ["_$1_a[7:0]"]) 1) =
      some [([pin "d[2:0]" ["b", "_$2_a", "_$1_a[7]"]], [pin "q" ["o"]])] := by
  decide +kernel

end Voss.Hier
