import Verif.Lib.HashLemmas
import Verif.Lib.Str
/-
String storage and string building.
-/
namespace Voss.Lib.Str

theorem write_length {b b' bs : List Nat} {i : Nat} (e : write b i bs = some b') : b'.length = b.length := by
  unfold write at e
  split at e
  · cases e; simp only [List.length_append, List.length_take, List.length_drop]; omega
  · cases e

theorem takeWhile_cut {s rest : List Nat} (hs : NoNul s) : (s ++ 0 :: rest).takeWhile (fun b => b != 0) = s := by
  induction s with
  | nil => simp
  | cons c s ih =>
    have hc : c ≠ 0 := fun h => hs (by rw [h]; exact List.mem_cons_self ..)
    rw [List.cons_append, List.takeWhile_cons, if_pos (by simpa using hc), ih (fun h => hs (List.mem_cons_of_mem _ h))]

/-- The block shows string `s` at place `i`: its bytes and the 0 after them. -/
def Shows (b : List Nat) (i : Nat) (s : List Nat) : Prop := ∃ pre post, b = pre ++ (s ++ 0 :: post) ∧ pre.length = i

theorem Shows.cstr {b s : List Nat} {i : Nat} (hs : NoNul s) (h : Shows b i s) : cstr b i = s := by
  obtain ⟨pre, post, rfl, rfl⟩ := h
  unfold Str.cstr
  rw [List.drop_left]
  exact takeWhile_cut hs

theorem write_shows {b bs : List Nat} {i : Nat} (hl : i + bs.length + 1 ≤ b.length) :
    ∃ b', write b i (bs ++ [0]) = some b' ∧ Shows b' i bs ∧ b'.length = b.length ∧
      ∀ j s, Shows b j s → j + s.length + 1 ≤ i → Shows b' j s := by
  have hle : i + (bs ++ [0]).length ≤ b.length := by simp; omega
  refine ⟨b.take i ++ (bs ++ [0]) ++ b.drop (i + (bs ++ [0]).length), by unfold write; rw [if_pos hle], ?_, ?_, ?_⟩
  · exact ⟨b.take i, b.drop (i + (bs ++ [0]).length), by simp, by simp; omega⟩
  · simp only [List.length_append, List.length_take, List.length_drop] at *; omega
  · rintro j s ⟨pre, post, rfl, rfl⟩ hj
    obtain ⟨k, hk⟩ : ∃ k, i = pre.length + (s.length + (1 + k)) := ⟨i - (pre.length + s.length + 1), by omega⟩
    refine ⟨pre, post.take k ++ (bs ++ [0]) ++ (pre ++ (s ++ 0 :: post)).drop (i + (bs ++ [0]).length), ?_, rfl⟩
    have : (pre ++ (s ++ 0 :: post)).take i = pre ++ (s ++ 0 :: post.take k) := by
      rw [hk, List.take_length_add_append, List.take_length_add_append, Nat.add_comm 1 k, List.take_succ_cons]
    rw [this]
    simp

/-! ### Saving -/

/-- The manager and what it has handed out. -/
structure SInv (m : SMgr) (L : List (Ptr × List Nat)) : Prop where
  ne : m.mem ≠ []
  len : ∀ b ∈ m.mem, b.length = blockSize + 1
  shows : ∀ p s, (p, s) ∈ L → ∃ b, m.mem[p.1]? = some b ∧ Shows b p.2 s ∧
    (p.1 + 1 = m.mem.length → p.2 + s.length + 1 ≤ m.used)

theorem SInv.read {m : SMgr} {L : List (Ptr × List Nat)} (I : SInv m L) {p : Ptr} {s : List Nat} (h : (p, s) ∈ L)
    (hs : NoNul s) : m.read p = some s := by
  obtain ⟨b, hb, sh, _⟩ := I.shows p s h
  simp only [SMgr.read, hb, Option.map_some, sh.cstr hs]

theorem newMgr_inv {g : List Nat} (hg : g.length = blockSize + 1) : SInv (newMgr g) [] :=
  ⟨by simp [newMgr], by simpa [newMgr] using hg, by simp⟩

theorem room_inv {m : SMgr} {L : List (Ptr × List Nat)} (I : SInv m L) {g : List Nat} (hg : g.length = blockSize + 1)
    {n : Nat} (hn : n ≤ blockSize) : SInv (room m g n) L ∧ (room m g n).used + n + 1 ≤ blockSize + 1 := by
  unfold room
  split
  · refine ⟨⟨by simp, ?_, ?_⟩, by simp; omega⟩
    · intro b hb
      rcases List.mem_append.1 hb with h | h
      · exact I.len b h
      · simp at h; rw [h]; exact hg
    · intro p s h
      obtain ⟨b, hb, sh, _⟩ := I.shows p s h
      have hlt : p.1 < m.mem.length := by
        obtain ⟨h1, _⟩ := List.getElem?_eq_some_iff.1 hb
        exact h1
      refine ⟨b, by rw [List.getElem?_append_left hlt]; exact hb, sh, ?_⟩
      intro he
      simp at he; omega
  · exact ⟨I, by omega⟩

theorem save_spec {m : SMgr} {L : List (Ptr × List Nat)} (I : SInv m L) {g s : List Nat} (hg : g.length = blockSize + 1) :
    ∃ p m', save m g s = some (p, m') ∧ SInv m' ((p, s.take blockSize) :: L) ∧ (∀ q t, (q, t) ∈ L → q ≠ p) := by
  have hl : (s.take blockSize).length ≤ blockSize := by simp; omega
  generalize hs : s.take blockSize = s' at *
  obtain ⟨I1, hu⟩ := room_inv I hg (n := s'.length) hl
  generalize hm : room m g s'.length = m1 at *
  have hpos : 0 < m1.mem.length := List.length_pos_iff.2 I1.ne
  have hlt : m1.mem.length - 1 < m1.mem.length := by omega
  have hb := List.getElem?_eq_getElem hlt
  have hbl := I1.len _ (List.getElem_mem hlt)
  generalize m1.mem[m1.mem.length - 1] = blk at *
  obtain ⟨b', e, sh, hlen, keep⟩ := write_shows (b := blk) (bs := s') (i := m1.used) (by omega)
  refine ⟨(m1.mem.length - 1, m1.used), ⟨m1.mem.set (m1.mem.length - 1) b', m1.used + s'.length + 1⟩, ?_, ⟨?_, ?_, ?_⟩, ?_⟩
  · simp only [save, hs, hm, hb, e, Option.bind_eq_bind, Option.bind_some]
  · simpa using I1.ne
  · intro b hbm
    rcases List.mem_or_eq_of_mem_set hbm with h | rfl
    · exact I1.len b h
    · rw [hlen]; exact hbl
  · intro p t hp
    rcases List.mem_cons.1 hp with h | h
    · cases h
      refine ⟨b', by rw [List.getElem?_set_self hlt], sh, fun _ => Nat.le_refl _⟩
    · obtain ⟨b, hbp, shp, hup⟩ := I1.shows p t h
      have hplt : p.1 < m1.mem.length := (List.getElem?_eq_some_iff.1 hbp).1
      by_cases hp1 : p.1 = m1.mem.length - 1
      · rw [hp1, hb] at hbp; cases hbp
        have := hup (by omega)
        exact ⟨b', by rw [hp1, List.getElem?_set_self hlt], keep _ _ shp this, fun _ => by simp only; omega⟩
      · refine ⟨b, by rw [List.getElem?_set_ne (fun h => hp1 h.symm)]; exact hbp, shp, ?_⟩
        intro he
        simp only [List.length_set] at he; omega
  · intro q t hq he
    obtain ⟨b, hbp, shp, hup⟩ := I1.shows q t hq
    rw [he] at hup
    have := hup (by simp only; omega)
    simp only at this; omega

theorem waSave_spec {m : SMgr} {L : List (Ptr × List Nat)} (I : SInv m L) {g s : List Nat} (hg : g.length = blockSize + 1) :
    ∃ p m', waSave m g s = some (p, m') ∧ SInv m' ((p, s.take blockSize) :: L) ∧ (∀ q t, (q, t) ∈ L → q ≠ p) := by
  obtain ⟨p, m1, e, I1, hne⟩ := save_spec I (s := s) hg
  refine ⟨p, { m1 with used := m1.used + (if m1.used % 4 > 0 then 4 - m1.used % 4 else 0) }, ?_, ⟨I1.ne, I1.len, ?_⟩, hne⟩
  · simp only [waSave, e, Option.bind_eq_bind, Option.bind_some]
  · intro q t h
    obtain ⟨b, hb, sh, hu⟩ := I1.shows q t h
    exact ⟨b, hb, sh, fun hx => Nat.le_trans (hu hx) (Nat.le_add_right _ _)⟩

/-! ### Interning -/

variable {h : List Nat → Nat → Nat}

theorem strEqu_iff {a b : List Nat} : strEqu a b = true ↔ a = b := by simp [strEqu]

/-- Strings saved so far, with the table. -/
structure UInv (h : List Nat → Nat → Nat) (u : UMgr) (sp : Spec (List Nat) Ptr) (L : List (Ptr × List Nat)) : Prop where
  tbl : Rel h strEqu u.utbl sp
  inv : SInv u.smgr L
  map : ∀ s d, sp.map s = some d ↔ ∃ p, d = some p ∧ (p, s) ∈ L
  len : ∀ p s, (p, s) ∈ L → s.length ≤ blockSize
  uniq : ∀ p q s, (p, s) ∈ L → (q, s) ∈ L → p = q
  uniq' : ∀ p s t, (p, s) ∈ L → (p, t) ∈ L → s = t

theorem newU_inv {g : List Nat} (hg : g.length = blockSize + 1) :
    ∃ u, newU g = some u ∧ UInv h u Spec.empty [] ∧ u.utbl.elements = 0 := by
  obtain ⟨t, e, R⟩ := create_spec (K := List Nat) (V := Ptr) (h := h) (eq := strEqu) 100 (by omega)
  refine ⟨⟨newMgr g, t⟩, by simp only [newU, e, Option.bind_eq_bind, Option.bind_some], ⟨R, newMgr_inv hg, ?_, ?_, ?_, ?_⟩, ?_⟩
  · intro s d; simp [Spec.empty]
  · simp
  · simp
  · simp
  · have := R.cnt'; simpa [Spec.empty] using this.symm

theorem usave_spec (H : HashOK h strEqu) {u : UMgr} {sp : Spec (List Nat) Ptr} {L : List (Ptr × List Nat)} (I : UInv h u sp L)
    {g s : List Nat} (hg : g.length = blockSize + 1) (hs : s.length ≤ blockSize) (hn : u.utbl.elements ≤ 2147483629) :
    ∃ p u' sp' L', usave h u g s = some (p, u') ∧ UInv h u' sp' L' ∧ (∀ x ∈ L, x ∈ L') ∧ (p, s) ∈ L' ∧
      u'.utbl.elements ≤ u.utbl.elements + 1 := by
  have ef := find_spec H I.tbl s
  cases hm : sp.map s with
  | some d =>
    obtain ⟨p, rfl, hp⟩ := (I.map s d).1 hm
    refine ⟨p, u, sp, L, ?_, I, fun x hx => hx, hp, by omega⟩
    simp only [usave, ef, hm, Option.bind_eq_bind, Option.bind_some, id]
  | none =>
    obtain ⟨p, m', es, I', hne⟩ := save_spec I.inv (s := s) hg
    have htk : s.take blockSize = s := List.take_of_length_le hs
    rw [htk] at I'
    obtain ⟨t', ei, R', el⟩ := insert_spec (d := some p) H I.tbl hn hm
    have hnot : ∀ q, (q, s) ∉ L := by
      intro q hq
      have := (I.map s (some q)).2 ⟨q, rfl, hq⟩
      rw [hm] at this; cases this
    refine ⟨p, ⟨m', t'⟩, _, (p, s) :: L, ?_, ⟨R', I', ?_, ?_, ?_, ?_⟩, fun x hx => List.mem_cons_of_mem _ hx, List.mem_cons_self .., by simp only [el]; omega⟩
    · simp only [usave, ef, hm, Option.bind_eq_bind, Option.bind_none, Option.bind_some, es, htk, ei]
    · intro s' d
      simp only [Spec.put, List.mem_cons, Prod.mk.injEq]
      by_cases hss : strEqu s s' = true
      · have := strEqu_iff.1 hss; subst this
        simp only [hss, if_true, Option.some.injEq, and_true]
        constructor
        · rintro rfl; exact ⟨p, rfl, Or.inl rfl⟩
        · rintro ⟨q, rfl, h1 | h1⟩
          · rw [h1]
          · exact absurd h1 (hnot q)
      · have hne' : s' ≠ s := fun h => hss (strEqu_iff.2 h.symm)
        simp only [hss, Bool.false_eq_true, if_false, hne', and_false, false_or]
        exact I.map s' d
    · intro q t hq
      rcases List.mem_cons.1 hq with h1 | h1
      · cases h1; exact hs
      · exact I.len q t h1
    · intro q1 q2 t h1 h2
      rcases List.mem_cons.1 h1 with h1 | h1 <;> rcases List.mem_cons.1 h2 with h2 | h2
      · cases h1; cases h2; rfl
      · cases h1; exact absurd h2 (hnot _)
      · cases h2; exact absurd h1 (hnot _)
      · exact I.uniq _ _ _ h1 h2
    · intro q t1 t2 h1 h2
      rcases List.mem_cons.1 h1 with h1 | h1 <;> rcases List.mem_cons.1 h2 with h2 | h2
      · cases h1; cases h2; rfl
      · cases h1; exact absurd rfl (hne _ _ h2)
      · cases h2; exact absurd rfl (hne _ _ h1)
      · exact I.uniq' _ _ _ h1 h2

theorem usaveAll_spec (H : HashOK h strEqu) : ∀ (calls : List (List Nat × List Nat)) (u : UMgr) (sp : Spec (List Nat) Ptr)
    (L : List (Ptr × List Nat)), UInv h u sp L → (∀ c ∈ calls, c.1.length = blockSize + 1 ∧ c.2.length ≤ blockSize) →
    u.utbl.elements + calls.length ≤ 2147483630 →
    ∃ ps u' sp' L', usaveAll h u calls = some (ps, u') ∧ UInv h u' sp' L' ∧ (∀ x ∈ L, x ∈ L') ∧
      ps.length = calls.length ∧ ∀ x ∈ ps.zip (calls.map (·.2)), x ∈ L' := by
  intro calls
  induction calls with
  | nil => intro u sp L I _ _; exact ⟨[], u, sp, L, rfl, I, fun x h => h, rfl, by simp⟩
  | cons c calls ih =>
    intro u sp L I hc hn
    obtain ⟨g, s⟩ := c
    obtain ⟨c1, c2⟩ := hc (g, s) (List.mem_cons_self ..)
    simp only [List.length_cons] at hn
    obtain ⟨p, u1, sp1, L1, e1, I1, k1, m1, n1⟩ := usave_spec H I (g := g) (s := s) c1 c2 (by omega)
    obtain ⟨ps, u2, sp2, L2, e2, I2, k2, l2, m2⟩ := ih u1 sp1 L1 I1 (fun c h => hc c (List.mem_cons_of_mem _ h)) (by omega)
    refine ⟨p :: ps, u2, sp2, L2, ?_, I2, fun x hx => k2 x (k1 x hx), by simp [l2], ?_⟩
    · simp only [usaveAll, e1, e2, Option.bind_eq_bind, Option.bind_some]
    · intro x hx
      simp only [List.map_cons, List.zip_cons_cons, List.mem_cons] at hx
      rcases hx with rfl | hx
      · exact k2 _ m1
      · exact m2 x hx

/-! ### Building -/

/-- The buffer holds the string. -/
structure TRel (cap : Nat) (t : Tmp) (c : List Nat) : Prop where
  len : t.buf.length = cap
  cnt : t.cnt = c.length
  shows : Shows t.buf 0 c

theorem write_at {b bs c : List Nat} (hs : Shows b 0 c) (hl : c.length + bs.length + 1 ≤ b.length) :
    ∃ b', write b c.length (bs ++ [0]) = some b' ∧ Shows b' 0 (c ++ bs) ∧ b'.length = b.length := by
  obtain ⟨pre, post, rfl, hp⟩ := hs
  have : pre = [] := List.length_eq_zero_iff.1 hp
  subst this
  have hle : c.length + (bs ++ [0]).length ≤ ([] ++ (c ++ 0 :: post)).length := by simp at *; omega
  refine ⟨_, if_pos hle, ⟨[], (c ++ 0 :: post).drop (c.length + (bs ++ [0]).length), ?_, rfl⟩, ?_⟩
  · simp
  · simp only [List.length_append, List.length_take, List.length_drop] at *; omega

theorem strappend_spec {cap : Nat} {t : Tmp} {c s : List Nat} (R : TRel cap t c) (hc : c.length ≤ blockSize)
    (hcap : ((c ++ s).take blockSize).length + 1 ≤ cap) :
    ∃ t', strappend t s = some t' ∧ TRel cap t' ((c ++ s).take blockSize) := by
  have e : (c ++ s).take blockSize = c ++ (if s.length + t.cnt > blockSize then s.take (blockSize - t.cnt) else s) := by
    rw [List.take_append, List.take_of_length_le hc, R.cnt]
    split
    · rfl
    · rw [List.take_of_length_le (by omega)]
  generalize hx : (if s.length + t.cnt > blockSize then s.take (blockSize - t.cnt) else s) = s' at *
  rw [e] at hcap ⊢
  obtain ⟨b', e1, sh, l⟩ := write_at (bs := s') R.shows (by rw [R.len]; simpa using hcap)
  rw [← R.cnt] at e1
  refine ⟨⟨b', t.cnt + s'.length⟩, ?_, by rw [← R.len]; exact l, by simp [R.cnt], sh⟩
  simp only [strappend, hx, e1, Option.bind_eq_bind, Option.bind_some]

theorem overwrite {b bs : List Nat} (hl : bs.length + 1 ≤ b.length) :
    ∃ b', write b 0 (bs ++ [0]) = some b' ∧ Shows b' 0 bs ∧ b'.length = b.length := by
  obtain ⟨b', e, sh, l, _⟩ := write_shows (b := b) (bs := bs) (i := 0) (by omega)
  exact ⟨b', e, sh, l⟩

theorem strtemp_spec {cap : Nat} {t : Tmp} {s : List Nat} (hb : t.buf.length = cap) (hcap : blockSize + 1 ≤ cap) :
    ∃ t', strtemp t s = some t' ∧ TRel cap t' (s.take blockSize) := by
  have hl : (s.take blockSize).length ≤ blockSize := by simp; omega
  obtain ⟨b', e, sh, l⟩ := overwrite (b := t.buf) (bs := s.take blockSize) (by omega)
  exact ⟨⟨b', (s.take blockSize).length⟩, by simp only [strtemp, e, Option.bind_eq_bind, Option.bind_some], by rw [← hb]; exact l, rfl, sh⟩

theorem charappend_spec {cap : Nat} {t : Tmp} {c : List Nat} {x : Nat} (R : TRel cap t c) (hc : c.length ≤ blockSize)
    (hcap : blockSize + 1 ≤ cap) :
    ∃ t', charappend t x = some t' ∧ TRel cap t' ((c ++ [x]).take blockSize) := by
  unfold charappend
  rw [R.cnt]
  split
  · refine ⟨t, rfl, ?_⟩
    have : (c ++ [x]).take blockSize = c := by
      rw [List.take_append, List.take_of_length_le hc, show blockSize - c.length = 0 by omega]; simp
    rw [this]; exact R
  · obtain ⟨b', e1, sh, l⟩ := write_at (bs := [x]) R.shows (by rw [R.len]; simp; omega)
    refine ⟨⟨b', c.length + 1⟩, ?_, ?_⟩
    · have e2 : write t.buf c.length [x, 0] = some b' := e1
      simp only [e2, Option.bind_eq_bind, Option.bind_some]
    · rw [List.take_of_length_le (by simp; omega)]
      exact ⟨by rw [← R.len]; exact l, by simp, sh⟩

theorem trun_spec : ∀ (ops : List TOp) (t : Tmp) (c : List Nat), TRel (blockSize + 1) t c → c.length ≤ blockSize →
    ∃ t', trun t ops = some t' ∧ TRel (blockSize + 1) t' (ops.foldl TOp.spec c) := by
  intro ops
  induction ops with
  | nil => intro t c R _; exact ⟨t, rfl, R⟩
  | cons op ops ih =>
    intro t c R hc
    have key : ∃ t', tstep t op = some t' ∧ TRel (blockSize + 1) t' (op.spec c) ∧ (op.spec c).length ≤ blockSize := by
      cases op with
      | temp s =>
        obtain ⟨t', e, R'⟩ := strtemp_spec (s := s) R.len (Nat.le_refl _)
        exact ⟨t', e, R', by simp only [TOp.spec, List.length_take]; omega⟩
      | append s =>
        have hl : ((c ++ s).take blockSize).length ≤ blockSize := by rw [List.length_take]; omega
        obtain ⟨t', e, R'⟩ := strappend_spec (s := s) R hc (by omega)
        exact ⟨t', e, R', hl⟩
      | char x =>
        obtain ⟨t', e, R'⟩ := charappend_spec (x := x) R hc (Nat.le_refl _)
        exact ⟨t', e, R', by simp only [TOp.spec, List.length_take]; omega⟩
    obtain ⟨t1, e1, R1, l1⟩ := key
    obtain ⟨t2, e2, R2⟩ := ih t1 _ R1 l1
    exact ⟨t2, by simp only [trun, e1, e2, Option.bind_eq_bind, Option.bind_some], R2⟩

/-- What the proved part asks for one's own buffer: every string stays shorter than the limit, and
truncation does not lengthen. -/
def GLegal (c : List Nat) : List GOp → Prop
  | [] => True
  | op :: ops => (op.spec c).length < blockSize ∧
    (match op with
     | .truncate n => n ≤ c.length
     | _ => True) ∧ GLegal (op.spec c) ops

theorem genTruncate_spec {cap : Nat} {t : Tmp} {c : List Nat} {n : Int} (R : TRel cap t c) (hn : n ≤ c.length) :
    ∃ t', genTruncate t n = some t' ∧ TRel cap t' (c.take n.toNat) := by
  obtain ⟨pre, post, hb, hp⟩ := R.shows
  have : pre = [] := List.length_eq_zero_iff.1 hp
  subst this
  obtain ⟨k, hk⟩ : ∃ k, n.toNat = k := ⟨_, rfl⟩
  have hkc : k ≤ c.length := by omega
  have hbl : t.buf.length = c.length + 1 + post.length := by rw [hb]; simp; omega
  have e : write t.buf k [0] = some (t.buf.take k ++ [0] ++ t.buf.drop (k + 1)) := by
    unfold write; rw [if_pos (by simp; omega)]; rfl
  refine ⟨⟨t.buf.take k ++ [0] ++ t.buf.drop (k + 1), k⟩, by simp only [genTruncate, hk, e, Option.bind_eq_bind, Option.bind_some], ?_, ?_, ?_⟩
  · rw [← R.len]; simp only [List.length_append, List.length_take, List.length_drop, List.length_singleton]; omega
  · simp [hk]; omega
  · refine ⟨[], t.buf.drop (k + 1), ?_, rfl⟩
    rw [hk, hb]
    simp only [List.nil_append]
    rw [List.take_append_of_le_length hkc]; simp

theorem genPrepend_spec {cap : Nat} {t : Tmp} {c s : List Nat} (R : TRel cap t c) (hl : s.length + c.length < blockSize)
    (hcap : blockSize ≤ cap) : ∃ t', genPrepend t s = some t' ∧ TRel cap t' (s ++ c) := by
  obtain ⟨pre, post, hb, hp⟩ := R.shows
  have : pre = [] := List.length_eq_zero_iff.1 hp
  subst this
  rw [List.nil_append] at hb
  have htk : t.buf.take (t.cnt + 1) = c ++ [0] := by
    rw [hb, R.cnt, List.take_length_add_append]; rfl
  have hlen := R.len
  have e1 : write t.buf s.length (c ++ [0]) =
      some (t.buf.take s.length ++ (c ++ [0]) ++ t.buf.drop (s.length + (c ++ [0]).length)) := by
    unfold write; rw [if_pos (by simp; omega)]
  have hl1 : (t.buf.take s.length).length = s.length := by
    rw [List.length_take]
    omega
  have e2 : write (t.buf.take s.length ++ (c ++ [0]) ++ t.buf.drop (s.length + (c ++ [0]).length)) 0 s =
      some (s ++ (c ++ [0]) ++ t.buf.drop (s.length + (c ++ [0]).length)) := by
    unfold write
    rw [if_pos (by simp only [List.length_append, hl1]; omega)]
    congr 1
    rw [List.take_zero, List.nil_append, Nat.zero_add, List.append_assoc, List.drop_append_of_le_length (by omega),
      List.drop_of_length_le (by omega)]
    simp
  refine ⟨⟨s ++ (c ++ [0]) ++ t.buf.drop (s.length + (c ++ [0]).length), t.cnt + s.length⟩, ?_, ?_, ?_, ?_⟩
  · unfold genPrepend
    rw [if_neg (by rw [R.cnt]; omega)]
    simp only [htk, e1, e2, Option.bind_eq_bind, Option.bind_some]
  · simp only [List.length_append, List.length_drop, List.length_singleton]; omega
  · simp [R.cnt]; omega
  · exact ⟨[], t.buf.drop (s.length + (c ++ [0]).length), by simp, rfl⟩

theorem grun_spec : ∀ (ops : List GOp) (t : Tmp) (c : List Nat), TRel blockSize t c → GLegal c ops → c.length < blockSize →
    ∃ t', grun t ops = some t' ∧ TRel blockSize t' (ops.foldl GOp.spec c) := by
  intro ops
  induction ops with
  | nil => intro t c R _ _; exact ⟨t, rfl, R⟩
  | cons op ops ih =>
    intro t c R hl hc
    obtain ⟨h1, h2, h3⟩ := hl
    have key : ∃ t', gstep t op = some t' ∧ TRel blockSize t' (op.spec c) := by
      cases op with
      | temp s =>
        simp only [GOp.spec] at h1 ⊢
        obtain ⟨b', e, sh, l⟩ := overwrite (b := t.buf) (bs := s) (by rw [R.len]; omega)
        refine ⟨⟨b', s.length⟩, ?_, by rw [l]; exact R.len, rfl, sh⟩
        simp only [gstep, genStrtemp, if_neg (show ¬ s.length > blockSize by omega), e, Option.bind_eq_bind, Option.bind_some]
      | truncate n => exact genTruncate_spec R h2
      | append s =>
        simp only [GOp.spec] at h1 ⊢
        have : (c ++ s).take blockSize = c ++ s := List.take_of_length_le (by omega)
        obtain ⟨t', e, R'⟩ := strappend_spec (s := s) R (by omega) (by rw [this]; omega)
        rw [this] at R'
        exact ⟨t', e, R'⟩
      | prepend s =>
        simp only [GOp.spec] at h1 ⊢
        exact genPrepend_spec R (by simpa using h1) (Nat.le_refl _)
    obtain ⟨t1, e1, R1⟩ := key
    obtain ⟨t2, e2, R2⟩ := ih t1 _ R1 h3 h1
    exact ⟨t2, by simp only [grun, e1, e2, Option.bind_eq_bind, Option.bind_some], R2⟩

/-! ### Numbers -/

theorem digits_dec : ∀ (s : List Nat) (ok : Bool) (v n : Nat), decimal v s = some n → n < 2 ^ 31 →
    digits decDigit 10 ok v s = some (ok || !s.isEmpty, (n : Int), []) ∧ v ≤ n := by
  intro s
  induction s with
  | nil => intro ok v n e h; simp only [decimal, Option.some.injEq] at e; subst e; simp [digits]
  | cons c s ih =>
    intro ok v n e h
    simp only [decimal] at e
    split at e
    · next hc =>
      obtain ⟨e1, le⟩ := ih true _ _ e h
      have hd : decDigit c = some ((c : Int) - 48) := if_pos hc
      have i1 : int32 ((v : Int) * 10) = some ((v : Int) * 10) := if_pos (by omega)
      have i2 : int32 ((v : Int) * 10 + ((c : Int) - 48)) = some ((10 * v + (c - 48) : Nat) : Int) := by
        have : (v : Int) * 10 + ((c : Int) - 48) = ((10 * v + (c - 48) : Nat) : Int) := by omega
        rw [this]; exact if_pos (by omega)
      refine ⟨?_, by omega⟩
      simp only [digits, hd, i1, i2, Option.bind_eq_bind, Option.bind_some, e1]
      simp
    · cases e

end Voss.Lib.Str
