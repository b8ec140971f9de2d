import Verif.Lib.Rec
/-
The record manager's invariant.
-/
namespace Voss.Lib.Rec

/-- The `n` bytes at `a` and the `k` bytes at `b` do not overlap. -/
def Apart (n a k b : Nat) : Prop := a + n ≤ b ∨ b + k ≤ a

/-- Histories: the manager and the records in use, in the order in which they were handed out. -/
inductive Reach (size : Nat) : Mgr → List Nat → Prop
  | init (b : Nat) : Reach size (newMgr size b) []
  | new {m m' : Mgr} {L : List Nat} {b r : Nat} : Reach size m L →
      (∀ b' ∈ m.blocks, Apart m.blkSize b m.blkSize b') → newRec m b = some (r, m') → Reach size m' (L ++ [r])
  | free {m m' : Mgr} {L : List Nat} {r : Nat} : Reach size m L → r ∈ L → freeRec m r = some m' →
      Reach size m' (L.erase r)

/-- All records handed out from the blocks, whether in use or free. -/
def Mgr.all (m : Mgr) : List Nat :=
  match m.blocks with
  | [] => []
  | last :: back => back.reverse.flatMap (fun b => m.inBlock b m.capacity) ++ m.inBlock last m.allocated

structure Inv (m : Mgr) (L : List Nat) : Prop where
  ne : m.blocks ≠ []
  cap : 0 < m.capacity
  rs : ptrSize ≤ m.recSize
  bs : m.blkSize = m.capacity * m.recSize + 2 * ptrSize
  dj : m.blocks.Pairwise (fun b b' => Apart m.blkSize b m.blkSize b')
  al : m.allocated ≤ m.capacity
  one : m.allocated = 0 → m.blocks.length = 1
  perm : (L ++ m.free).Perm m.all
  live : m.live = L.length
  pure : m.pure = true → m.free = [] ∧ L = m.all

theorem addr_bounds {m : Mgr} {L : List Nat} (I : Inv m L) {b i : Nat} (hi : i < m.capacity) :
    b + 2 * ptrSize ≤ m.addr b i ∧ m.addr b i + m.recSize ≤ b + m.blkSize := by
  unfold Mgr.addr
  rw [I.bs]
  have : (i + 1) * m.recSize ≤ m.capacity * m.recSize := Nat.mul_le_mul_right _ hi
  rw [Nat.add_mul] at this
  omega

theorem Apart.symm {n a k b : Nat} (h : Apart n a k b) : Apart k b n a := h.elim Or.inr Or.inl

theorem inBlock_apart (m : Mgr) (b n : Nat) :
    (m.inBlock b n).Pairwise (fun a a' => Apart m.recSize a m.recSize a') := by
  unfold Mgr.inBlock
  rw [List.pairwise_map]
  refine List.Pairwise.imp ?_ (List.pairwise_lt_range (n := n))
  intro i j hij
  left
  unfold Mgr.addr
  have : (i + 1) * m.recSize ≤ j * m.recSize := Nat.mul_le_mul_right _ hij
  rw [Nat.add_mul] at this
  omega

theorem mem_inBlock {m : Mgr} {b n a : Nat} : a ∈ m.inBlock b n ↔ ∃ i, i < n ∧ m.addr b i = a := by
  simp [Mgr.inBlock]

theorem all_apart {m : Mgr} {L : List Nat} (I : Inv m L) :
    m.all.Pairwise (fun a a' => Apart m.recSize a m.recSize a') := by
  unfold Mgr.all
  cases hb : m.blocks with
  | nil => exact List.Pairwise.nil
  | cons last back =>
    have hd := I.dj
    rw [hb, List.pairwise_cons] at hd
    obtain ⟨h1, h2⟩ := hd
    have key : ∀ (l : List Nat), l.Pairwise (fun b b' => Apart m.blkSize b m.blkSize b') →
        (l.flatMap (fun b => m.inBlock b m.capacity)).Pairwise (fun a a' => Apart m.recSize a m.recSize a') := by
      intro l
      induction l with
      | nil => intro _; exact List.Pairwise.nil
      | cons b l ih =>
        intro hp
        obtain ⟨p1, p2⟩ := List.pairwise_cons.1 hp
        rw [List.flatMap_cons, List.pairwise_append]
        refine ⟨inBlock_apart m b _, ih p2, ?_⟩
        intro a ha a' ha'
        obtain ⟨i, hi, rfl⟩ := mem_inBlock.1 ha
        obtain ⟨b', hb', ha'⟩ := List.mem_flatMap.1 ha'
        obtain ⟨j, hj, rfl⟩ := mem_inBlock.1 ha'
        have q1 := addr_bounds I (b := b) hi
        have q2 := addr_bounds I (b := b') hj
        have := p1 b' hb'
        unfold Apart at this ⊢
        omega
    rw [List.pairwise_append]
    refine ⟨key _ ?_, inBlock_apart m _ _, ?_⟩
    · rw [List.pairwise_reverse]
      exact h2.imp (fun h => h.symm)
    · intro a ha a' ha'
      obtain ⟨b', hb', ha⟩ := List.mem_flatMap.1 ha
      obtain ⟨j, hj, rfl⟩ := mem_inBlock.1 ha
      obtain ⟨i, hi, rfl⟩ := mem_inBlock.1 ha'
      have q1 := addr_bounds I (b := last) (Nat.lt_of_lt_of_le hi I.al)
      have q2 := addr_bounds I (b := b') hj
      have := h1 b' (List.mem_reverse.1 hb')
      unfold Apart at this ⊢
      omega

theorem apart_ne {n a a' : Nat} (hn : 0 < n) (h : Apart n a n a') : a ≠ a' := by
  unfold Apart at h; omega

theorem all_nodup {m : Mgr} {L : List Nat} (I : Inv m L) : m.all.Nodup := by
  refine (all_apart I).imp ?_
  intro a a' h
  have := I.rs
  unfold ptrSize at this
  exact apart_ne (by omega) h

theorem all_inside {m : Mgr} {L : List Nat} (I : Inv m L) {a : Nat} (ha : a ∈ m.all) :
    ∃ b ∈ m.blocks, b + 2 * ptrSize ≤ a ∧ a + m.recSize ≤ b + m.blkSize := by
  unfold Mgr.all at ha
  cases hb : m.blocks with
  | nil => rw [hb] at ha; simp at ha
  | cons last back =>
    rw [hb] at ha
    rcases List.mem_append.1 ha with h | h
    · obtain ⟨b', hb', h⟩ := List.mem_flatMap.1 h
      obtain ⟨j, hj, rfl⟩ := mem_inBlock.1 h
      exact ⟨b', List.mem_cons_of_mem _ (List.mem_reverse.1 hb'), addr_bounds I hj⟩
    · obtain ⟨j, hj, rfl⟩ := mem_inBlock.1 h
      exact ⟨last, List.mem_cons_self .., addr_bounds I (Nat.lt_of_lt_of_le hj I.al)⟩

theorem inBlock_succ (m : Mgr) (b n : Nat) : m.inBlock b (n + 1) = m.inBlock b n ++ [m.addr b n] := by
  simp [Mgr.inBlock, List.range_succ]

theorem newMgr_inv (size b : Nat) : Inv (newMgr size b) [] := by
  have h8 : ptrSize ≤ (if size > ptrSize then size else ptrSize) := by split <;> omega
  unfold newMgr
  generalize (if size > ptrSize then size else ptrSize) = sz at *
  simp only
  by_cases h : sz > natBlock - 2 * ptrSize
  · rw [if_pos h]
    exact ⟨by simp, by simp, h8, by simp, by simp, by simp, by simp, by simp [Mgr.all, Mgr.inBlock], rfl, by simp [Mgr.all, Mgr.inBlock]⟩
  · rw [if_neg h]
    refine ⟨by simp, ?_, h8, by simp, by simp, by simp, by simp, by simp [Mgr.all, Mgr.inBlock], rfl, by simp [Mgr.all, Mgr.inBlock]⟩
    apply Nat.div_pos
    · omega
    · unfold ptrSize at h8; omega

theorem newRec_inv {m m' : Mgr} {L : List Nat} {b r : Nat} (I : Inv m L)
    (hb : ∀ b' ∈ m.blocks, Apart m.blkSize b m.blkSize b') (e : newRec m b = some (r, m')) :
    Inv m' (L ++ [r]) := by
  cases hf : m.free with
  | cons r0 rest =>
    have e' : newRec m b = some (r0, { m with live := m.live + 1, free := rest }) := by simp only [newRec, hf]
    rw [e'] at e; simp only [Option.some.injEq, Prod.mk.injEq] at e
    obtain ⟨rfl, rfl⟩ := e
    refine ⟨I.ne, I.cap, I.rs, I.bs, I.dj, I.al, I.one, ?_, by simp [I.live], ?_⟩
    · have := I.perm
      rw [hf] at this
      show ((L ++ [r0]) ++ rest).Perm m.all
      simpa using this
    · intro hp; have := (I.pure hp).1; rw [hf] at this; exact absurd this (by simp)
  | nil =>
    cases hbl : m.blocks with
    | nil => exact absurd hbl I.ne
    | cons last back =>
      have hp0 := I.perm
      rw [hf, List.append_nil] at hp0
      by_cases hlt : m.allocated < m.capacity
      · have e' : newRec m b = some (m.addr last m.allocated, { m with live := m.live + 1, allocated := m.allocated + 1 }) := by
          simp only [newRec, hf, hbl, if_pos hlt]
        rw [e'] at e
        simp only [Option.some.injEq, Prod.mk.injEq] at e
        obtain ⟨rfl, rfl⟩ := e
        have hall : Mgr.all { m with live := m.live + 1, allocated := m.allocated + 1 } = m.all ++ [m.addr last m.allocated] := by
          unfold Mgr.all; simp only [hbl]
          show _ ++ m.inBlock last (m.allocated + 1) = _
          rw [inBlock_succ, List.append_assoc]; rfl
        refine ⟨I.ne, I.cap, I.rs, I.bs, I.dj, hlt, by simp, ?_, by simp [I.live], ?_⟩
        · rw [hall]; show ((L ++ [_]) ++ m.free).Perm _
          rw [hf, List.append_nil]; exact hp0.append_right _
        · intro hp; refine ⟨hf, ?_⟩
          rw [hall, ← (I.pure hp).2]
      · have e' : newRec m b = some (m.addr b 0, { m with live := m.live + 1, blocks := b :: m.blocks, allocated := 1 }) := by
          simp only [newRec, hf, hbl, if_neg hlt]
        rw [e'] at e
        simp only [Option.some.injEq, Prod.mk.injEq] at e
        obtain ⟨rfl, rfl⟩ := e
        have hal : m.allocated = m.capacity := Nat.le_antisymm I.al (Nat.not_lt.1 hlt)
        have hall : Mgr.all { m with live := m.live + 1, blocks := b :: m.blocks, allocated := 1 } = m.all ++ [m.addr b 0] := by
          unfold Mgr.all; simp only [hbl, List.reverse_cons, List.flatMap_append, List.flatMap_cons, List.flatMap_nil, List.append_nil, hal]
          rfl
        refine ⟨by simp, I.cap, I.rs, I.bs, ?_, I.cap, by simp, ?_, by simp [I.live], ?_⟩
        · exact List.Pairwise.cons hb I.dj
        · rw [hall]; show ((L ++ [_]) ++ m.free).Perm _
          rw [hf, List.append_nil]; exact hp0.append_right _
        · intro hp; refine ⟨hf, ?_⟩
          rw [hall, ← (I.pure hp).2]

theorem all_last {m : Mgr} {last : Nat} {back : List Nat} (hb : m.blocks = last :: back) (h0 : 0 < m.allocated) :
    m.all = (back.reverse.flatMap (fun b => m.inBlock b m.capacity) ++ m.inBlock last (m.allocated - 1)) ++
      [m.addr last (m.allocated - 1)] := by
  unfold Mgr.all
  rw [hb]; simp only
  obtain ⟨n, hn⟩ : ∃ n, m.allocated = n + 1 := ⟨m.allocated - 1, by omega⟩
  rw [hn, Nat.add_sub_cancel, inBlock_succ, List.append_assoc]

theorem freeRec_eq {m : Mgr} {r last : Nat} {back : List Nat} (hb : m.blocks = last :: back) : freeRec m r =
    if m.allocated = 0 ∨ m.live = 0 then none
    else if r = m.addr last (m.allocated - 1) then
      if m.allocated - 1 = 0 then
        (match back with
        | [] => some { m with live := m.live - 1, allocated := 0 }
        | _ :: _ => some { m with live := m.live - 1, blocks := back, allocated := m.capacity })
      else some { m with live := m.live - 1, allocated := m.allocated - 1 }
    else some { m with live := m.live - 1, free := r :: m.free, pure := false } := by
  simp only [freeRec, hb]
  cases back <;> rfl

theorem freeRec_some {m : Mgr} {L : List Nat} {r : Nat} (I : Inv m L) (hr : r ∈ L) :
    ∃ m', freeRec m r = some m' ∧ Inv m' (L.erase r) := by
  have hra : r ∈ m.all := I.perm.mem_iff.1 (List.mem_append_left _ hr)
  have hLpos : 0 < L.length := List.length_pos_of_mem hr
  cases hb : m.blocks with
  | nil => exact absurd hb I.ne
  | cons last back =>
    have hal : m.allocated ≠ 0 := by
      intro h0
      have h1 := I.one h0
      rw [hb] at h1
      have : back = [] := by simpa using h1
      unfold Mgr.all at hra
      rw [hb, this, h0] at hra
      simp [Mgr.inBlock] at hra
    have hlive : m.live ≠ 0 := by rw [I.live]; omega
    have hall := all_last hb (Nat.pos_of_ne_zero hal)
    have hnd := I.perm.nodup_iff.2 (all_nodup I)
    have hperm : (L.erase r ++ m.free).Perm (m.all.erase r) := by
      have := I.perm.erase r
      rwa [List.erase_append_left _ hr] at this
    have hnot : ∀ pre : List Nat, m.all = pre ++ [r] → r ∉ pre := by
      intro pre hp hin
      have := all_nodup I
      rw [hp, List.nodup_append] at this
      exact this.2.2 r hin r (by simp) rfl
    rw [freeRec_eq hb]
    rw [if_neg (by simp [hal, hlive])]
    by_cases hlast : r = m.addr last (m.allocated - 1)
    · rw [if_pos hlast]
      rw [← hlast] at hall
      have hpre := hnot _ hall
      have herase : m.all.erase r = back.reverse.flatMap (fun b => m.inBlock b m.capacity) ++ m.inBlock last (m.allocated - 1) := by
        rw [hall, List.erase_append_right _ hpre]; simp
      have hpureL : m.pure = true → m.free = [] ∧ L.erase r = m.all.erase r := by
        intro hp; exact ⟨(I.pure hp).1, by rw [(I.pure hp).2]⟩
      rw [herase] at hperm hpureL
      by_cases h1 : m.allocated - 1 = 0
      · rw [if_pos h1]
        cases back with
        | nil =>
          refine ⟨_, rfl, by simp [hb], I.cap, I.rs, I.bs, I.dj, by simp, fun _ => by simp [hb], ?_, ?_, ?_⟩
          · refine hperm.trans (List.Perm.of_eq ?_)
            simp [Mgr.all, hb, Mgr.inBlock, h1]
          · show m.live - 1 = _; rw [I.live, List.length_erase_of_mem hr]
          · intro hp
            refine ⟨(hpureL hp).1, (hpureL hp).2.trans ?_⟩
            simp [Mgr.all, hb, Mgr.inBlock, h1]
        | cons b2 back2 =>
          have hE : (b2 :: back2).reverse.flatMap (fun b => m.inBlock b m.capacity) ++ m.inBlock last (m.allocated - 1) =
              Mgr.all { m with live := m.live - 1, blocks := b2 :: back2, allocated := m.capacity } := by
            have h0 : m.inBlock last 0 = [] := rfl
            rw [h1, h0]
            simp only [Mgr.all, List.reverse_cons, List.flatMap_append, List.flatMap_cons, List.flatMap_nil, List.append_nil]
            rfl
          have hd := I.dj
          rw [hb, List.pairwise_cons] at hd
          refine ⟨_, rfl, by simp, I.cap, I.rs, I.bs, hd.2, Nat.le_refl _, fun h => absurd h (by have := I.cap; show m.capacity ≠ 0; omega), ?_, ?_, ?_⟩
          · exact hperm.trans (List.Perm.of_eq hE)
          · show m.live - 1 = _; rw [I.live, List.length_erase_of_mem hr]
          · intro hp
            exact ⟨(hpureL hp).1, (hpureL hp).2.trans hE⟩
      · rw [if_neg h1]
        have hE : back.reverse.flatMap (fun b => m.inBlock b m.capacity) ++ m.inBlock last (m.allocated - 1) =
            Mgr.all { m with live := m.live - 1, allocated := m.allocated - 1 } := by
          simp only [Mgr.all, hb]; rfl
        refine ⟨_, rfl, I.ne, I.cap, I.rs, I.bs, I.dj, ?_, fun h => absurd h h1, ?_, ?_, ?_⟩
        · show m.allocated - 1 ≤ m.capacity; have := I.al; omega
        · exact hperm.trans (List.Perm.of_eq hE)
        · show m.live - 1 = _; rw [I.live, List.length_erase_of_mem hr]
        · intro hp; exact ⟨(hpureL hp).1, (hpureL hp).2.trans hE⟩
    · rw [if_neg hlast]
      refine ⟨_, rfl, I.ne, I.cap, I.rs, I.bs, I.dj, I.al, I.one, ?_, ?_, by simp⟩
      · show (L.erase r ++ r :: m.free).Perm m.all
        refine (List.perm_middle).trans ?_
        rw [← List.cons_append]
        exact ((List.perm_cons_erase hr).symm.append_right _).trans I.perm
      · show m.live - 1 = _; rw [I.live, List.length_erase_of_mem hr]

theorem Reach.inv {size : Nat} {m : Mgr} {L : List Nat} (h : Reach size m L) : Inv m L := by
  induction h with
  | init b => exact newMgr_inv size b
  | new _ hb e ih => exact newRec_inv ih hb e
  | free _ hr e ih =>
    obtain ⟨m', e', I⟩ := freeRec_some ih hr
    rw [e] at e'; cases e'; exact I

theorem Reach.recSize {size : Nat} {m : Mgr} {L : List Nat} (h : Reach size m L) : m.recSize = max size ptrSize := by
  induction h with
  | init b =>
    unfold newMgr
    simp only
    split <;> split <;> simp only <;> omega
  | new _ _ e ih =>
    rw [← ih]
    unfold newRec at e
    split at e
    · cases e; rfl
    · split at e
      · exact absurd e (by simp)
      · split at e <;> (cases e; rfl)
  | free _ _ e ih =>
    rw [← ih]
    unfold freeRec at e
    split at e
    · exact absurd e (by simp)
    · split at e
      · exact absurd e (by simp)
      · split at e
        · split at e
          · split at e <;> (cases e; rfl)
          · cases e; rfl
        · cases e; rfl

theorem recElement_spec {m : Mgr} {L : List Nat} (I : Inv m L) (hp : m.pure = true) (idx : Nat) :
    recElement m idx = some (L[idx]?) := by
  rw [(I.pure hp).2]
  have hc := I.cap
  unfold recElement
  rw [if_neg (by rw [hp]; simp; omega)]
  cases hb : m.blocks with
  | nil => exact absurd hb I.ne
  | cons last back =>
    have hfl : ∀ l : List Nat, (l.flatMap (fun b => m.inBlock b m.capacity)).length = l.length * m.capacity := by
      intro l
      induction l with
      | nil => simp
      | cons b l ih => rw [List.flatMap_cons, List.length_append, ih]; simp [Mgr.inBlock, Nat.add_mul]; omega
    have hget : ∀ (l : List Nat) (i : Nat), i < l.length * m.capacity →
        (l.flatMap (fun b => m.inBlock b m.capacity))[i]? = (l[i / m.capacity]?).map (fun b => m.addr b (i % m.capacity)) := by
      intro l
      induction l with
      | nil => intro i hi; simp at hi
      | cons b l ih =>
        intro i hi
        rw [List.flatMap_cons]
        by_cases h1 : i < m.capacity
        · rw [List.getElem?_append_left (by simpa [Mgr.inBlock] using h1), Nat.div_eq_of_lt h1, Nat.mod_eq_of_lt h1]
          simp [Mgr.inBlock, h1]
        · have h2 : m.capacity ≤ i := Nat.not_lt.1 h1
          rw [List.getElem?_append_right (by simpa [Mgr.inBlock] using h2)]
          have : (m.inBlock b m.capacity).length = m.capacity := by simp [Mgr.inBlock]
          rw [this, ih (i - m.capacity) (by rw [List.length_cons, Nat.add_mul, Nat.one_mul] at hi; omega)]
          rw [Nat.div_eq_sub_div hc h2, Nat.mod_eq_sub_mod h2, List.getElem?_cons_succ]
    unfold Mgr.all
    simp only [hb, List.reverse_cons, List.length_cons]
    by_cases h1 : idx < back.length * m.capacity
    · have h2 : idx / m.capacity < back.length := (Nat.div_lt_iff_lt_mul hc).2 h1
      rw [List.getElem?_append_left (by simpa using h2), List.getElem?_append_left (by rw [hfl]; simpa using h1),
        hget _ _ (by simpa using h1), List.getElem?_eq_getElem (by simpa using h2)]
      simp only [Option.map_some]
      rw [if_neg (by omega)]
    · have h1' : back.length * m.capacity ≤ idx := Nat.not_lt.1 h1
      have hl : (back.reverse.flatMap (fun b => m.inBlock b m.capacity)).length = back.length * m.capacity := by
        rw [hfl, List.length_reverse]
      have hr : (back.reverse.flatMap (fun b => m.inBlock b m.capacity) ++ m.inBlock last m.allocated)[idx]? =
          (m.inBlock last m.allocated)[idx - back.length * m.capacity]? := by
        rw [List.getElem?_append_right (by rw [hl]; exact h1'), hl]
      rw [hr]
      by_cases h2 : idx < (back.length + 1) * m.capacity
      · have h3 : idx / m.capacity = back.length := by
          apply Nat.div_eq_of_lt_le
          · exact h1'
          · exact h2
        have h4 : idx % m.capacity = idx - back.length * m.capacity := by
          have := Nat.div_add_mod idx m.capacity
          rw [h3, Nat.mul_comm] at this; omega
        rw [h3, List.getElem?_append_right (by simp)]
        simp only [List.length_reverse, Nat.sub_self, List.getElem?_cons_zero, true_and, h4]
        by_cases h5 : m.allocated ≤ idx - back.length * m.capacity
        · rw [if_pos h5]
          simp [Mgr.inBlock, h5]
        · rw [if_neg h5]
          simp [Mgr.inBlock, Nat.not_le.1 h5]
      · have h2' : (back.length + 1) * m.capacity ≤ idx := Nat.not_lt.1 h2
        have h3 : back.length + 1 ≤ idx / m.capacity := (Nat.le_div_iff_mul_le hc).2 h2'
        rw [List.getElem?_eq_none (by simpa using h3)]
        simp only
        rw [Nat.add_mul, Nat.one_mul] at h2'
        have := I.al
        rw [List.getElem?_eq_none (by simp [Mgr.inBlock]; omega)]

end Voss.Lib.Rec
