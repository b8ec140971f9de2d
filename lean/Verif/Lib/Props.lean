import Verif.Lib.HashLemmas
import Verif.Lib.GenLemmas
import Verif.Lib.RecLemmas
import Verif.Lib.BufLemmas
import Verif.Lib.NameLemmas
import Verif.Lib.StrLemmas
import Verif.Lib.UniqLemmas
/-
Properties of the support library (`src/lib`): C29 to C33 and C45 to C49.
-/
namespace Voss.Lib

/-! ### C29: hash tables behave as maps -/

/-- Every sequence of operations that keeps the interface contract gives the results of the finite
map; at the end the scan shows every entry of the map exactly once.  The bound is the last prime in
the table of primes. -/
theorem c29_map {K V : Type} {h : K → Nat → Nat} {eq : K → K → Bool} (H : HashOK h eq) (size : Nat)
    (hs : size ≤ 2147483629) (ops : List (Op K V)) (hn : ops.length ≤ 2147483630)
    (hl : Spec.Legal eq Spec.empty ops) :
    ∃ t t', create size = some t ∧ run h eq t ops = some (t', (Spec.run eq Spec.empty ops).2) ∧
      (scan t').Pairwise (fun a b => eq a.1 b.1 = false) ∧
      ∀ k d, (Spec.run eq Spec.empty ops).1.map k = some d ↔ ∃ e ∈ scan t', eq k e.1 = true ∧ e.2 = d := by
  obtain ⟨t, e, R⟩ := create_spec (K := K) (V := V) (h := h) (eq := eq) size hs
  have he : t.elements = 0 := by have := R.cnt'; simpa [Spec.empty] using this.symm
  obtain ⟨t', e', R'⟩ := run_spec H ops t _ R hl (by omega)
  exact ⟨t, t', e, e', R'.uniq, R'.map⟩

/-- The functions used in the examples: numbers modulo the size. -/
def modHash (k n : Nat) : Nat := k % n
def natEq (a b : Nat) : Bool := decide (a = b)
theorem mod_ok : HashOK modHash natEq :=
  ⟨by simp [natEq], by simp [natEq, eq_comm], by simp only [natEq, decide_eq_true_eq]; intro a b c h1 h2; rw [h1, h2],
   fun a n hn => Nat.mod_lt _ hn, by simp only [natEq, decide_eq_true_eq]; intro a b n h; rw [h]⟩

example : Spec.Legal natEq (Spec.empty (K := Nat) (V := Nat))
    [.insert 3 (some 7), .find 3, .insert 16 (some 8), .delete 3, .find 16, .find 3, .size] := by
  simp [Spec.Legal, Spec.step, Spec.put, Spec.del, Spec.empty, natEq]

example : ((create (K := Nat) (V := Nat) 10).bind (fun t => run modHash natEq t
    [.insert 3 (some 7), .find 3, .insert 16 (some 8), .delete 3, .find 16, .find 3, .size])).map (·.2) =
    some [.unit, .data (some 7), .unit, .unit, .data (some 8), .data none, .num 1] := by decide +kernel

/-- Without the contract, and with automatic resizing off: a later insertion shadows an earlier one and
a deletion uncovers it again.  With automatic resizing this fails: `c29_violated`. -/
theorem c29_shadow_partial {K V : Type} {h : K → Nat → Nat} {eq : K → K → Bool} (H : HashOK h eq) (size : Nat)
    (hs : size ≤ 2147483629) (ops : List (Op K V)) (hl : Shadow.Legal eq [] ops) :
    ∃ t t', create size = some t ∧
      run h eq t (.autosize false :: ops) = some (t', .unit :: (Shadow.run eq [] ops).2) := by
  obtain ⟨t, e, R⟩ := create_spec (K := K) (V := V) (h := h) (eq := eq) size hs
  have hempty : t.table.flatten = [] := by
    have h1 := R.cnt
    have h2 := R.cnt'
    simp only [Spec.empty] at h2
    exact List.length_eq_zero_iff.1 (by omega)
  obtain ⟨t', e'⟩ := shadow_run H ops { t with autosize := false } [] ⟨rfl, R.bk, by
    intro k chain hc
    have : chain = [] := by
      have hm := List.mem_of_getElem? hc
      rw [List.flatten_eq_nil_iff] at hempty
      exact hempty _ hm
    rw [this]⟩ hl
  exact ⟨t, t', e, by simp only [run, step, e', Option.bind_eq_bind, Option.bind_some]⟩

example : Shadow.Legal natEq ([] : List (Nat × Option Nat)) [.insert 1 (some 5), .insert 1 (some 6), .find 1, .delete 1, .find 1] := by
  simp [Shadow.Legal, Shadow.step, natEq]

/-- Resizing turns the chains round: after the table has grown, a key inserted twice finds its older
entry. -/
theorem c29_violated : ∃ ops : List (Op Nat Nat), Shadow.Legal natEq [] ops ∧
    ((create 1).bind (fun t => run modHash natEq t ops)).map (·.2) ≠ some (Shadow.run natEq [] ops).2 := by
  refine ⟨.insert 0 (some 1) :: .insert 0 (some 2) :: ((List.range 26).map (fun i => .insert (i + 1) (some i))) ++ [.find 0], ?_, ?_⟩
  · simp [Shadow.Legal, List.range, List.range.loop]
  · decide +kernel

/-! ### C30: generations -/

/-- For the histories that insert only absent keys, delete only present keys and change no key twice in
one generation, the table behaves as a stack of maps; `endG` brings back the map of `beginG`. -/
theorem c30_partial {K V : Type} {h : K → Nat → Nat} {eq : K → K → Bool} (H : HashOK h eq) (size : Nat)
    (hs : size ≤ 2147483629) (ops : List (Gen.Op K V)) (hl : Gen.GSpec.Legal eq Gen.GSpec.init ops)
    (hn : 2 * ops.length ≤ 2147483629) :
    ∃ g g', Gen.createGen size = some g ∧ Gen.run h eq g ops = some (g', (Gen.GSpec.run eq Gen.GSpec.init ops).2) ∧
      ∀ k, Gen.findGen h eq g' k = some ((Gen.GSpec.run eq Gen.GSpec.init ops).1.cur k) := by
  obtain ⟨g, e, R, w⟩ := Gen.createGen_spec (K := K) (V := V) (h := h) (eq := eq) size hs
  obtain ⟨g', e', R'⟩ := Gen.run_gspec H ops g _ R hl (by omega)
  exact ⟨g, g', e, e', fun k => R'.main.find H k⟩

example : Gen.GSpec.Legal natEq (Gen.GSpec.init (K := Nat) (V := Nat))
    [.insert 1 10, .insert 2 20, .beginG, .delete 1, .insert 3 30, .beginG, .insert 1 11, .endG, .find 1, .endG, .find 1] := by
  simp [Gen.GSpec.Legal, Gen.GSpec.step, Gen.GSpec.init, Gen.GSpec.Fresh, Gen.touch, natEq]

/-- The outputs of a history from a new table. -/
def Gen.outs (ops : List (Gen.Op Nat Nat)) : Option (List (Option Nat)) :=
  ((Gen.createGen 10).bind (fun g => Gen.run modHash natEq g ops)).map (·.2)

/-- A key inserted and deleted in one generation: ending it follows a null pointer.  A key inserted
twice: ending leaves the first value.  A key overwritten in a generation: afterwards it is in the table
twice, and deleting it leaves it there. -/
theorem c30_violated :
    Gen.outs [.beginG, .insert 1 10, .delete 1, .endG] = none ∧
    Gen.outs [.beginG, .insert 1 10, .insert 1 20, .endG, .find 1] = some [none, none, none, none, some 10] ∧
    Gen.outs [.insert 1 10, .beginG, .insert 1 20, .endG, .find 1, .delete 1, .find 1] =
      some [none, none, none, none, some 10, none, some 10] := by
  refine ⟨?_, ?_, ?_⟩ <;> decide +kernel

/-! ### C31: the record manager -/

namespace Rec

/-- A new record: there always is one, it lies in a block the manager holds, behind the two links at the
block's start, and overlaps no record in use. -/
theorem c31_new {size : Nat} {m : Mgr} {L : List Nat} (R : Reach size m L) (b : Nat)
    (hb : ∀ b' ∈ m.blocks, Apart m.blkSize b m.blkSize b') :
    ∃ r m', newRec m b = some (r, m') ∧ Reach size m' (L ++ [r]) ∧
      (∃ blk ∈ m'.blocks, blk + 16 ≤ r ∧ r + size ≤ blk + m'.blkSize) ∧ ∀ x ∈ L, Apart size r size x := by
  have I := R.inv
  have hsome : ∃ r m', newRec m b = some (r, m') := by
    unfold newRec
    cases m.free with
    | cons r rest => exact ⟨_, _, rfl⟩
    | nil =>
      cases hB : m.blocks with
      | nil => exact absurd hB I.ne
      | cons last back => simp only; split <;> exact ⟨_, _, rfl⟩
  obtain ⟨r, m', e⟩ := hsome
  have R' := Reach.new R hb e
  have I' := R'.inv
  have hsz : size ≤ m'.recSize := by rw [R'.recSize]; exact Nat.le_max_left _ _
  have hr : r ∈ m'.all := I'.perm.mem_iff.1 (by simp)
  refine ⟨r, m', e, R', ?_, ?_⟩
  · obtain ⟨blk, h1, h2, h3⟩ := all_inside I' hr
    exact ⟨blk, h1, by unfold ptrSize at h2; omega, by omega⟩
  · intro x hx
    have hp := I'.perm.symm.pairwise (all_apart I') (fun h => h.symm)
    have := (List.pairwise_append.1 (List.pairwise_append.1 hp).1).2.2 x hx r (List.mem_singleton.2 rfl)
    unfold Apart at this ⊢
    omega

/-- Returning a record in use is defined and leaves the others in use. -/
theorem c31_free {size : Nat} {m : Mgr} {L : List Nat} (R : Reach size m L) {r : Nat} (hr : r ∈ L) :
    ∃ m', freeRec m r = some m' ∧ Reach size m' (L.erase r) := by
  obtain ⟨m', e, _⟩ := freeRec_some R.inv hr
  exact ⟨m', e, Reach.free R hr e⟩

/-- The records in use never overlap and stay in blocks the manager holds. -/
theorem c31_live {size : Nat} {m : Mgr} {L : List Nat} (R : Reach size m L) :
    L.Pairwise (fun a a' => Apart size a size a') ∧
    ∀ r ∈ L, ∃ blk ∈ m.blocks, blk + 16 ≤ r ∧ r + size ≤ blk + m.blkSize := by
  have I := R.inv
  have hsz : size ≤ m.recSize := by rw [R.recSize]; exact Nat.le_max_left _ _
  constructor
  · have hp := I.perm.symm.pairwise (all_apart I) (fun h => h.symm)
    refine (List.pairwise_append.1 hp).1.imp ?_
    intro a a' h
    unfold Apart at h ⊢
    omega
  · intro r hr
    obtain ⟨blk, h1, h2, h3⟩ := all_inside I (I.perm.mem_iff.1 (List.mem_append_left _ hr))
    exact ⟨blk, h1, by unfold ptrSize at h2; omega, by omega⟩

/-- While the manager is pure, walking it shows the records in use in the order in which they were
handed out, `rec_element` is the `idx`-th of them, and the size is their number. -/
theorem c31_pure {size : Nat} {m : Mgr} {L : List Nat} (R : Reach size m L) (hp : m.pure = true) :
    forRec m = some L ∧ (∀ idx, recElement m idx = some L[idx]?) ∧ mgrSize m = some L.length := by
  have I := R.inv
  refine ⟨?_, recElement_spec I hp, ?_⟩
  · unfold forRec
    rw [hp, (I.pure hp).2]
    unfold Mgr.all
    simp only [if_true]
    cases m.blocks <;> rfl
  · simp [mgrSize, hp, I.live]

/-- Histories exist: two records, the first returned and handed out again. -/
example : ∃ m, Reach 24 m [1024 + 24, 1024] := by
  have h0 := Reach.init (size := 24) (1024 - 16)
  have h1 := Reach.new (b := 100000) h0 (by simp [newMgr, natBlock, ptrSize, Apart]) rfl
  have h2 := Reach.new (b := 100000) h1 (by simp [newMgr, natBlock, ptrSize, Apart]) rfl
  have h3 := Reach.free (r := 1024) h2 (by simp [Mgr.addr, newMgr, natBlock, ptrSize]) rfl
  have h4 := Reach.new (b := 100000) h3 (by simp [newMgr, natBlock, ptrSize, Apart]) rfl
  exact ⟨_, h4⟩

/-! ### C45: deleting entries while scanning -/

/-- As long as the table's buckets fit in one block, scanning a table and deleting some of the entries
shown visits every entry and leaves exactly the others.  With more than one block this fails:
`c45_violated`. -/
theorem c45_scan_partial (dead : Nat → Bool) {b : Nat} {m : Mgr} {L as : List Nat} (R : Reach 24 m L) (hb : m.blocks = [b])
    (hp : as.Perm L) :
    ∃ m', scanDelete dead m as = some (m', as.filter (fun a => !dead a)) ∧ Reach 24 m' (L.filter (fun a => !dead a)) := by
  have I := R.inv
  have hLnd : L.Nodup := (List.nodup_append.1 (I.perm.nodup_iff.2 (all_nodup I))).1
  obtain ⟨m', e, R'⟩ := scanDelete_one dead as m L R hb (hp.nodup_iff.2 hLnd) (fun a h => hp.mem_iff.1 h)
  refine ⟨m', e, ?_⟩
  have : L.filter (fun a => !dead a) = L.filter (fun a => !(dead a && as.contains a)) := by
    apply List.filter_congr
    intro x hx
    have : as.contains x = true := by simpa using hp.mem_iff.2 hx
    rw [this]; simp
  rw [this]; exact R'

/-- Take `n` records, the new blocks at multiples of 10000. -/
def takeN : Nat → Mgr → List Nat → Option (Mgr × List Nat)
  | 0, m, L => some (m, L)
  | n + 1, m, L => do
    let (r, m) ← newRec m (10000 * m.blocks.length)
    takeN n m (L ++ [r])

theorem takeN_reach : ∀ (n : Nat) (m : Mgr) (L : List Nat) {m' : Mgr} {L' : List Nat}, Reach 24 m L →
    (∀ i b, m.blocks.reverse[i]? = some b → b = 10000 * i) → m.blkSize ≤ 10000 → takeN n m L = some (m', L') → Reach 24 m' L' := by
  intro n
  induction n with
  | zero => intro m L m' L' R _ _ e; cases e; exact R
  | succ n ih =>
    intro m L m' L' R hb hs e
    have ha : ∀ b' ∈ m.blocks, Apart m.blkSize (10000 * m.blocks.length) m.blkSize b' := by
      intro b' hb'
      obtain ⟨i, hi, he⟩ := List.mem_iff_getElem.1 (List.mem_reverse.2 hb')
      have := hb i b' (by rw [List.getElem?_eq_getElem hi, he])
      simp at hi
      unfold Apart; omega
    cases hr : newRec m (10000 * m.blocks.length) with
    | none => simp only [takeN, hr, Option.bind_eq_bind, Option.bind_none] at e; cases e
    | some rm =>
      obtain ⟨r, m1⟩ := rm
      simp only [takeN, hr, Option.bind_eq_bind, Option.bind_some] at e
      refine ih m1 _ (Reach.new R ha hr) ?_ ?_ e
      · unfold newRec at hr
        split at hr
        · cases hr; exact hb
        · split at hr
          · cases hr
          · split at hr
            · cases hr; exact hb
            · cases hr
              intro i b h
              simp only [List.reverse_cons] at h
              by_cases hi : i < m.blocks.length
              · rw [List.getElem?_append_left (by simpa using hi)] at h
                exact hb i b h
              · rw [List.getElem?_append_right (by simp; omega)] at h
                have hi2 := (List.getElem?_eq_some_iff.1 h).1
                simp at hi2
                have : i = m.blocks.length := by omega
                subst this
                simp at h; exact h.symm
      · unfold newRec at hr
        split at hr
        · cases hr; exact hs
        · split at hr
          · cases hr
          · split at hr <;> · cases hr; exact hs

/-- A table of 169 entries (the buckets of the hash tables have 24 bytes, 168 of them fit in a block):
scanning it and deleting what is shown reads memory that has been returned to the allocator. -/
theorem c45_violated : ∃ m L, Reach 24 m L ∧ L.length = 169 ∧ scanDelete (fun _ => true) m L = none := by
  have h0 := Reach.init (size := 24) 0
  have he : ∃ m L, takeN 169 (newMgr 24 0) [] = some (m, L) ∧ L.length = 169 ∧ scanDelete (fun _ => true) m L = none := by
    have : (match takeN 169 (newMgr 24 0) [] with
      | some (m, L) => decide (L.length = 169) && (scanDelete (fun _ => true) m L).isNone
      | none => false) = true := by decide +kernel
    cases ht : takeN 169 (newMgr 24 0) [] with
    | none => rw [ht] at this; cases this
    | some mL =>
      obtain ⟨m, L⟩ := mL
      rw [ht] at this
      simp only [Bool.and_eq_true, decide_eq_true_eq, Option.isNone_iff_eq_none] at this
      exact ⟨m, L, rfl, this.1, this.2⟩
  obtain ⟨m, L, e, h1, h2⟩ := he
  refine ⟨m, L, takeN_reach 169 _ _ h0 ?_ (by decide) e, h1, h2⟩
  intro i b h
  have : (newMgr 24 0).blocks = [0] := by decide
  rw [this] at h
  cases i with
  | zero => simp at h; omega
  | succ i => simp at h

example : ∃ m, Reach 24 m [16, 40] ∧ m.blocks = [0] := by
  have h0 := Reach.init (size := 24) 0
  have h1 := Reach.new (b := 10000) h0 (by simp [newMgr, natBlock, ptrSize, Apart]) rfl
  have h2 := Reach.new (b := 10000) h1 (by simp [newMgr, natBlock, ptrSize, Apart]) rfl
  exact ⟨_, h2, rfl⟩

end Rec

/-! ### C32: buffers -/

namespace Buf

/-- Every sequence of operations on a new buffer gives the results of the sequence, if items are popped
and stored only where there are any, the item just past the end is not asked for, and the sequence stays
so short that twice its size in bytes is below 2^32. -/
theorem c32_partial {α : Type} (zero : α) (n k sz : Nat) (hp : 0 < sz) (hk : (if k < 1 then 1 else k) * sz < 2 ^ 32)
    (hn : 2 * n * sz < 2 ^ 32) (ops : List (Op α)) (hl : Spec.Legal zero [] ops) (he : Spec.NoEdge zero [] ops)
    (hb : Spec.Below zero n [] ops) :
    ∃ b', run zero (newBuf zero k sz) ops = some (b', (Spec.run zero [] ops).2) := by
  obtain ⟨b', e, _⟩ := run_spec hn ops _ [] (newBuf_rel k sz hp hk) hl he hb
  exact ⟨b', e⟩

example : Spec.Legal 0 [] [.push 3, .push 4, .fetch 1, .resize 5, .fetch 4, .store 2 9, .pop, .locate 6, .count] ∧
    Spec.NoEdge 0 [] [.push 3, .push 4, .fetch 1, .resize 5, .fetch 4, .store 2 9, .pop, .locate 6, .count] ∧
    Spec.Below 0 7 [] [.push 3, .push 4, .fetch 1, .resize 5, .fetch 4, .store 2 9, .pop, .locate 6, .count] := by
  simp [Spec.Legal, Spec.NoEdge, Spec.Below, Spec.step, List.replicate]

/-- Asking for the item just past the end is not reported: it reads an unused place of the block, or
memory behind the block. -/
theorem c32_violated :
    (run 0 (newBuf 0 2 8) [.push 5, .fetch 1]).map (·.2) = some [.unit, .item (some 0)] ∧
    (Spec.run 0 [] [.push 5, .fetch 1]).2 = [.unit, .item none] ∧
    run 0 (newBuf 0 1 8) [.push 5, .fetch 1] = none := by
  refine ⟨by decide +kernel, by decide +kernel, ?_⟩
  have : (run 0 (newBuf 0 1 8) [.push 5, .fetch 1]).isNone = true := by decide +kernel
  exact Option.isNone_iff_eq_none.1 this

theorem resize_fresh (N : Nat) (h1 : 1 ≤ N) (h2 : N * 8 < 2 ^ 32) :
    ∃ b : Buffer Nat, resize 0 (newBuf 0 1 8) N = some b ∧ b.count = N ∧ b.itemSize = 8 ∧ b.data.length ≤ N ∧
      b.allocated ≤ N * 8 := by
  have R : Rel 8 (newBuf (0 : Nat) 1 8) [] := newBuf_rel 1 8 (by omega) (by decide)
  obtain ⟨b', e, R', hc, hlen⟩ := grow_spec (zero := 0) R N N (by simp) h2 h2 (by omega)
  have hd : (newBuf (0 : Nat) 1 8).data.length = 1 := by decide
  have hcnt : (newBuf (0 : Nat) 1 8).count = 0 := by decide
  have hN : b'.data.length = N := by
    rcases hlen with h | h
    · exact h.1
    · exfalso
      unfold growIf at e
      split at e
      · cases hci : copyInto (newBuf (0 : Nat) 1 8) (calloc 0 (newBuf (0 : Nat) 1 8).itemSize (u32 (N * (newBuf (0 : Nat) 1 8).itemSize))) with
        | none => rw [hci] at e; cases e
        | some d =>
          rw [hci] at e; cases e
          unfold copyInto at hci
          simp only at hci
          split at hci
          · cases hci
            simp [hcnt, calloc, u32, show (newBuf (0 : Nat) 1 8).itemSize = 8 from rfl] at h
            omega
          · cases hci
      · next hn =>
        cases e
        rw [hd] at h
        omega
  refine ⟨{ b' with data := b'.data.take b'.count ++ List.replicate (N - b'.count) 0 ++ b'.data.drop N, count := N }, ?_, rfl, R'.isz, ?_, ?_⟩
  · unfold resize
    rw [if_neg (by rw [hcnt]; omega)]
    simp only [e, Option.bind_eq_bind, Option.bind_some, zeroFrom, hN, Nat.le_refl, if_true]
  · simp only [List.length_append, List.length_take, List.length_replicate, List.length_drop, hN]; omega
  · have := R'.alloc
    simp only [this, hN]; omega

/-- Sizes wrap around at 2^32 bytes: pushing onto a buffer of 2^28 pointers allocates a block of no
bytes and copies the buffer into it. -/
theorem c32_overflow_violated : ∃ b : Buffer Nat, resize 0 (newBuf 0 1 8) (2 ^ 28) = some b ∧ push 0 b 5 = none := by
  obtain ⟨b, e, h1, h2, h3, h4⟩ := resize_fresh (2 ^ 28) (by omega) (by omega)
  refine ⟨b, e, ?_⟩
  have e1 : u32 (b.itemSize * b.count) = 2 ^ 31 := by rw [h1, h2]; decide
  have e2 : u32 (2 * b.count * b.itemSize) = 0 := by rw [h1, h2]; decide
  have e3 : u32 (b.count * b.itemSize) / b.itemSize = 2 ^ 28 := by rw [h1, h2]; decide
  have hc : copyInto b (calloc 0 b.itemSize 0) = none := by
    unfold copyInto
    simp only [e3]
    rw [if_neg]
    rintro ⟨_, h⟩
    simp [calloc] at h
  have hg : growIf 0 b (b.itemSize * b.count) (2 * b.count * b.itemSize) = none := by
    unfold growIf
    rw [e1, e2, hc, if_pos (by omega)]
    rfl
  unfold push
  simp only [hg, Option.bind_eq_bind, Option.bind_none]

end Buf

/-! ### C33: node names -/

namespace Name

/-- The comparison is the lexicographic order of the sequences of numbers and characters. -/
theorem c33_lex_partial (s t : List Nat) (hs : Fits s) (ht : Fits t) : ∃ r, nodeNameCmp s t = some r ∧
    (r < 0 ↔ lexLt (tokens none s) (tokens none t) = true) ∧ (0 < r ↔ lexLt (tokens none t) (tokens none s) = true) := by
  obtain ⟨r, e, h⟩ := cmpLoop_spec _ s t (Nat.lt_succ_self _) hs ht
  exact ⟨r, e, h⟩

/-- `s` sorts before `t` or like it. -/
def le (s t : List Nat) : Prop := ∃ r, nodeNameCmp s t = some r ∧ r ≤ 0

theorem le_iff {s t : List Nat} (hs : Fits s) (ht : Fits t) : le s t ↔ lexLt (tokens none t) (tokens none s) = false := by
  obtain ⟨r, e, _, h2⟩ := c33_lex_partial s t hs ht
  constructor
  · rintro ⟨r', e', hr⟩
    rw [e] at e'; cases e'
    cases h : lexLt (tokens none t) (tokens none s) with
    | false => rfl
    | true => have := h2.2 h; omega
  · intro h
    refine ⟨r, e, ?_⟩
    apply Int.not_lt.1
    intro hr
    rw [h2.1 hr] at h; cases h

/-- It is a total preorder, for names whose numbers fit an `int`. -/
theorem c33_preorder_partial (s t u : List Nat) (hs : Fits s) (ht : Fits t) (hu : Fits u) :
    le s s ∧ (le s t ∨ le t s) ∧ (le s t → le t u → le s u) ∧ (le s t ∧ le t s ↔ tokens none s = tokens none t) := by
  have gs := tokens_good s none
  have gt := tokens_good t none
  have gu := tokens_good u none
  simp only [le_iff hs hs, le_iff hs ht, le_iff ht hs, le_iff ht hu, le_iff hs hu]
  refine ⟨lex_irrefl _, ?_, ?_, ?_⟩
  · cases h1 : lexLt (tokens none t) (tokens none s) with
    | false => exact Or.inl rfl
    | true =>
      right
      cases h2 : lexLt (tokens none s) (tokens none t) with
      | false => rfl
      | true => have := lex_trans _ _ _ gs gt gs h2 h1; rw [lex_irrefl] at this; cases this
  · intro h1 h2
    cases h3 : lexLt (tokens none u) (tokens none s) with
    | false => rfl
    | true =>
      rcases lex_total _ _ gs gt with h | h | h
      · rw [lex_trans _ _ _ gu gs gt h3 h] at h2; cases h2
      · rw [← h, h3] at h2; cases h2
      · rw [h] at h1; cases h1
  · constructor
    · rintro ⟨h1, h2⟩
      rcases lex_total _ _ gs gt with h | h | h
      · rw [h] at h2; cases h2
      · exact h
      · rw [h] at h1; cases h1
    · intro h; rw [h]; exact ⟨lex_irrefl _, lex_irrefl _⟩

/-- Names that differ first in a number sort by its value, e.g. `a[9]` before `a[10]`. -/
theorem c33_numeric_partial (p s t : List Nat) (c d e : Nat) (hc : isDigit c = false) (hd : isDigit d = true) (he : isDigit e = true)
    (fs : Fits (p ++ c :: d :: s)) (ft : Fits (p ++ c :: e :: t)) (hlt : digitsVal 0 (d :: s) < digitsVal 0 (e :: t)) :
    ∃ r, nodeNameCmp (p ++ c :: d :: s) (p ++ c :: e :: t) = some r ∧ r < 0 := by
  obtain ⟨r, er, h1, _⟩ := c33_lex_partial _ _ fs ft
  refine ⟨r, er, h1.2 ?_⟩
  rw [tokens_append hc (d :: s) p none, tokens_append hc (e :: t) p none, lex_prefix, tokens_digit hd, tokens_digit he]
  simp [lexLt, Tok.lt, hlt]

/-- `a[9]` and `a[10]`. -/
example : Fits [97, 91, 57, 93] ∧ Fits [97, 91, 49, 48, 93] ∧ nodeNameCmp [97, 91, 57, 93] [97, 91, 49, 48, 93] = some (-1) := by
  refine ⟨?_, ?_, by decide⟩ <;>
  · intro n hn
    simp [tokens, isDigit] at hn
    omega

/-- A number above 2^31 - 1: the behaviour is undefined. -/
theorem c33_violated : nodeNameCmp [97, 50, 49, 52, 55, 52, 56, 51, 54, 52, 56] [97, 49] = none := by decide

end Name

/-! ### C46 to C48: strings -/

namespace Str

/-- Strings saved are still there after every later `Strsave` or `WAstrsave`: from any reachable state a
save succeeds, the new pointer shows the string (its first 130000 characters), and all earlier pointers
show what they showed. -/
inductive Saved : SMgr → List (Ptr × List Nat) → Prop
  | init {g : List Nat} : g.length = blockSize + 1 → Saved (newMgr g) []
  | save {m m' : SMgr} {L : List (Ptr × List Nat)} {g s : List Nat} {p : Ptr} : Saved m L → g.length = blockSize + 1 →
      save m g s = some (p, m') → Saved m' ((p, s.take blockSize) :: L)
  | waSave {m m' : SMgr} {L : List (Ptr × List Nat)} {g s : List Nat} {p : Ptr} : Saved m L → g.length = blockSize + 1 →
      waSave m g s = some (p, m') → Saved m' ((p, s.take blockSize) :: L)

theorem Saved.inv {m : SMgr} {L : List (Ptr × List Nat)} (h : Saved m L) : SInv m L := by
  induction h with
  | init hg => exact newMgr_inv hg
  | save _ hg e ih =>
    obtain ⟨p', m'', e', I, _⟩ := save_spec ih hg
    rw [e] at e'; cases e'; exact I
  | waSave _ hg e ih =>
    obtain ⟨p', m'', e', I, _⟩ := waSave_spec ih hg
    rw [e] at e'; cases e'; exact I

theorem c46_saved {m : SMgr} {L : List (Ptr × List Nat)} (h : Saved m L) :
    (∀ p s, (p, s) ∈ L → NoNul s → m.read p = some s) ∧
    ∀ g s, g.length = blockSize + 1 → (save m g s).isSome ∧ (waSave m g s).isSome := by
  have I := h.inv
  refine ⟨fun p s hp hs => I.read hp hs, fun g s hg => ?_⟩
  obtain ⟨_, _, e1, _⟩ := save_spec I (s := s) hg
  obtain ⟨_, _, e2, _⟩ := waSave_spec I (s := s) hg
  rw [e1, e2]; exact ⟨rfl, rfl⟩

/-- Interning: for strings of at most 130000 characters, two calls of `uStrsave` return the same pointer
exactly when the strings are equal, and the pointer shows the string.  For longer strings this fails:
`c46_violated`. -/
theorem c46_intern_partial {h : List Nat → Nat → Nat} (H : HashOK h strEqu) (g : List Nat) (hg : g.length = blockSize + 1)
    (calls : List (List Nat × List Nat)) (hc : ∀ c ∈ calls, c.1.length = blockSize + 1 ∧ c.2.length ≤ blockSize ∧ NoNul c.2)
    (hn : calls.length ≤ 2147483630) :
    ∃ u ps u', newU g = some u ∧ usaveAll h u calls = some (ps, u') ∧ ps.length = calls.length ∧
      (∀ (i : Nat) (p : Ptr) (c : List Nat × List Nat), ps[i]? = some p → calls[i]? = some c → u'.smgr.read p = some c.2) ∧
      (∀ (i j : Nat) (p q : Ptr) (c d : List Nat × List Nat), ps[i]? = some p → ps[j]? = some q → calls[i]? = some c → calls[j]? = some d →
        (p = q ↔ c.2 = d.2)) := by
  obtain ⟨u, e, I, h0⟩ := newU_inv (h := h) hg
  obtain ⟨ps, u', sp, L, e', I', _, hl, hm⟩ := usaveAll_spec H calls u _ _ I (fun c h => ⟨(hc c h).1, (hc c h).2.1⟩) (by omega)
  have key : ∀ (i : Nat) (p : Ptr) (c : List Nat × List Nat), ps[i]? = some p → calls[i]? = some c → (p, c.2) ∈ L := by
    intro i p c hp hcc
    apply hm
    apply List.mem_of_getElem? (i := i)
    rw [List.getElem?_zip_eq_some]
    exact ⟨hp, by rw [List.getElem?_map, hcc]; rfl⟩
  refine ⟨u, ps, u', e, e', hl, ?_, ?_⟩
  · intro i p c hp hcc
    exact I'.inv.read (key i p c hp hcc) (hc c (List.mem_of_getElem? hcc)).2.2
  · intro i j p q c d hp hq hcc hdd
    have k1 := key i p c hp hcc
    have k2 := key j q d hq hdd
    constructor
    · intro hpq; rw [← hpq] at k2; exact I'.uniq' _ _ _ k1 k2
    · intro hcd; rw [← hcd] at k2; exact I'.uniq _ _ _ k1 k2

/-- Saving a string of more than 130000 characters twice gives two pointers. -/
theorem c46_violated {h : List Nat → Nat → Nat} (H : HashOK h strEqu) (g s : List Nat) (hg : g.length = blockSize + 1)
    (hs : s.length > blockSize) :
    ∃ u p q u', newU g = some u ∧ usaveAll h u [(g, s), (g, s)] = some ([p, q], u') ∧ p ≠ q := by
  obtain ⟨u, e, I, h0⟩ := newU_inv (h := h) hg
  have ef := find_spec H I.tbl s
  obtain ⟨p, m1, es, I1, _⟩ := save_spec I.inv (s := s) hg
  obtain ⟨t1, ei, R1, el⟩ := insert_spec (d := some p) H I.tbl (by omega) (k := s.take blockSize) (by rfl)
  have e1 : usave h u g s = some (p, ⟨m1, t1⟩) := by
    simp only [usave, ef, Spec.empty, Option.bind_eq_bind, Option.bind_some, Option.bind_none, es, ei]
  have hne : strEqu (s.take blockSize) s = false := by
    cases hx : strEqu (s.take blockSize) s with
    | false => rfl
    | true =>
      have := congrArg List.length (strEqu_iff.1 hx)
      rw [List.length_take] at this; omega
  have ef2 : find h strEqu t1 s = some none := by
    rw [find_spec H R1]
    simp [Spec.put, hne, Spec.empty]
  obtain ⟨q, m2, es2, I2, hpq⟩ := save_spec I1 (s := s) hg
  obtain ⟨t2, er, R2, el2⟩ := resize_spec H R1 (by omega)
  obtain ⟨tbl, ep, _, _⟩ := place_spec H R2.bk (s.take blockSize, some q)
  have ei2 : insert h t1 (s.take blockSize) (some q) = some { t2 with elements := t2.elements + 1, table := tbl } := by
    simp only [insert, er, ep, Option.bind_eq_bind, Option.bind_some]
  have e2 : usave h ⟨m1, t1⟩ g s = some (q, ⟨m2, { t2 with elements := t2.elements + 1, table := tbl }⟩) := by
    simp only [usave, ef2, Option.bind_eq_bind, Option.bind_some, es2, ei2]
  refine ⟨u, p, q, ⟨m2, { t2 with elements := t2.elements + 1, table := tbl }⟩, e, ?_, hpq p _ (List.mem_cons_self ..)⟩
  simp only [usaveAll, e1, e2, Option.bind_eq_bind, Option.bind_some]

/-- The calls of the theorem exist: hashing by length. -/
example : HashOK (fun s n => s.length % n) strEqu :=
  ⟨by simp [strEqu], by simp only [strEqu, beq_iff_eq]; intro a b h; exact h.symm, by simp only [strEqu, beq_iff_eq]; intro a b c h1 h2; rw [h1, h2],
   fun a n hn => Nat.mod_lt _ hn, by simp only [strEqu, beq_iff_eq]; intro a b n h; rw [h]⟩

/-- C47. Building strings in the shared buffer (`strtemp`, `strappend`, `charappend`): every sequence of
calls gives the string built so far, cut off at 130000 characters. -/
theorem c47_shared (t : Tmp) (hb : t.buf.length = blockSize + 1) (s : List Nat) (ops : List TOp)
    (hnul : NoNul ((TOp.temp s :: ops).foldl TOp.spec [])) :
    ∃ t', trun t (.temp s :: ops) = some t' ∧ t'.str = (TOp.temp s :: ops).foldl TOp.spec [] := by
  obtain ⟨t1, e1, R1⟩ := strtemp_spec (s := s) hb (Nat.le_refl _)
  obtain ⟨t2, e2, R2⟩ := trun_spec ops t1 _ R1 (by rw [List.length_take]; omega)
  refine ⟨t2, by simp only [trun, tstep, e1, e2, Option.bind_eq_bind, Option.bind_some], ?_⟩
  exact R2.shows.cstr hnul

/-- Building strings in one's own buffer: correct as long as all strings have fewer than 130000
characters and truncation does not lengthen. -/
theorem c47_own_partial (t : Tmp) (hb : t.buf.length = blockSize) (s : List Nat) (ops : List GOp)
    (hl : GLegal [] (.temp s :: ops)) (hnul : NoNul ((GOp.temp s :: ops).foldl GOp.spec [])) :
    ∃ t', grun t (.temp s :: ops) = some t' ∧ t'.str = (GOp.temp s :: ops).foldl GOp.spec [] := by
  obtain ⟨h1, _, h3⟩ := hl
  simp only [GOp.spec] at h1 h3
  obtain ⟨b', e, sh, l⟩ := overwrite (b := t.buf) (bs := s) (by omega)
  obtain ⟨t2, e2, R2⟩ := grun_spec ops ⟨b', s.length⟩ s ⟨by rw [l]; exact hb, rfl, sh⟩ h3 h1
  refine ⟨t2, ?_, R2.shows.cstr hnul⟩
  simp only [grun, gstep, genStrtemp, if_neg (show ¬ s.length > blockSize by omega), e, e2, Option.bind_eq_bind, Option.bind_some]

example : GLegal [] [.temp [97, 98], .append [99], .prepend [100], .truncate 3, .append [101]] := by
  simp [GLegal, GOp.spec, blockSize]

example (g : List Nat) (hg : g.length = blockSize) : ∃ t', grun ⟨g, 0⟩ [.temp [97, 98], .append [99], .prepend [100], .truncate 3, .append [101]] = some t' ∧
    t'.str = [100, 97, 98, 101] :=
  c47_own_partial ⟨g, 0⟩ hg _ _ (by simp [GLegal, GOp.spec, blockSize]) (by simp [GOp.spec, NoNul])

/-- A string of exactly 130000 characters is accepted and its final 0 is written behind the buffer. -/
theorem c47_violated (t : Tmp) (hb : t.buf.length = blockSize) (s : List Nat) (hs : s.length = blockSize) :
    genStrtemp t s = none := by
  have : write t.buf 0 (s ++ [0]) = none := by
    unfold write
    rw [if_neg (by simp; omega)]
  simp only [genStrtemp, if_neg (show ¬ s.length > blockSize by omega), this, Option.bind_eq_bind, Option.bind_none]

/-- C48. Numbers given on the command line: decimal numbers without leading zero are read correctly. -/
theorem c48_decimal_partial (c : Nat) (s : List Nat) (n : Nat) (hc : c ≠ 48) (hd : decimal 0 (c :: s) = some n) (hn : n < 2 ^ 31) :
    str2int (c :: s) = some (some (n : Int)) ∧ str2int (45 :: c :: s) = some (some (-(n : Int))) := by
  have hcd : 48 ≤ c ∧ c ≤ 57 := by
    apply Classical.byContradiction
    intro h
    simp [decimal, h] at hd
  have hs : sign (c :: s) = (false, c :: s) := by
    unfold sign; split
    · next h => cases h; omega
    · rfl
  have hs2 : sign (45 :: c :: s) = (true, c :: s) := rfl
  have hr : radix (c :: s) = (10, c :: s) := by
    unfold radix; split
    · next h => cases h; omega
    · next h => cases h; omega
    · next h => cases h; omega
    · rfl
  obtain ⟨e, _⟩ := digits_dec (c :: s) false 0 n hd hn
  have e' : digits (if (10 : Int) ≤ 10 then decDigit else hexDigit) 10 false 0 (c :: s) = some (true, (n : Int), []) := by
    rw [if_pos (by omega)]; simpa using e
  constructor
  · simp only [str2int, hs, hr, e', Option.bind_eq_bind, Option.bind_some]; simp
  · simp only [str2int, hs2, hr, e', Option.bind_eq_bind, Option.bind_some]; simp

example : decimal 0 [49, 50, 51] = some 123 := by decide

/-- `0` is refused, `0xa` is 0, `0x1f` is 21, `08` is 8, `0xg` is accepted, and 2147483648 is undefined. -/
theorem c48_violated : str2int [48] = some none ∧ str2int [48, 120, 97] = some (some 0) ∧
    str2int [48, 120, 49, 102] = some (some 21) ∧ str2int [48, 56] = some (some 8) ∧ str2int [48, 120, 103] = some (some 6) ∧
    str2int [50, 49, 52, 55, 52, 56, 51, 54, 52, 56] = none := by decide

end Str

/-! ### C49: buffers without duplicates -/

namespace Uniq

/-- Every sequence of operations gives the results of the sequence without duplicates: an item is added
once, keeps its index, and is found at that index. -/
theorem c49_partial {α : Type} [DecidableEq α] (zero : α) {h : α → Nat → Nat} (H : HashOK h itemEqu) (k sz n : Nat) (hp : 0 < sz)
    (hk : (if k < 1 then 1 else k) * sz < 2 ^ 32) (hk' : k ≤ 2147483629) (hn : 2 * n * sz < 2 ^ 32) (hn' : n ≤ 2147483629)
    (ops : List (Op α)) (he : Spec.NoEdge [] ops) (hl : ops.length ≤ n) :
    ∃ u u', newU zero k sz = some u ∧ run zero h u ops = some (u', (Spec.run [] ops).2) := by
  obtain ⟨u, e, R⟩ := newU_spec (zero := zero) (h := h) hk' hp hk
  obtain ⟨u', e', _⟩ := run_spec (zero := zero) H hn hn' ops u [] R he (by simpa using hl)
  exact ⟨u, u', e, e'⟩

example : Spec.NoEdge [] [.push 3, .push 3, .findInsert 4, .index 3, .index 9, .fetch 1, .count] := by
  simp [Spec.NoEdge, Spec.step]

example : Spec.run [] [.push 3, .push 3, .findInsert 4, .index 4, .index 9, .fetch 1, .count] =
    ([3, 4], [.bool true, .bool false, .num 1, .num 1, .num (-1), .item (some 4), .num 2]) := by
  simp [Spec.run, Spec.step, place]
  decide

end Uniq
end Voss.Lib
