import Verif.Sha.Lemmas

/- Feeding the message in pieces. -/
namespace Voss.Sha

/-- The context holds the message `m`: its whole blocks are hashed, the rest is in the buffer. -/
structure Holds (c : Ctx) (h0 : Regs W32) (m : List Byte) : Prop where
  len : c.data.length = 64
  num : c.num = m.length % 64
  rest : c.data.take c.num = m.drop (64 * (m.length / 64))
  hash : loR c.h = (Fips.blocks m).foldl (Fips.compress K32) h0

theorem blocks_append (m s : List Byte) (h : (m ++ s).length / 64 = m.length / 64) :
    Fips.blocks (m ++ s) = Fips.blocks m := by
  unfold Fips.blocks
  rw [h]
  apply List.map_congr_left
  intro i hi
  have hi' : i < m.length / 64 := List.mem_range.1 hi
  rw [List.drop_append_of_le_length (by omega), List.take_append_of_le_length (by rw [List.length_drop]; omega)]

theorem blocks_full (m s : List Byte) (h : (m ++ s).length = 64 * (m.length / 64) + 64) (hs : 0 < s.length) :
    Fips.blocks (m ++ s) = Fips.blocks m ++ [m.drop (64 * (m.length / 64)) ++ s] := by
  unfold Fips.blocks
  have : (m ++ s).length / 64 = m.length / 64 + 1 := by omega
  rw [this, List.range_succ, List.map_append]
  congr 1
  · apply List.map_congr_left
    intro i hi
    have hi' : i < m.length / 64 := List.mem_range.1 hi
    rw [List.drop_append_of_le_length (by omega), List.take_append_of_le_length (by rw [List.length_drop]; omega)]
  · simp only [List.map_cons, List.map_nil, List.cons.injEq, and_true]
    rw [List.drop_append_of_le_length (by omega), List.take_of_length_le]
    rw [List.length_append] at h ⊢
    rw [List.length_drop]
    omega

theorem feed_holds (h0 : Regs W32) : ∀ (n : Nat) (c : Ctx) (m src : List Byte), Holds c h0 m → src.length ≤ n →
    Holds (feed n c src) h0 (m ++ src) := by
  intro n
  induction n with
  | zero =>
    intro c m src h hn
    have : src = [] := List.length_eq_zero_iff.1 (by omega)
    subst this
    simpa [feed] using h
  | succ n ih =>
    intro c m src h hn
    have hnum := h.num
    have hl := h.len
    have hrl : (m.drop (64 * (m.length / 64))).length = m.length % 64 := by rw [List.length_drop]; omega
    unfold feed
    by_cases h1 : src.length = 0
    · rw [if_pos h1]
      have : src = [] := List.length_eq_zero_iff.1 h1
      subst this
      simpa using h
    · rw [if_neg h1]
      simp only []
      by_cases h2 : min (64 - c.num) src.length + c.num < 64
      · rw [if_pos h2]
        have hs : min (64 - c.num) src.length = src.length := by omega
        rw [hs] at h2 ⊢
        have hq : (m ++ src).length / 64 = m.length / 64 := by rw [List.length_append]; omega
        refine ⟨?_, ?_, ?_, ?_⟩
        · simp; omega
        · simp only [List.length_append]; omega
        · simp only []
          rw [hq, List.take_of_length_le (l := src) (Nat.le_refl _), List.drop_append_of_le_length (by omega), ← h.rest]
          rw [List.take_append_of_le_length (by simp; omega), List.take_of_length_le (by simp; omega)]
        · simp only []
          rw [blocks_append m src hq]; exact h.hash
      · rw [if_neg h2]
        have hs : min (64 - c.num) src.length = 64 - c.num := by omega
        rw [hs]
        have hd : c.data.take c.num ++ src.take (64 - c.num) ++ c.data.drop (c.num + (64 - c.num)) =
            m.drop (64 * (m.length / 64)) ++ src.take (64 - c.num) := by
          rw [h.rest, List.drop_of_length_le (l := c.data) (by omega), List.append_nil]
        have hdl : (m.drop (64 * (m.length / 64)) ++ src.take (64 - c.num)).length = 64 := by
          rw [List.length_append, hrl, List.length_take]; omega
        have hml : (m ++ src.take (64 - c.num)).length = 64 * (m.length / 64) + 64 := by
          rw [List.length_append, List.length_take]; omega
        rw [hd]
        have hnew : Holds { c with h := compress c.h (m.drop (64 * (m.length / 64)) ++ src.take (64 - c.num)), num := 0, data := m.drop (64 * (m.length / 64)) ++ src.take (64 - c.num) } h0 (m ++ src.take (64 - c.num)) := by
          refine ⟨hdl, ?_, ?_, ?_⟩
          · simp only [hml]; omega
          · simp only [List.take_zero]
            rw [List.drop_of_length_le]; rw [hml]; omega
          · simp only []
            rw [blocks_full m _ hml (by rw [List.length_take]; omega), List.foldl_append, ← h.hash, lo_compress _ hdl]
            rfl
        have := ih _ _ (src.drop (64 - c.num)) hnew (by rw [List.length_drop]; omega)
        rw [List.append_assoc, List.take_append_drop] at this
        exact this

/-- The two counters hold `n`. -/
structure Counts (c : Ctx) (n : Nat) : Prop where
  low : c.nl.toNat < 2 ^ 32
  sum : c.nl.toNat + 2 ^ 32 * c.nh.toNat = n
  bound : n < 2 ^ 64

theorem feed_counts : ∀ (n : Nat) (c : Ctx) (src : List Byte), (feed n c src).nl = c.nl ∧ (feed n c src).nh = c.nh := by
  intro n
  induction n with
  | zero => intro c src; exact ⟨rfl, rfl⟩
  | succ n ih =>
    intro c src
    unfold feed
    by_cases h1 : src.length = 0
    · rw [if_pos h1]; exact ⟨rfl, rfl⟩
    · rw [if_neg h1]
      simp only []
      by_cases h2 : min (64 - c.num) src.length + c.num < 64
      · rw [if_pos h2]; exact ⟨rfl, rfl⟩
      · rw [if_neg h2]; exact ih _ _

theorem new_count (nl : W64) (k : Nat) (h1 : nl.toNat < 2 ^ 32) (h2 : 8 * k < 2 ^ 32) :
    ((((nl + ((BitVec.ofNat 32 k) <<< 3).setWidth 64) &&& 0xffffffff).setWidth 32 : BitVec 32).setWidth 64 : W64).toNat =
      (nl.toNat + 8 * k) % 2 ^ 32 := by
  rw [BitVec.toNat_setWidth, BitVec.toNat_setWidth, BitVec.toNat_and]
  have : (0xffffffff : W64).toNat = 2 ^ 32 - 1 := rfl
  rw [this, Nat.and_two_pow_sub_one_eq_mod, BitVec.toNat_add, BitVec.toNat_setWidth, BitVec.toNat_shiftLeft,
    BitVec.toNat_ofNat, Nat.shiftLeft_eq]
  omega

theorem update_counts (c : Ctx) (src : List Byte) (n : Nat) (h : Counts c n) (hs : src.length < 2 ^ 29)
    (hb : n + 8 * src.length < 2 ^ 64) : Counts (update c src) (n + 8 * src.length) := by
  have hn := new_count c.nl src.length h.low (by omega)
  have hlow := h.low
  have hsum := h.sum
  obtain ⟨f1, f2⟩ := feed_counts src.length
    { c with nl := ((((c.nl + ((BitVec.ofNat 32 src.length) <<< 3).setWidth 64) &&& 0xffffffff).setWidth 32 : BitVec 32).setWidth 64 : W64),
             nh := if ((((c.nl + ((BitVec.ofNat 32 src.length) <<< 3).setWidth 64) &&& 0xffffffff).setWidth 32 : BitVec 32).setWidth 64 : W64) < c.nl then c.nh + 1 else c.nh } src
  have g1 : (update c src).nl = ((((c.nl + ((BitVec.ofNat 32 src.length) <<< 3).setWidth 64) &&& 0xffffffff).setWidth 32 : BitVec 32).setWidth 64 : W64) := f1
  have g2 : (update c src).nh = if ((((c.nl + ((BitVec.ofNat 32 src.length) <<< 3).setWidth 64) &&& 0xffffffff).setWidth 32 : BitVec 32).setWidth 64 : W64) < c.nl then c.nh + 1 else c.nh := f2
  refine ⟨?_, ?_, hb⟩
  · rw [g1, hn]; exact Nat.mod_lt _ (by decide)
  · rw [g1, g2, hn]
    have hnh : c.nh.toNat < 2 ^ 32 := by omega
    by_cases hc : (c.nl.toNat + 8 * src.length) % 2 ^ 32 < c.nl.toNat
    · rw [if_pos (by rw [BitVec.lt_def, hn]; exact hc), BitVec.toNat_add]
      have : (1 : W64).toNat = 1 := rfl
      rw [this]
      omega
    · rw [if_neg (by rw [BitVec.lt_def, hn]; exact hc)]
      omega

theorem update_holds (c : Ctx) (h0 : Regs W32) (m src : List Byte) (h : Holds c h0 m) :
    Holds (update c src) h0 (m ++ src) := by
  unfold update
  exact feed_holds h0 _ _ m src ⟨h.len, h.num, h.rest, h.hash⟩ (Nat.le_refl _)

theorem count_bytes (c : Ctx) (n : Nat) (h : Counts c n) :
    putBig c.nh 4 ++ putBig c.nl 4 = (List.range 8).map fun j => BitVec.ofNat 8 (n / 256 ^ (7 - j)) := by
  have hlow := h.low
  have hsum := h.sum
  have hb := h.bound
  have e : ∀ a b : Nat, a % 256 = b % 256 → BitVec.ofNat 8 a = BitVec.ofNat 8 b := by
    intro a b hab
    apply BitVec.eq_of_toNat_eq
    simpa [BitVec.toNat_ofNat] using hab
  have hx : ∀ x : W64, (lo x).toNat = x.toNat % 2 ^ 32 := by intro x; simp [lo]
  rw [lo_bytes, lo_bytes, Fips.bytes, Fips.bytes, hx, hx]
  have r8 : List.range 8 = [0, 1, 2, 3, 4, 5, 6, 7] := by decide
  rw [r8]
  simp only [List.map_cons, List.map_nil, List.cons_append, List.nil_append, Nat.sub_zero, Nat.reduceSub, Nat.reducePow,
    List.cons.injEq, and_true]
  refine ⟨e _ _ ?_, e _ _ ?_, e _ _ ?_, e _ _ ?_, e _ _ ?_, e _ _ ?_, e _ _ ?_, e _ _ ?_⟩ <;> omega

theorem digest_bytes (c : Ctx) (r : Regs W32) (h : loR c.h = r) :
    putBig c.h.a 4 ++ putBig c.h.b 4 ++ putBig c.h.c 4 ++ putBig c.h.d 4 ++ putBig c.h.e 4 ++ putBig c.h.f 4 ++
      putBig c.h.g 4 ++ putBig c.h.h 4 =
    Fips.bytes r.a ++ Fips.bytes r.b ++ Fips.bytes r.c ++ Fips.bytes r.d ++ Fips.bytes r.e ++ Fips.bytes r.f ++
      Fips.bytes r.g ++ Fips.bytes r.h := by
  subst h
  simp only [lo_bytes, loR]

theorem fill_holds (c : Ctx) (h0 : Regs W32) (m : List Byte) (h : Holds c h0 m) (hn : c.num ≤ 56) :
    Holds { c with data := c.data.take c.num ++ List.replicate (56 - c.num) 0 ++ c.data.drop 56, num := 56 } h0
      (m ++ List.replicate (56 - c.num) 0) := by
  have hnum := h.num
  have hl := h.len
  have hq : (m ++ List.replicate (56 - c.num) (0 : Byte)).length / 64 = m.length / 64 := by
    rw [List.length_append, List.length_replicate]; omega
  refine ⟨?_, ?_, ?_, ?_⟩
  · simp; omega
  · simp only [List.length_append, List.length_replicate]; omega
  · simp only []
    rw [hq, List.drop_append_of_le_length (by omega), ← h.rest, List.take_append_of_le_length (by simp; omega),
      List.take_of_length_le (by simp; omega)]
  · simp only []
    rw [blocks_append m _ hq]; exact h.hash

theorem replicate_join (a b : Nat) (x : Byte) : List.replicate a x ++ List.replicate b x = List.replicate (a + b) x := by
  rw [List.replicate_append_replicate]

theorem final_holds (c : Ctx) (h0 : Regs W32) (m : List Byte) (h : Holds c h0 m) (hc : Counts c (8 * m.length)) :
    final c = Fips.sha256 K32 h0 m := by
  have hcount := count_bytes c _ hc
  unfold final Fips.sha256
  simp only []
  rw [hcount]
  have h1 := update_holds c h0 m [0x80] h
  generalize hc1 : update c [0x80] = c1 at h1
  have n1 := h1.num
  have hl1 : (m ++ [(0x80 : Byte)]).length = m.length + 1 := by simp
  rw [hl1] at n1
  have key : ∃ k, Holds (if c1.num > 56 then update c1 (List.replicate 8 0) else c1) h0
        (m ++ [0x80] ++ List.replicate k 0) ∧ (if c1.num > 56 then update c1 (List.replicate 8 0) else c1).num ≤ 56 ∧
        k + (56 - (if c1.num > 56 then update c1 (List.replicate 8 0) else c1).num) = (119 - m.length % 64) % 64 := by
    by_cases h56 : c1.num > 56
    · rw [if_pos h56]
      have h2 := update_holds c1 h0 _ (List.replicate 8 0) h1
      have n2 := h2.num
      rw [List.length_append, hl1, List.length_replicate] at n2
      exact ⟨8, h2, by omega, by omega⟩
    · rw [if_neg h56]
      exact ⟨0, by simpa using h1, by omega, by omega⟩
  obtain ⟨k, h2, h3, h4⟩ := key
  generalize (if c1.num > 56 then update c1 (List.replicate 8 0) else c1) = c2 at h2 h3 h4 ⊢
  have h5 := fill_holds c2 h0 _ h2 h3
  have hj : m ++ [(0x80 : Byte)] ++ List.replicate k 0 ++ List.replicate (56 - c2.num) 0 =
      m ++ [0x80] ++ List.replicate ((119 - m.length % 64) % 64) 0 := by
    rw [List.append_assoc (m ++ [_]), replicate_join, h4]
  rw [hj] at h5
  have h6 := update_holds _ h0 _ ((List.range 8).map fun j => BitVec.ofNat 8 (8 * m.length / 256 ^ (7 - j))) h5
  exact digest_bytes _ _ h6.hash

/-- The initial values as words of the standard. -/
def H32 : Regs W32 := loR (init []).h

theorem init_holds (data : List Byte) (h : data.length = 64) : Holds (init data) H32 [] :=
  ⟨h, rfl, rfl, rfl⟩

theorem init_counts (data : List Byte) : Counts (init data) 0 :=
  ⟨show (0 : W64).toNat < 2 ^ 32 by decide, rfl, by decide⟩

theorem fold_updates : ∀ (l : List (List Byte)) (c : Ctx) (m : List Byte) (h0 : Regs W32), Holds c h0 m →
    Counts c (8 * m.length) → (∀ t ∈ l, t.length < 2 ^ 29) → 8 * (m ++ l.flatten).length < 2 ^ 64 →
    Holds (l.foldl update c) h0 (m ++ l.flatten) ∧ Counts (l.foldl update c) (8 * (m ++ l.flatten).length) := by
  intro l
  induction l with
  | nil => intro c m h0 h hc _ _; simpa using ⟨h, hc⟩
  | cons t l ih =>
    intro c m h0 h hc ht hb
    rw [List.foldl_cons, List.flatten_cons, ← List.append_assoc]
    rw [List.flatten_cons, ← List.append_assoc] at hb
    have hb' : 8 * m.length + 8 * t.length < 2 ^ 64 := by
      simp only [List.length_append] at hb; omega
    refine ih _ _ h0 (update_holds c h0 m t h) ?_ (fun x hx => ht x (List.mem_cons_of_mem _ hx)) hb
    have := update_counts c t _ hc (ht t List.mem_cons_self) hb'
    rw [List.length_append, Nat.mul_add]
    exact this

end Voss.Sha
