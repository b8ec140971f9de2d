import Verif.Lib.Buf
/-
Buffers refine sequences.
-/
namespace Voss.Lib.Buf

structure Rel {α : Type} (sz : Nat) (b : Buffer α) (l : List α) : Prop where
  isz : b.itemSize = sz
  pos : 0 < sz
  cnt : b.count = l.length
  take : b.data.take b.count = l
  room : b.count ≤ b.data.length
  some : 0 < b.data.length
  alloc : b.allocated = b.data.length * sz
  lt : b.allocated < 2 ^ 32

section
variable {α : Type} {zero : α}

theorem u32_of_lt {n : Nat} (h : n < 2 ^ 32) : u32 n = n := Nat.mod_eq_of_lt h

theorem newBuf_rel (n sz : Nat) (hp : 0 < sz) (hn : (if n < 1 then 1 else n) * sz < 2 ^ 32) :
    Rel sz (newBuf zero n sz) [] := by
  unfold newBuf
  have h1 : 1 ≤ (if n < 1 then 1 else n) := by split <;> omega
  generalize (if n < 1 then 1 else n) = k at *
  simp only [u32_of_lt hn]
  have hd : k * sz / sz = k := Nat.mul_div_cancel _ hp
  refine ⟨rfl, hp, rfl, rfl, by simp, ?_, ?_, hn⟩
  · simp [calloc, hd]; omega
  · simp [calloc, hd]

theorem copyInto_spec {sz : Nat} {b : Buffer α} {l : List α} (R : Rel sz b l) (k : Nat) (hk : l.length ≤ k)
    (hlt : k * sz < 2 ^ 32) :
    ∃ d, copyInto b (calloc zero b.itemSize (k * sz)) = some d ∧ d.length = k ∧ d.take b.count = l := by
  have hd : k * sz / sz = k := Nat.mul_div_cancel _ R.pos
  have hc : b.count * sz < 2 ^ 32 := by
    rw [R.cnt]; exact Nat.lt_of_le_of_lt (Nat.mul_le_mul_right _ hk) hlt
  have hc' : b.count * sz / sz = b.count := Nat.mul_div_cancel _ R.pos
  have hr := R.room
  have hcnt := R.cnt
  unfold copyInto calloc
  simp only [R.isz, hd, u32_of_lt hc, hc', List.length_replicate]
  refine ⟨_, if_pos ⟨hr, by omega⟩, ?_, ?_⟩
  · simp; omega
  · rw [List.take_append_of_le_length (by simp; omega), List.take_take, Nat.min_self]; exact R.take

theorem putAt_spec {d : List α} {i : Nat} (h : i < d.length) (x : α) : putAt d i x = some (d.set i x) := if_pos h

theorem grow_spec {sz : Nat} {b : Buffer α} {l : List α} (R : Rel sz b l) (m k : Nat) (hk : b.data.length ≤ m → l.length ≤ k)
    (hlt : k * sz < 2 ^ 32) (hm : m * sz < 2 ^ 32) (h0 : b.data.length ≤ m → 0 < k) :
    ∃ b', growIf zero b (b.itemSize * m) (k * b.itemSize) = some b' ∧ Rel sz b' l ∧ b'.count = b.count ∧
      (b'.data.length = k ∧ b.data.length ≤ m ∨ m < b'.data.length) := by
  have hcond : (u32 (b.itemSize * m) ≥ b.allocated) ↔ b.data.length ≤ m := by
    rw [R.isz, R.alloc, Nat.mul_comm sz, u32_of_lt hm]
    constructor
    · intro h; exact Nat.le_of_mul_le_mul_right h R.pos
    · intro h; exact Nat.mul_le_mul_right _ h
  unfold growIf
  by_cases hc : b.data.length ≤ m
  · rw [if_pos (hcond.2 hc)]
    have hb : u32 (k * b.itemSize) = k * sz := by rw [R.isz, u32_of_lt hlt]
    obtain ⟨d, e, hl, ht⟩ := copyInto_spec (zero := zero) R k (hk hc) hlt
    rw [hb, e]
    refine ⟨_, rfl, ⟨R.isz, R.pos, R.cnt, ht, ?_, by have := h0 hc; show 0 < d.length; omega, by show k * sz = d.length * sz; rw [hl], hlt⟩, rfl, Or.inl ⟨hl, hc⟩⟩
    have := hk hc
    show b.count ≤ d.length; rw [R.cnt]; omega
  · rw [if_neg (fun h => hc (hcond.1 h))]
    exact ⟨b, rfl, R, rfl, Or.inr (by omega)⟩

theorem push_spec {sz n : Nat} {b : Buffer α} {l : List α} (R : Rel sz b l) (hn : 2 * n * sz < 2 ^ 32)
    (hl : l.length + 1 ≤ n) (x : α) : ∃ b', push zero b x = some b' ∧ Rel sz b' (l ++ [x]) := by
  have hp := R.pos
  have hll : (2 * l.length) * sz ≤ 2 * n * sz := Nat.mul_le_mul_right _ (by omega)
  have hl1 : l.length * sz ≤ 2 * n * sz := Nat.mul_le_mul_right _ (by omega)
  have hl2 : (l.length + 1) * sz ≤ 2 * n * sz := Nat.mul_le_mul_right _ (by omega)
  have hsome := R.some
  have hroom := R.room
  have hcnt := R.cnt
  obtain ⟨b', e, R', h3, h2⟩ := grow_spec (zero := zero) R b.count (2 * b.count) (by omega) (by rw [hcnt]; omega) (by rw [hcnt]; omega) (by omega)
  have h2 : l.length + 1 ≤ b'.data.length := by omega
  have hc' := R'.cnt
  refine ⟨{ b' with data := b'.data.set b'.count x, count := b'.count + 1 }, ?_, R'.isz, hp, ?_, ?_, ?_, ?_, ?_, R'.lt⟩
  · unfold push
    simp only [Option.bind_eq_bind]
    rw [e, Option.bind_some, putAt_spec (by omega), Option.bind_some]
  · show b'.count + 1 = (l ++ [x]).length
    simp [hc']
  · show (b'.data.set b'.count x).take (b'.count + 1) = l ++ [x]
    rw [List.take_add_one, List.getElem?_set_self (by omega)]
    rw [List.take_set_of_le (Nat.le_refl _), R'.take]; rfl
  · show b'.count + 1 ≤ (b'.data.set b'.count x).length
    rw [List.length_set]; omega
  · show 0 < (b'.data.set b'.count x).length
    rw [List.length_set]; omega
  · show b'.allocated = (b'.data.set b'.count x).length * sz
    rw [List.length_set]; exact R'.alloc

theorem get_eq {sz : Nat} {b : Buffer α} {l : List α} (R : Rel sz b l) {i : Nat} (hi : i < l.length) : b.data[i]? = l[i]? := by
  have h1 : i < b.count := by rw [R.cnt]; exact hi
  have h2 := congrArg (fun m => m[i]?) R.take
  simp only [List.getElem?_take, if_pos h1] at h2
  exact h2

theorem shrink_rel {sz : Nat} {b : Buffer α} {l : List α} (R : Rel sz b l) {k : Nat} (hk : k ≤ l.length) :
    Rel sz { b with count := k } (l.take k) := by
  have := R.cnt
  have := R.room
  refine ⟨R.isz, R.pos, by simp; omega, ?_, by show k ≤ b.data.length; omega, R.some, R.alloc, R.lt⟩
  show b.data.take k = l.take k
  rw [← R.take, List.take_take, Nat.min_eq_left (by omega)]

theorem resize_spec {sz n : Nat} {b : Buffer α} {l : List α} (R : Rel sz b l) (hn : 2 * n * sz < 2 ^ 32)
    {k : Nat} (hk : k ≤ n) :
    ∃ b', resize zero b k = some b' ∧ Rel sz b' (l.take k ++ List.replicate (k - l.length) zero) := by
  have hp := R.pos
  have hcnt := R.cnt
  have hroom := R.room
  have hsome := R.some
  have hks : k * sz ≤ 2 * n * sz := Nat.mul_le_mul_right _ (by omega)
  unfold resize
  by_cases h1 : k < b.count
  · rw [if_pos h1]
    refine ⟨_, rfl, ?_⟩
    have h2 : k - l.length = 0 := by omega
    rw [h2, List.replicate_zero, List.append_nil]
    exact shrink_rel R (by omega)
  · rw [if_neg h1]
    obtain ⟨b', e, R', h3, h2⟩ := grow_spec (zero := zero) R k k (by omega) (by omega) (by omega) (by omega)
    have h2 : k ≤ b'.data.length := by omega
    have hc' := R'.cnt
    have hroom' := R'.room
    have hlen : (b'.data.take b'.count ++ List.replicate (k - b'.count) zero ++ b'.data.drop k).length = b'.data.length := by
      simp; omega
    refine ⟨{ b' with data := b'.data.take b'.count ++ List.replicate (k - b'.count) zero ++ b'.data.drop k, count := k },
      ?_, R'.isz, hp, ?_, ?_, ?_, ?_, ?_, R'.lt⟩
    · simp only [Option.bind_eq_bind]
      rw [e, Option.bind_some, zeroFrom, if_pos h2, Option.bind_some]
    · show k = _; simp; omega
    · show (b'.data.take b'.count ++ List.replicate (k - b'.count) zero ++ b'.data.drop k).take k = _
      rw [List.take_append_of_le_length (by simp; omega), List.take_of_length_le (by simp; omega), R'.take, hc',
        List.take_of_length_le (by omega)]
    · show k ≤ _; rw [hlen]; exact h2
    · show 0 < _; rw [hlen]; exact R'.some
    · show b'.allocated = _ * sz
      rw [hlen]; exact R'.alloc

theorem step_spec {sz n : Nat} {b : Buffer α} {l : List α} (R : Rel sz b l) (hn : 2 * n * sz < 2 ^ 32) {op : Op α} {ops : List (Op α)}
    (hl : Spec.Legal zero l (op :: ops)) (he : Spec.NoEdge zero l (op :: ops)) (hb : Spec.Below zero n l (op :: ops)) :
    ∃ b', step zero b op = some (b', (Spec.step zero l op).2) ∧ Rel sz b' (Spec.step zero l op).1 := by
  have hcnt := R.cnt
  have hroom := R.room
  have hlast : ∀ m : List α, m ≠ [] → m[m.length - 1]? = m.getLast? := by
    intro m _; rw [List.getLast?_eq_getElem?]
  have hb2 : (Spec.step zero l op).1.length ≤ n := by
    obtain ⟨_, h⟩ := hb
    cases ops with
    | nil => exact h
    | cons _ _ => exact h.1
  obtain ⟨hl, -⟩ := hl
  obtain ⟨he, -⟩ := he
  cases op with
  | push x =>
    obtain ⟨b', e, R'⟩ := push_spec (zero := zero) R hn (by simpa [Spec.step] using hb2) x
    exact ⟨b', by simp only [step, e]; rfl, R'⟩
  | pop =>
    simp only at hl
    have hpos : 0 < l.length := List.length_pos_iff.2 hl
    have hg := get_eq R (i := l.length - 1) (by omega)
    rw [hlast l hl] at hg
    obtain ⟨x, hx⟩ := Option.ne_none_iff_exists'.1 (fun h => hl (List.getLast?_eq_none_iff.1 h) : l.getLast? ≠ none)
    refine ⟨{ b with count := b.count - 1 }, ?_, ?_⟩
    · simp only [step, pop, Spec.step]
      rw [if_neg (by omega), hcnt, hg, hx]
      simp
    · show Rel sz _ l.dropLast
      rw [List.dropLast_eq_take, hcnt]
      exact shrink_rel R (by omega)
  | store i x =>
    simp only at hl
    refine ⟨{ b with data := b.data.set i x }, ?_, R.isz, R.pos, ?_, ?_, ?_, ?_, ?_, R.lt⟩
    · simp only [step, store]
      rw [if_pos (by omega), putAt_spec (by omega)]; rfl
    · simp [Spec.step, hcnt]
    · show (b.data.set i x).take b.count = l.set i x
      rw [List.take_set, R.take]
    · simpa using hroom
    · simpa using R.some
    · simpa using R.alloc
  | fetch i =>
    simp only at he
    refine ⟨b, ?_, R⟩
    simp only [step, fetch, Spec.step]
    by_cases h1 : i < l.length
    · rw [if_pos (by omega), get_eq R h1, List.getElem?_eq_getElem h1]; rfl
    · rw [if_neg (by omega), List.getElem?_eq_none (by omega)]; rfl
  | resize k =>
    obtain ⟨b', e, R'⟩ := resize_spec (zero := zero) R hn (k := k) (by simp [Spec.step] at hb2; omega)
    exact ⟨b', by simp only [step, e]; rfl, R'⟩
  | locate i =>
    simp only [step, locate, Spec.step]
    by_cases h1 : l.length ≤ i
    · rw [if_pos (by omega)]
      obtain ⟨b', e, R'⟩ := resize_spec (zero := zero) R hn (k := i + 1) (by simp [Spec.step] at hb2; omega)
      have ht : l.take (i + 1) = l := List.take_of_length_le (by omega)
      rw [ht] at R'
      have hg := get_eq R' (i := i) (by simp; omega)
      have hx : (l ++ List.replicate (i + 1 - l.length) zero)[i]? = some zero := by
        rw [List.getElem?_append_right h1, List.getElem?_replicate, if_pos (by omega)]
      refine ⟨b', ?_, R'⟩
      simp only [e, Option.bind_eq_bind, Option.bind_some, hg, hx]
      simp [List.getD, List.getElem?_eq_none h1]
    · rw [if_neg (by omega)]
      have h2 : i < l.length := by omega
      refine ⟨b, ?_, ?_⟩
      · simp only [Option.bind_eq_bind, Option.bind_some, get_eq R h2, List.getElem?_eq_getElem h2]
        simp [List.getD, List.getElem?_eq_getElem h2]
      · have : i + 1 - l.length = 0 := by omega
        rw [this]; simpa using R
  | top =>
    simp only at hl
    have hpos : 0 < l.length := List.length_pos_iff.2 hl
    have hg := get_eq R (i := l.length - 1) (by omega)
    rw [hlast l hl] at hg
    obtain ⟨x, hx⟩ := Option.ne_none_iff_exists'.1 (fun h => hl (List.getLast?_eq_none_iff.1 h) : l.getLast? ≠ none)
    refine ⟨b, ?_, R⟩
    simp only [step, top, Spec.step]
    rw [if_neg (by omega), hcnt, hg, hx]; rfl
  | count => exact ⟨b, by simp only [step, Spec.step, hcnt], R⟩

theorem run_spec {sz n : Nat} (hn : 2 * n * sz < 2 ^ 32) : ∀ (ops : List (Op α)) (b : Buffer α) (l : List α), Rel sz b l →
    Spec.Legal zero l ops → Spec.NoEdge zero l ops → Spec.Below zero n l ops →
    ∃ b', run zero b ops = some (b', (Spec.run zero l ops).2) ∧ Rel sz b' (Spec.run zero l ops).1 := by
  intro ops
  induction ops with
  | nil => intro b l R _ _ _; exact ⟨b, rfl, R⟩
  | cons op ops ih =>
    intro b l R hl he hb
    obtain ⟨b1, e1, R1⟩ := step_spec R hn hl he hb
    obtain ⟨b2, e2, R2⟩ := ih b1 _ R1 hl.2 he.2 hb.2
    exact ⟨b2, by simp only [run, e1, e2, Option.bind_eq_bind, Option.bind_some]; rfl, R2⟩

end
end Voss.Lib.Buf
