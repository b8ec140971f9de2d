import Verif.Vset.Model
import Verif.Vec.ExtractProps
/-
Lemmas for C109.
-/
namespace Voss.Vset
variable {N S : Type} [DecidableEq N] [DecidableEq S]

/-- `b` is one of the bits of the names. -/
def Bit (o : Names N S) (ns : List N) (b : N) : Prop := ∃ n ∈ ns, ∃ l, o.expand n = some l ∧ b ∈ l

/-- What the functions on names have to do, for the names that are used. -/
structure Sound (o : Names N S) (P : N → Prop) : Prop where
  expand : ∀ n, P n → ∃ l, o.expand n = some l ∧ l ≠ [] ∧ ∀ b ∈ l, P b ∧ o.expand b = some [b]
  extract : ∀ ns out, (∀ n ∈ ns, P n) → o.extract ns = some out → (∀ n ∈ out, P n) ∧ ∀ b, Bit o out b ↔ Bit o ns b
  sig : ∀ n m b, P n → P m → Bit o [n] b → Bit o [m] b → o.sig n = o.sig m

theorem mem_inter {a b : List N} {x : N} : x ∈ inter a b ↔ x ∈ a ∧ x ∈ b := by
  unfold inter
  rw [List.mem_eraseDups]
  simp

theorem mem_sub {a b : List N} {x : N} : x ∈ sub a b ↔ x ∈ a ∧ x ∉ b := by
  unfold sub
  simp

theorem over_iff {a b : List N} : over a b = true ↔ ∃ x, x ∈ a ∧ x ∈ b := by
  unfold over
  simp

section
variable {o : Names N S} {P : N → Prop} (h : Sound o P)
include h

theorem expandAll_ok : ∀ ns : List N, (∀ n ∈ ns, P n) →
    ∃ l, expandAll o ns = some l ∧ (∀ b, b ∈ l ↔ Bit o ns b) ∧ ∀ b ∈ l, P b ∧ o.expand b = some [b]
  | [], _ => ⟨[], rfl, by simp [Bit], by simp⟩
  | n :: ns, hp => by
    obtain ⟨l, h1, -, h2⟩ := h.expand n (hp n (by simp))
    obtain ⟨k, h3, h4, h5⟩ := expandAll_ok ns fun m hm => hp m (List.mem_cons_of_mem _ hm)
    refine ⟨l ++ k, by simp [expandAll, h1, h3], fun b => ?_, fun b hb => ?_⟩
    · rw [List.mem_append, h4]
      unfold Bit
      simp [h1]
    · rcases List.mem_append.1 hb with hb | hb
      · exact h2 b hb
      · exact h5 b hb

omit h in
theorem bit_of_bits {l : List N} (hl : ∀ b ∈ l, o.expand b = some [b]) (b : N) : Bit o l b ↔ b ∈ l := by
  constructor
  · rintro ⟨n, hn, k, hk, hb⟩
    rw [hl n hn] at hk
    obtain rfl := Option.some.inj hk
    rw [List.mem_singleton.1 hb]
    exact hn
  · exact fun hb => ⟨b, hb, [b], hl b hb, by simp⟩

omit h [DecidableEq S] in
theorem bit_append (l k : List N) (b : N) : Bit o (l ++ k) b ↔ Bit o l b ∨ Bit o k b := by
  unfold Bit
  simp only [List.mem_append]
  constructor
  · rintro ⟨n, hn | hn, r⟩
    · exact Or.inl ⟨n, hn, r⟩
    · exact Or.inr ⟨n, hn, r⟩
  · rintro (⟨n, hn, r⟩ | ⟨n, hn, r⟩)
    · exact ⟨n, Or.inl hn, r⟩
    · exact ⟨n, Or.inr hn, r⟩

/-- The classes after extraction: for each signature that occurs, a list with the same bits. -/
theorem mkAll_ok (vl : List N) (hp : ∀ n ∈ vl, P n) : ∀ (ss : List S) (r : List (S × List N)),
    mkAll o (ss.map fun s => (s, vl.filter fun v => decide (o.sig v = s))) = some r →
    r.map Prod.fst = ss ∧ ∀ s, match r.lookup s with
      | some l => s ∈ ss ∧ o.extract (vl.filter fun v => decide (o.sig v = s)) = some l
      | none => s ∉ ss
  | [], r, e => by
    simp only [List.map_nil, mkAll, Option.some.injEq] at e
    subst e
    simp
  | s :: ss, r, e => by
    simp only [List.map_cons, mkAll, Option.bind_eq_bind, Option.pure_def, Option.bind_eq_some_iff, Option.some.injEq] at e
    obtain ⟨v, h1, r', h2, rfl⟩ := e
    obtain ⟨i1, i2⟩ := mkAll_ok vl hp ss r' h2
    refine ⟨by simp [i1], fun t => ?_⟩
    rw [List.lookup_cons]
    by_cases ht : t = s
    · subst ht
      simp [h1]
    · have : (t == s) = false := by simpa using ht
      rw [this]
      have := i2 t
      cases hl : r'.lookup t with
      | none => rw [hl] at this; simp only at this ⊢; simp [ht, this]
      | some l => rw [hl] at this; simp only at this ⊢; simp [this]

theorem parts_ok {vl : List N} (hp : ∀ n ∈ vl, P n) {r : List (S × List N)} (e : mkAll o (parts o vl) = some r) :
    (∀ s, s ∈ r.map Prod.fst ↔ ∃ v ∈ vl, o.sig v = s) ∧
    (∀ s l, r.lookup s = some l → o.extract (vl.filter fun v => decide (o.sig v = s)) = some l ∧ (∀ n ∈ l, P n) ∧
      ∀ b, Bit o l b ↔ ∃ v ∈ vl, o.sig v = s ∧ Bit o [v] b) ∧
    ∀ s, r.lookup s = none → ∀ v ∈ vl, o.sig v ≠ s := by
  obtain ⟨i1, i2⟩ := mkAll_ok h vl hp _ _ e
  refine ⟨fun s => by rw [i1, List.mem_eraseDups, List.mem_map], fun s l hl => ?_, fun s hl v hv => ?_⟩
  · have := i2 s
    rw [hl] at this
    obtain ⟨-, he⟩ := this
    obtain ⟨q1, q2⟩ := h.extract _ _ (fun n hn => hp n (List.mem_filter.1 hn).1) he
    refine ⟨he, q1, fun b => ?_⟩
    rw [q2]
    unfold Bit
    simp only [List.mem_filter, decide_eq_true_eq, List.mem_singleton, exists_eq_left]
    exact ⟨fun ⟨n, ⟨a, c⟩, d⟩ => ⟨n, a, c, d⟩, fun ⟨n, a, c, d⟩ => ⟨n, ⟨a, c⟩, d⟩⟩
  · have := i2 s
    rw [hl] at this
    intro e
    exact this (List.mem_eraseDups.2 (List.mem_map.2 ⟨v, hv, e⟩))

omit h [DecidableEq N] [DecidableEq S] in
theorem flatM_ok (f : S → Option (List N)) (ss : List S) (r : List N) (e : flatM f ss = some r) (n : N) :
    (n ∈ r ↔ ∃ s ∈ ss, ∃ l, f s = some l ∧ n ∈ l) ∧ ∀ s ∈ ss, ∃ l, f s = some l := by
  induction ss generalizing r with
  | nil =>
    simp only [flatM, Option.some.injEq] at e
    subst e
    simp
  | cons s ss ih =>
    simp only [flatM, Option.bind_eq_bind, Option.pure_def, Option.bind_eq_some_iff, Option.some.injEq] at e
    obtain ⟨l, h1, k, h2, rfl⟩ := e
    obtain ⟨i1, i2⟩ := ih k h2
    refine ⟨?_, ?_⟩
    · rw [List.mem_append, i1]
      simp [h1]
    · intro t ht
      rcases List.mem_cons.1 ht with rfl | ht
      · exact ⟨l, h1⟩
      · exact i2 t ht

omit h [DecidableEq N] [DecidableEq S] in
theorem bit_single {ns : List N} {b : N} : Bit o ns b ↔ ∃ v ∈ ns, Bit o [v] b := by
  unfold Bit
  simp

omit h in
theorem lookup_parts (vl : List N) (s : S) :
    ((parts o vl).lookup s).getD [] = vl.filter fun v => decide (o.sig v = s) := by
  have key : ∀ ss : List S, ((ss.map fun s => (s, vl.filter fun v => decide (o.sig v = s))).lookup s).getD [] =
      if s ∈ ss then vl.filter fun v => decide (o.sig v = s) else [] := by
    intro ss
    induction ss with
    | nil => simp
    | cons t ss ih =>
      rw [List.map_cons, List.lookup_cons]
      by_cases e : s = t
      · subst e; simp
      · have : (s == t) = false := by simpa using e
        rw [this]
        simp only [List.mem_cons, e, false_or]
        exact ih
  unfold parts
  rw [key]
  split
  · rfl
  · rename_i hs
    symm
    rw [List.filter_eq_nil_iff]
    intro v hv
    simp only [decide_eq_true_eq]
    exact fun e => hs (List.mem_eraseDups.2 (List.mem_map.2 ⟨v, hv, e⟩))

end

end Voss.Vset
