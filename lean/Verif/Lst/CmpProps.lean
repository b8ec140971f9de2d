import Verif.Lst.CmpLemmas
/-
C67: `gcmp` is a total order.
-/
namespace Voss.Lst

/-- C67: on integers, strings, and lists, tuples and constructor terms of these, `gcmp` is negative, zero or positive
exactly if the first value is less than, equal to or greater than the second; and this order is a strict
total order (irreflexive and transitive; total since one of the three cases holds). -/
theorem c67_order_partial (contents : Nat → V) {a b : V} (ha : Plain a) (hb : Plain b) (n : Nat) (hn : a.depth ≤ n) :
    (∃ z, cmp contents n a b = .ok z ∧ (z < 0 ↔ Less a b) ∧ (z = 0 ↔ a = b) ∧ (0 < z ↔ Less b a)) ∧
    ¬ Less a a ∧ ∀ c, Less a b → Less b c → Less a c :=
  ⟨cmp_says contents ha hb n hn, less_irrefl a, fun _ h h' => less_trans h h'⟩

example : Plain (.cons (.int 3) (.cons (.str [97]) .nil)) := .cons (.int 3) (.cons (.str _) .nil)
example : cmp (fun _ => .nil) 9 (.cons (.int 3) .nil) (.cons (.int 3) (.cons (.int 1) .nil)) = .ok (-1) := by decide

/-- C67: sorting with `gcmp` gives the elements in the order of `Less`. -/
theorem c67_sort_partial {alg : Nat → Strat} (ha : SortOk alg) (contents : Nat → V) (l : List V) (hl : ∀ a ∈ l, Plain a)
    (n : Nat) (hn : ∀ a ∈ l, a.depth ≤ n) (app : Unit → V → V → Eff Unit)
    (happ : ∀ a b z, cmp contents n a b = .ok z → app () a b = ⟨.ok z, none⟩) :
    ∃ r, flQsort alg app () l = .ok r ∧ r.Perm l ∧ r.Pairwise (fun a b => Less a b ∨ a = b) := by
  let c : V → V → Int := fun a b => match cmp contents n a b with
    | .ok z => z
    | _ => 0
  have hc : ∀ a ∈ l, ∀ b ∈ l, cmp contents n a b = .ok (c a b) ∧ Says (c a b) a b := by
    intro a h b h'
    obtain ⟨z, hz, hs⟩ := cmp_says contents (hl a h) (hl b h') n (hn a h)
    have : c a b = z := by simp only [c, hz]
    rw [this]
    exact ⟨hz, hs⟩
  have hle : ∀ a ∈ l, ∀ b ∈ l, c a b ≤ 0 ↔ (Less a b ∨ a = b) := by
    intro a h b h'
    obtain ⟨-, s1, s2, s3⟩ := hc a h b h'
    rw [← s1, ← s2]
    omega
  have ho : OrderOn l c := by
    constructor
    · intro a h b h'
      obtain ⟨-, s1, s2, s3⟩ := hc a h b h'
      obtain ⟨-, t1, t2, t3⟩ := hc b h' a h
      have e1 : c a b < 0 ↔ 0 < c b a := s1.trans t3.symm
      have e2 : c a b = 0 ↔ c b a = 0 := s2.trans (eq_comm.trans t2.symm)
      unfold sgn
      split
      · rw [if_neg (by omega), if_neg (by omega)]
      · split
        · rw [if_neg (by omega), if_pos (by omega)]; rfl
        · rw [if_pos (by omega)]; rfl
    · intro a h b h' d h'' h1 h2
      rw [hle _ h _ h''] 
      rw [hle _ h _ h'] at h1
      rw [hle _ h' _ h''] at h2
      rcases h1 with h1 | rfl
      · rcases h2 with h2 | rfl
        · exact Or.inl (less_trans h1 h2)
        · exact Or.inl h1
      · exact h2
  obtain ⟨r, h1, h2, h3⟩ := c66_qsort_partial ha app () c l (fun a h b h' => happ a b _ (hc a h b h').1) ho
  refine ⟨r, h1, h2, h3.imp_of_mem ?_⟩
  intro a b h h' hab
  exact (hle a (h2.subset h) b (h2.subset h')).1 hab

/-- The comparison function `gcmp`. -/
def gcmpFn (contents : Nat → V) (n : Nat) : Unit → V → V → Eff Unit := fun _ a b =>
  match cmp contents n a b with
  | .ok z => ⟨.ok z, none⟩
  | _ => ⟨.error "gcmp", none⟩

example : ∀ a b z, cmp (fun _ => .nil) 3 a b = .ok z → gcmpFn (fun _ => .nil) 3 () a b = ⟨.ok z, none⟩ := by
  intro a b z h
  rw [gcmpFn, h]

/-- C67 is violated for Booleans: `T` (handle 2^31) is less than `F` (handle 0), and comparing them the other way round
overflows. -/
theorem c67_bool_violated (contents : Nat → V) (n : Nat) :
    cmp contents (n + 1) (.bool 2147483648) (.bool 0) = .ok (-2147483648) ∧
    cmp contents (n + 1) (.bool 0) (.bool 2147483648) = .ub := ⟨rfl, rfl⟩

/-- C67 is violated for expressions: two different ones whose addresses agree in 32 bits are said to be equal; and
addresses 2^31 apart overflow. -/
theorem c67_bexpr_violated (contents : Nat → V) (n : Nat) :
    cmp contents (n + 1) (.bexpr 64) (.bexpr 4294967360) = .ok 0 ∧
    cmp contents (n + 1) (.bexpr 2147483632) (.bexpr 2147483664) = .ub := ⟨rfl, rfl⟩

/-- C67 is violated for primitive values that carry something (files, memo tables): all are equal.  And comparing
`sprintf "%d"` with another builtin function follows a bad pointer. -/
theorem c67_prim_violated (contents : Nat → V) (n p q : Nat) (s : List Nat) :
    cmp contents (n + 1) (.prim 112 p) (.prim 112 q) = .ok 0 ∧
    cmp contents (n + 1) (.fmt 109 s) (.ext p) = .ub := by
  constructor
  · rw [cmp]
    simp [V.kind, V.code, cmpSame]
  · rw [cmp]
    simp [V.kind, cmpSame]

end Voss.Lst
