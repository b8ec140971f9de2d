import Verif.Smt.Model

/-! C116: what is sent to an SMT solver. -/

namespace Voss.Smt

/-- The indices of a range from the highest one down. -/
def down (r : Int × Int) : List Int := (List.range ((r.1 - r.2).toNat + 1)).map fun (i : Nat) => r.1 - (i : Int)

/-- C116: the ranges of a slice are the indices of the slice, in order, and each goes from its highest index down. -/
theorem c116_slice (l : List Int) :
    (mergeIndices l).flatMap down = l ∧ ∀ r ∈ mergeIndices l, r.2 ≤ r.1 := by
  have key : ∀ (l : List Int) (s e : Int), e ≤ s →
      (mergeGo s e l).flatMap down = down (s, e) ++ l ∧ ∀ r ∈ mergeGo s e l, r.2 ≤ r.1 := by
    intro l
    induction l with
    | nil => intro s e h; simp [mergeGo, h]
    | cons n ns ih =>
      intro s e h
      rw [mergeGo]
      by_cases hn : n = e - 1
      · rw [if_pos hn]
        obtain ⟨h1, h2⟩ := ih s n (by omega)
        refine ⟨?_, h2⟩
        rw [h1]
        have e1 : (s - n).toNat + 1 = ((s - e).toNat + 1) + 1 := by omega
        have e2 : s - (((s - e).toNat + 1 : Nat) : Int) = n := by omega
        simp only [down, e1]
        rw [List.range_succ (n := (s - e).toNat + 1), List.map_append, List.map_singleton, e2, List.append_assoc]; rfl
      · rw [if_neg hn]
        obtain ⟨h1, h2⟩ := ih n n (Int.le_refl _)
        refine ⟨?_, ?_⟩
        · rw [List.flatMap_cons, h1]; simp [down]
        · intro r hr
          rcases List.mem_cons.1 hr with rfl | hr
          · exact h
          · exact h2 r hr
  cases l with
  | nil => simp [mergeIndices]
  | cons n ns =>
    obtain ⟨h1, h2⟩ := key ns n n (Int.le_refl _)
    exact ⟨by rw [mergeIndices, h1]; simp [down], h2⟩

example : mergeIndices [7, 6, 5, 2, 3, 1, 0] = [(7, 5), (2, 2), (3, 3), (1, 0)] := by decide

section
variable (gr : List Bool → List Bool → Bool) (op : List Bool → List Bool → List Bool) (env : Nat → List Bool)

/-- The meaning of a word expression: bits.  The result of a comparison is one bit, and a condition is one bit. -/
def value : W → List Bool
  | .var i => env i
  | .const v => v
  | .not e => (value e).map (!·)
  | .and a b => List.zipWith (· && ·) (value a) (value b)
  | .or a b => List.zipWith (· || ·) (value a) (value b)
  | .eq a b => [value a == value b]
  | .gr a b => [gr (value a) (value b)]
  | .op a b => op (value a) (value b)
  | .ite c a b => if value c = [true] then value a else value b

/-- The bits that a value of the solver stands for. -/
def Val.bits : Val → List Bool
  | .bool b => [b]
  | .bv l => l

variable {gr op env}

/-- C116: in every model of the assertions the name of an expression has the value of the expression. -/
theorem c116_sound {size : W → Nat} {ρ : W → Val} : ∀ (e : W), Holds gr op env size ρ e →
    (ρ e).bits = value gr op env e := by
  intro e
  induction e with
  | var i => rintro ⟨-, h⟩; simp only [rhs, Option.some.injEq] at h; rw [← h]; rfl
  | const v => rintro ⟨-, h⟩; simp only [rhs, Option.some.injEq] at h; rw [← h]; rfl
  | not a ih =>
    rintro ⟨-, h, ha⟩
    have ih := ih ha
    simp only [rhs] at h
    rw [value, ← ih]
    cases hv : ρ a <;> rw [hv] at h <;> split at h <;> simp at h <;> rw [← h] <;> rfl
  | and a b iha ihb =>
    rintro ⟨-, h, ha, hb⟩
    have iha := iha ha
    have ihb := ihb hb
    simp only [rhs] at h
    rw [value, ← iha, ← ihb]
    cases hv : ρ a <;> cases hw : ρ b <;> rw [hv, hw] at h <;> split at h <;> simp at h
    · rw [← h]; rfl
    · rw [← h.2]; rfl
  | or a b iha ihb =>
    rintro ⟨-, h, ha, hb⟩
    have iha := iha ha
    have ihb := ihb hb
    simp only [rhs] at h
    rw [value, ← iha, ← ihb]
    cases hv : ρ a <;> cases hw : ρ b <;> rw [hv, hw] at h <;> split at h <;> simp at h
    · rw [← h]; rfl
    · rw [← h.2]; rfl
  | eq a b iha ihb =>
    rintro ⟨-, h, ha, hb⟩
    have iha := iha ha
    have ihb := ihb hb
    simp only [rhs] at h
    rw [value, ← iha, ← ihb]
    cases hv : ρ a <;> cases hw : ρ b <;> rw [hv, hw] at h <;> simp at h
    · rw [← h]; simp [Val.bits]
    · rw [← h.2]; rfl
  | gr a b iha ihb =>
    rintro ⟨-, h, ha, hb⟩
    have iha := iha ha
    have ihb := ihb hb
    simp only [rhs] at h
    rw [value, ← iha, ← ihb]
    cases hv : ρ a <;> cases hw : ρ b <;> rw [hv, hw] at h <;> simp at h
    rw [← h.2]; rfl
  | op a b iha ihb =>
    rintro ⟨-, h, ha, hb⟩
    have iha := iha ha
    have ihb := ihb hb
    simp only [rhs] at h
    rw [value, ← iha, ← ihb]
    cases hv : ρ a <;> cases hw : ρ b <;> rw [hv, hw] at h <;> simp at h
    rw [← h.2]; rfl
  | ite c a b ihc iha ihb =>
    rintro ⟨-, h, hc, ha, hb⟩
    have ihc := ihc hc
    have iha := iha ha
    have ihb := ihb hb
    simp only [rhs] at h
    rw [value, ← ihc, ← iha, ← ihb]
    cases hu : ρ c <;> cases hv : ρ a <;> cases hw : ρ b <;> rw [hu, hv, hw] at h <;> split at h <;> simp at h
    · rename_i x u v _; rw [← h]; cases x <;> simp [Val.bits]
    · rename_i x u v _; rw [← h.2]; cases x <;> simp [Val.bits]
    · rename_i x u v _; rw [← h.2]; by_cases hx : x = [true] <;> simp [Val.bits, hx]
    · rename_i x u v _; rw [← h.2.2]; by_cases hx : x = [true] <;> simp [Val.bits, hx]

/-- Negation of "every expression can be translated": an expression that chooses between two vectors by a comparison (whose
size is one bit) has no model, because the comparison is declared as a Boolean and compared with `#b1`. -/
theorem c116_ite_violated (size : W → Nat) (ρ : W → Val) (c a b : W) (hc : isRelation c = true) (hs : size c = 1)
    (ha : isRelation a = false) (hb : isRelation b = false) (hd : declared c (ρ c) = true) :
    rhs gr op env size ρ (.ite c a b) = none := by
  have : isRelation (.ite c a b) = false := by simp [isRelation, ha, hb]
  cases h : ρ c with
  | bool x => simp [rhs, this, hs, h]
  | bv l => rw [h] at hd; simp [declared, hc] at hd

/-- The same for a comparison and a single bit that are joined. -/
theorem c116_and_violated (size : W → Nat) (ρ : W → Val) (a b : W) (ha : isRelation a = true) (hb : isRelation b = false)
    (hd : declared b (ρ b) = true) : rhs gr op env size ρ (.and a b) = none := by
  cases h : ρ b with
  | bool x => rw [h] at hd; simp [declared, hb] at hd
  | bv l => cases h2 : ρ a <;> simp [rhs, isRelation, ha, h, h2]

/-- The assertions for a choice by one bit between the two results of comparing and joining have a model. -/
example : Holds (fun _ _ => true) (fun x _ => x) (fun _ => [true, false]) (fun _ => 1)
    (fun e => match e with
      | .var _ => .bv [true, false]
      | .const v => .bv v
      | .ite .. => .bv [true, false]
      | .and .. => .bv [false, false]
      | _ => .bool true)
    (.ite (.const [true]) (.var 0) (.and (.var 0) (.const [false, true]))) := by
  simp [Holds, rhs, declared, isRelation]

end

end Voss.Smt
