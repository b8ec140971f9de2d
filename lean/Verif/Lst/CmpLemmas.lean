import Verif.Lst.Cmp
import Verif.Lst.Props
/-
Lemmas on `gcmp`.
-/
namespace Voss.Lst

theorem strcmp_iff (s : List Nat) : ∀ t, (strcmp s t < 0 ↔ s < t) ∧ (strcmp s t = 0 ↔ s = t) ∧ (0 < strcmp s t ↔ t < s) := by
  induction s with
  | nil =>
    intro t
    cases t with
    | nil => simp [strcmp]
    | cons b t => simp [strcmp]
  | cons a s ih =>
    intro t
    cases t with
    | nil => simp [strcmp]
    | cons b t =>
      obtain ⟨h1, h2, h3⟩ := ih t
      rw [strcmp, List.cons_lt_cons_iff, List.cons_lt_cons_iff]
      split
      · rename_i h
        refine ⟨by simp [h], ?_, ?_⟩
        · simp; intro e; omega
        · simp; omega
      · split
        · rename_i h0 h
          refine ⟨?_, ?_, by simp [h]⟩
          · simp; omega
          · simp; intro e; omega
        · have : a = b := by omega
          subst this
          simp [h1, h2, h3]

theorem icmp_iff (x y : Int) : (icmp x y < 0 ↔ x < y) ∧ (icmp x y = 0 ↔ x = y) ∧ (0 < icmp x y ↔ y < x) := by
  unfold icmp
  split
  · omega
  · split <;> omega

theorem less_irrefl (a : V) : ¬ Less a a := by
  induction a with
  | nil => intro h; cases h <;> omega
  | cons h t ih1 ih2 => intro h; cases h <;> first | omega | (apply ih1; assumption) | (apply ih2; assumption)
  | app h t ih1 ih2 => intro h; cases h <;> first | omega | (apply ih1; assumption) | (apply ih2; assumption)
  | int z => intro h; cases h <;> omega
  | str s =>
    intro h
    cases h with
    | kind1 h => omega
    | kind2 _ h => omega
    | str h => exact List.lt_irrefl _ h
  | prim k p => intro h; cases h <;> omega
  | bool => intro h; cases h <;> omega
  | bexpr => intro h; cases h <;> omega
  | obj => intro h; cases h <;> omega
  | ext => intro h; cases h <;> omega
  | fmt => intro h; cases h <;> omega
  | cell => intro h; cases h <;> omega

theorem less_kind {a b : V} (h : Less a b) : a.kind.1 < b.kind.1 ∨ (a.kind.1 = b.kind.1 ∧ a.kind.2 ≤ b.kind.2) := by
  cases h with
  | kind1 h => exact Or.inl h
  | kind2 h h' => exact Or.inr ⟨h, by omega⟩
  | _ => exact Or.inr ⟨rfl, Nat.le_refl _⟩

theorem less_trans {a b : V} (h : Less a b) : ∀ {c : V}, Less b c → Less a c := by
  have key : ∀ {a b c : V}, Less a b → Less b c → (a.kind = b.kind → b.kind = c.kind → Less a c) → Less a c := by
    intro a b c h1 h2 h3
    have k1 := less_kind h1
    have k2 := less_kind h2
    by_cases e1 : a.kind.1 < c.kind.1
    · exact .kind1 e1
    · by_cases e2 : a.kind.2 < c.kind.2
      · exact .kind2 (by omega) e2
      · exact h3 (Prod.ext (by omega) (by omega)) (Prod.ext (by omega) (by omega))
  induction h with
  | kind1 h => intro c h2; exact key (.kind1 h) h2 (fun e _ => by rw [e] at h; omega)
  | kind2 h h' => intro c h2; exact key (.kind2 h h') h2 (fun e _ => by rw [e] at h'; omega)
  | int h =>
    intro c h2
    refine key (.int h) h2 (fun _ e => ?_)
    cases h2 with
    | kind1 h' => rw [e] at h'; omega
    | kind2 _ h' => rw [e] at h'; omega
    | int h' => exact .int (by omega)
  | str h =>
    intro c h2
    refine key (.str h) h2 (fun _ e => ?_)
    cases h2 with
    | kind1 h' => rw [e] at h'; omega
    | kind2 _ h' => rw [e] at h'; omega
    | str h' => exact .str (List.lt_trans h h')
  | prim h =>
    intro c h2
    refine key (.prim h) h2 (fun _ e => ?_)
    cases h2 with
    | kind1 h' => rw [e] at h'; omega
    | kind2 _ h' => rw [e] at h'; omega
    | prim h' => exact .prim (by omega)
  | nilCons =>
    intro c h2
    refine key .nilCons h2 (fun _ e => ?_)
    cases h2 with
    | kind1 h' => rw [e] at h'; omega
    | kind2 _ h' => rw [e] at h'; omega
    | head h' => exact .nilCons
    | tail h' => exact .nilCons
  | head h ih =>
    intro c h2
    refine key (.head h) h2 (fun _ e => ?_)
    cases h2 with
    | kind1 h' => rw [e] at h'; omega
    | kind2 _ h' => rw [e] at h'; omega
    | head h' => exact .head (ih h')
    | tail h' => exact .head h
  | tail h ih =>
    intro c h2
    refine key (.tail h) h2 (fun _ e => ?_)
    cases h2 with
    | kind1 h' => rw [e] at h'; omega
    | kind2 _ h' => rw [e] at h'; omega
    | head h' => exact .head h'
    | tail h' => exact .tail (ih h')
  | left h ih =>
    intro c h2
    refine key (.left h) h2 (fun _ e => ?_)
    cases h2 with
    | kind1 h' => rw [e] at h'; omega
    | kind2 _ h' => rw [e] at h'; omega
    | left h' => exact .left (ih h')
    | right h' => exact .left h
  | right h ih =>
    intro c h2
    refine key (.right h) h2 (fun _ e => ?_)
    cases h2 with
    | kind1 h' => rw [e] at h'; omega
    | kind2 _ h' => rw [e] at h'; omega
    | left h' => exact .left h'
    | right h' => exact .right (ih h')

/-- What a number says about two values. -/
def Says (z : Int) (a b : V) : Prop := (z < 0 ↔ Less a b) ∧ (z = 0 ↔ a = b) ∧ (0 < z ↔ Less b a)

theorem says_kind {a b : V} (h : a.kind.1 ≠ b.kind.1) : Says ((a.kind.1 : Int) - b.kind.1) a b := by
  refine ⟨⟨fun h' => .kind1 (by omega), fun h' => ?_⟩, ⟨fun h' => by omega, fun h' => by rw [h'] at h; omega⟩,
    ⟨fun h' => .kind1 (by omega), fun h' => ?_⟩⟩
  · have := less_kind h'; omega
  · have := less_kind h'; omega

theorem says_kind2 {a b : V} (e : a.kind.1 = b.kind.1) (h : a.kind.2 ≠ b.kind.2) : Says ((a.kind.2 : Int) - b.kind.2) a b := by
  refine ⟨⟨fun h' => .kind2 e (by omega), fun h' => ?_⟩, ⟨fun h' => by omega, fun h' => by rw [h'] at h; omega⟩,
    ⟨fun h' => .kind2 e.symm (by omega), fun h' => ?_⟩⟩
  · have := less_kind h'; omega
  · have := less_kind h'; omega

theorem cmp_says (contents : Nat → V) {a : V} (ha : Plain a) : ∀ {b : V}, Plain b → ∀ n, a.depth ≤ n →
    ∃ z, cmp contents n a b = .ok z ∧ Says z a b := by
  induction ha with
  | nil =>
    intro b hb n hn
    obtain ⟨n, rfl⟩ : ∃ k, n = k + 1 := ⟨n - 1, by simp [V.depth] at hn; omega⟩
    rw [cmp]
    by_cases h1 : V.nil.kind.1 ≠ b.kind.1
    · rw [if_pos h1]; exact ⟨_, rfl, says_kind h1⟩
    · rw [if_neg h1]
      by_cases h2 : V.nil.kind.2 ≠ b.kind.2
      · rw [if_pos h2]; exact ⟨_, rfl, says_kind2 (by omega) h2⟩
      · rw [if_neg h2]
        cases hb with
        | nil => exact ⟨0, rfl, ⟨fun h => by omega, fun h => absurd h (less_irrefl _)⟩, by simp, ⟨fun h => by omega, fun h => absurd h (less_irrefl _)⟩⟩
        | cons _ _ =>
          refine ⟨-1, rfl, ⟨fun _ => .nilCons, fun _ => by omega⟩, by simp, ⟨fun h => by omega, fun h => ?_⟩⟩
          exact absurd (less_trans h .nilCons) (less_irrefl _)
        | app _ _ => simp [V.kind] at h1
        | int => simp [V.kind] at h1
        | str => simp [V.kind] at h1
        | prim => simp [V.kind] at h1
  | @cons h t _ _ ih1 ih2 =>
    intro b hb n hn
    obtain ⟨n, rfl⟩ : ∃ k, n = k + 1 := ⟨n - 1, by simp [V.depth] at hn; omega⟩
    rw [cmp]
    by_cases h1 : (V.cons h t).kind.1 ≠ b.kind.1
    · rw [if_pos h1]; exact ⟨_, rfl, says_kind h1⟩
    · rw [if_neg h1]
      by_cases h2 : (V.cons h t).kind.2 ≠ b.kind.2
      · rw [if_pos h2]; exact ⟨_, rfl, says_kind2 (by omega) h2⟩
      · rw [if_neg h2]
        cases hb with
        | nil =>
          refine ⟨1, rfl, ⟨fun h => by omega, fun h => ?_⟩, by simp, ⟨fun _ => .nilCons, fun _ => by omega⟩⟩
          exact absurd (less_trans h .nilCons) (less_irrefl _)
        | @cons h' t' p1 p2 =>
          simp only [V.depth] at hn
          obtain ⟨z, hz, s1, s2, s3⟩ := ih1 p1 n (by omega)
          obtain ⟨y, hy, u1, u2, u3⟩ := ih2 p2 n (by omega)
          rw [cmpSame, hz]
          simp only
          by_cases hz0 : z = 0
          · have := s2.1 hz0
            subst this
            rw [if_neg (by simpa using hz0), hy]
            refine ⟨y, rfl, ⟨fun h => .tail (u1.1 h), fun h => ?_⟩, ⟨fun h => by rw [u2.1 h], fun h => u2.2 (by injection h)⟩, ⟨fun h => .tail (u3.1 h), fun h => ?_⟩⟩
            · cases h with
              | kind1 h => simp [V.kind] at h
              | kind2 _ h => simp [V.kind] at h
              | head h => exact absurd h (less_irrefl _)
              | tail h => exact u1.2 h
            · cases h with
              | kind1 h => simp [V.kind] at h
              | kind2 _ h => simp [V.kind] at h
              | head h => exact absurd h (less_irrefl _)
              | tail h => exact u3.2 h
          · rw [if_pos hz0]
            refine ⟨z, rfl, ⟨fun h => .head (s1.1 h), fun h => ?_⟩, ⟨fun h => absurd h hz0, fun h => by injection h with e _; exact s2.2 e⟩, ⟨fun h => .head (s3.1 h), fun h => ?_⟩⟩
            · cases h with
              | kind1 h => simp [V.kind] at h
              | kind2 _ h => simp [V.kind] at h
              | head h => exact s1.2 h
              | tail h => exact absurd (s2.2 rfl) hz0
            · cases h with
              | kind1 h => simp [V.kind] at h
              | kind2 _ h => simp [V.kind] at h
              | head h => exact s3.2 h
              | tail h => exact absurd (s2.2 rfl) hz0
        | app _ _ => simp [V.kind] at h1
        | int => simp [V.kind] at h1
        | str => simp [V.kind] at h1
        | prim => simp [V.kind] at h1
  | @app h t _ _ ih1 ih2 =>
    intro b hb n hn
    obtain ⟨n, rfl⟩ : ∃ k, n = k + 1 := ⟨n - 1, by simp [V.depth] at hn; omega⟩
    rw [cmp]
    by_cases h1 : (V.app h t).kind.1 ≠ b.kind.1
    · rw [if_pos h1]; exact ⟨_, rfl, says_kind h1⟩
    · rw [if_neg h1]
      by_cases h2 : (V.app h t).kind.2 ≠ b.kind.2
      · rw [if_pos h2]; exact ⟨_, rfl, says_kind2 (by omega) h2⟩
      · rw [if_neg h2]
        cases hb with
        | nil => simp [V.kind] at h1
        | cons _ _ => simp [V.kind] at h1
        | @app h' t' p1 p2 =>
          simp only [V.depth] at hn
          obtain ⟨z, hz, s1, s2, s3⟩ := ih1 p1 n (by omega)
          obtain ⟨y, hy, u1, u2, u3⟩ := ih2 p2 n (by omega)
          rw [cmpSame, hz]
          simp only
          by_cases hz0 : z = 0
          · have := s2.1 hz0
            subst this
            rw [if_neg (by simpa using hz0), hy]
            refine ⟨y, rfl, ⟨fun h => .right (u1.1 h), fun h => ?_⟩, ⟨fun h => by rw [u2.1 h], fun h => u2.2 (by injection h)⟩, ⟨fun h => .right (u3.1 h), fun h => ?_⟩⟩
            · cases h with
              | kind1 h => simp [V.kind] at h
              | kind2 _ h => simp [V.kind] at h
              | left h => exact absurd h (less_irrefl _)
              | right h => exact u1.2 h
            · cases h with
              | kind1 h => simp [V.kind] at h
              | kind2 _ h => simp [V.kind] at h
              | left h => exact absurd h (less_irrefl _)
              | right h => exact u3.2 h
          · rw [if_pos hz0]
            refine ⟨z, rfl, ⟨fun h => .left (s1.1 h), fun h => ?_⟩, ⟨fun h => absurd h hz0, fun h => by injection h with e _; exact s2.2 e⟩, ⟨fun h => .left (s3.1 h), fun h => ?_⟩⟩
            · cases h with
              | kind1 h => simp [V.kind] at h
              | kind2 _ h => simp [V.kind] at h
              | left h => exact s1.2 h
              | right h => exact absurd (s2.2 rfl) hz0
            · cases h with
              | kind1 h => simp [V.kind] at h
              | kind2 _ h => simp [V.kind] at h
              | left h => exact s3.2 h
              | right h => exact absurd (s2.2 rfl) hz0
        | int => simp [V.kind] at h1
        | str => simp [V.kind] at h1
        | prim => simp [V.kind] at h1
  | int x =>
    intro b hb n hn
    obtain ⟨n, rfl⟩ : ∃ k, n = k + 1 := ⟨n - 1, by simp [V.depth] at hn; omega⟩
    rw [cmp]
    by_cases h1 : (V.int x).kind.1 ≠ b.kind.1
    · rw [if_pos h1]; exact ⟨_, rfl, says_kind h1⟩
    · rw [if_neg h1]
      by_cases h2 : (V.int x).kind.2 ≠ b.kind.2
      · rw [if_pos h2]; exact ⟨_, rfl, says_kind2 (by omega) h2⟩
      · rw [if_neg h2]
        cases hb with
        | nil => simp [V.kind] at h1
        | cons _ _ => simp [V.kind] at h1
        | app _ _ => simp [V.kind] at h1
        | int y =>
          obtain ⟨i1, i2, i3⟩ := icmp_iff x y
          refine ⟨_, rfl, i1.trans ⟨.int, fun h => ?_⟩, i2.trans ⟨fun h => by rw [h], fun h => by injection h⟩, i3.trans ⟨.int, fun h => ?_⟩⟩
          · cases h with
            | kind1 h => simp [V.kind] at h
            | kind2 _ h => simp [V.kind] at h
            | int h => exact h
          · cases h with
            | kind1 h => simp [V.kind] at h
            | kind2 _ h => simp [V.kind] at h
            | int h => exact h
        | str => simp [V.kind] at h2
        | prim => simp [V.kind] at h2
  | str s =>
    intro b hb n hn
    obtain ⟨n, rfl⟩ : ∃ k, n = k + 1 := ⟨n - 1, by simp [V.depth] at hn; omega⟩
    rw [cmp]
    by_cases h1 : (V.str s).kind.1 ≠ b.kind.1
    · rw [if_pos h1]; exact ⟨_, rfl, says_kind h1⟩
    · rw [if_neg h1]
      by_cases h2 : (V.str s).kind.2 ≠ b.kind.2
      · rw [if_pos h2]; exact ⟨_, rfl, says_kind2 (by omega) h2⟩
      · rw [if_neg h2]
        cases hb with
        | nil => simp [V.kind] at h1
        | cons _ _ => simp [V.kind] at h1
        | app _ _ => simp [V.kind] at h1
        | int y => simp [V.kind] at h2
        | str t =>
          obtain ⟨i1, i2, i3⟩ := strcmp_iff s t
          refine ⟨_, rfl, i1.trans ⟨.str, fun h => ?_⟩, i2.trans ⟨fun h => by rw [h], fun h => by injection h⟩, i3.trans ⟨.str, fun h => ?_⟩⟩
          · cases h with
            | kind1 h => simp [V.kind] at h
            | kind2 _ h => simp [V.kind] at h
            | str h => exact h
          · cases h with
            | kind1 h => simp [V.kind] at h
            | kind2 _ h => simp [V.kind] at h
            | str h => exact h
        | prim => simp [V.kind] at h2
  | prim k =>
    intro b hb n hn
    obtain ⟨n, rfl⟩ : ∃ k, n = k + 1 := ⟨n - 1, by simp [V.depth] at hn; omega⟩
    rw [cmp]
    by_cases h1 : (V.prim k 0).kind.1 ≠ b.kind.1
    · rw [if_pos h1]; exact ⟨_, rfl, says_kind h1⟩
    · rw [if_neg h1]
      by_cases h2 : (V.prim k 0).kind.2 ≠ b.kind.2
      · rw [if_pos h2]; exact ⟨_, rfl, says_kind2 (by omega) h2⟩
      · rw [if_neg h2]
        cases hb with
        | nil => simp [V.kind] at h1
        | cons _ _ => simp [V.kind] at h1
        | app _ _ => simp [V.kind] at h1
        | int y => simp [V.kind] at h2
        | str t => simp [V.kind] at h2
        | prim j =>
          refine ⟨(k : Int) - j, rfl, ⟨fun h => .prim (by omega), fun h => ?_⟩, ⟨fun h => ?_, fun h => ?_⟩, ⟨fun h => .prim (by omega), fun h => ?_⟩⟩
          · cases h with
            | kind1 h => simp [V.kind] at h
            | kind2 _ h => simp [V.kind] at h
            | prim h => omega
          · have : k = j := by omega
            rw [this]
          · injection h with h _; omega
          · cases h with
            | kind1 h => simp [V.kind] at h
            | kind2 _ h => simp [V.kind] at h
            | prim h => omega

end Voss.Lst
