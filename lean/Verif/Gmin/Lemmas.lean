import Verif.Gmin.Model
import Verif.Pre.ParamProps
import Verif.Ugen.Lemmas
import Verif.Gen.ShiftLemmas
/-
Helper lemmas for C107.
-/
namespace Voss.Gmin
open Voss.Pre Voss.Pre.Fn Voss.Gen
open Voss.Bv (uv tc uv_lt)
variable {o : Order}

theorem subst_param {cond : Fn o} (h : ∃ η, cond.ev η = true) (bs : List (Fn o)) :
    ∃ sub bs', param cond = some sub ∧ substitute sub bs = .ok bs' ∧ bs'.length = bs.length ∧
      (∀ η, ∃ ζ, cond.ev ζ = true ∧ bits bs' η = bits bs ζ) ∧
      (∀ ζ, cond.ev ζ = true → bits bs' ζ = bits bs ζ) := by
  obtain ⟨sub, h1, h2, -, h3, h4⟩ := c86_param cond h
  have e : ∀ η, bits (bs.map (Fn.subst sub)) η = bits bs (under sub η) := by
    intro η
    simp [bits]
  refine ⟨sub, bs.map (Fn.subst sub), h1, ?_, by simp, fun η => ⟨under sub η, h3 η, e η⟩, fun ζ hζ => ?_⟩
  · rw [substitute, if_pos]
    rw [h2]
    exact (depends_sorted _).nodup
  · rw [e, h4 ζ hζ]

/-- What one step gives, for an order of lists `R`. -/
structure Step (R : List Bool → List Bool → Prop) (want : Bool) (b : Fn o) (bs : List (Fn o)) (d : Bool)
    (ds : List Bool) : Prop where
  len : ds.length = bs.length
  ex : ∃ η, b.ev η = d ∧ bits bs η = ds
  best : ∀ ζ, b.ev ζ = d → R ds (bits bs ζ)
  dig : d = want ∨ ∀ ζ, b.ev ζ = d

theorem nonconst {b : Fn o} (h1 : b ≠ tt o) (h2 : b ≠ ff o) (d : Bool) : ∃ η, b.ev η = d := by
  cases d
  · exact ne_tt.1 h1
  · exact ne_ff.1 h2

theorem min_step (n : Nat) (first : Bool) (b : Fn o) (bs : List (Fn o)) (hn : bs.length ≤ n)
    (ih : ∀ l : List (Fn o), l.length ≤ n → ∃ ds, findMin n false l = .ok (ds.map (const o)) ∧
      ds.length = l.length ∧ (∃ η, bits l η = ds) ∧ ∀ ζ, uv ds ≤ uv (bits l ζ)) :
    ∃ d ds, findMin (n + 1) first (b :: bs) = .ok ((d :: ds).map (const o)) ∧
      Step (fun x y => uv x ≤ uv y) first b bs d ds := by
  rw [findMin]
  by_cases h1 : b = tt o
  · obtain ⟨ds, e, hl, ⟨η, hη⟩, hb⟩ := ih bs hn
    rw [if_pos h1, e]
    exact ⟨true, ds, rfl, hl, ⟨η, by simp [h1], hη⟩, fun ζ _ => hb ζ, Or.inr fun ζ => by simp [h1]⟩
  rw [if_neg h1]
  by_cases h2 : b = ff o
  · obtain ⟨ds, e, hl, ⟨η, hη⟩, hb⟩ := ih bs hn
    rw [if_pos h2, e]
    exact ⟨false, ds, rfl, hl, ⟨η, by simp [h2], hη⟩, fun ζ _ => hb ζ, Or.inr fun ζ => by simp [h2]⟩
  rw [if_neg h2]
  have hc : ∀ η, (if first then b else b.not).ev η = true ↔ b.ev η = first := by
    intro η; cases first <;> simp
  obtain ⟨η0, h0⟩ := nonconst h1 h2 first
  obtain ⟨sub, bs', p1, p2, p3, p4, p5⟩ := subst_param ⟨η0, (hc η0).2 h0⟩ bs
  obtain ⟨ds, e, hl, ⟨η, hη⟩, hb⟩ := ih bs' (by omega)
  dsimp only
  rw [p1]
  simp only [Out.ofOption, Out.bind, p2, e]
  refine ⟨first, ds, rfl, by omega, ?_, fun ζ hζ => ?_, Or.inl rfl⟩
  · obtain ⟨ζ, q1, q2⟩ := p4 η
    exact ⟨ζ, (hc ζ).1 q1, by rw [← q2, hη]⟩
  · rw [← p5 ζ ((hc ζ).2 hζ)]
    exact hb ζ

theorem max_step (n : Nat) (first : Bool) (b : Fn o) (bs : List (Fn o)) (hn : bs.length ≤ n)
    (ih : ∀ l : List (Fn o), l.length ≤ n → ∃ ds, findMax n false l = .ok (ds.map (const o)) ∧
      ds.length = l.length ∧ (∃ η, bits l η = ds) ∧ ∀ ζ, uv (bits l ζ) ≤ uv ds) :
    ∃ d ds, findMax (n + 1) first (b :: bs) = .ok ((d :: ds).map (const o)) ∧
      Step (fun x y => uv y ≤ uv x) (!first) b bs d ds := by
  rw [findMax]
  by_cases h1 : b = tt o
  · obtain ⟨ds, e, hl, ⟨η, hη⟩, hb⟩ := ih bs hn
    rw [if_pos h1, e]
    exact ⟨true, ds, rfl, hl, ⟨η, by simp [h1], hη⟩, fun ζ _ => hb ζ, Or.inr fun ζ => by simp [h1]⟩
  rw [if_neg h1]
  by_cases h2 : b = ff o
  · obtain ⟨ds, e, hl, ⟨η, hη⟩, hb⟩ := ih bs hn
    rw [if_pos h2, e]
    exact ⟨false, ds, rfl, hl, ⟨η, by simp [h2], hη⟩, fun ζ _ => hb ζ, Or.inr fun ζ => by simp [h2]⟩
  rw [if_neg h2]
  have hc : ∀ η, (if first then b.not else b).ev η = true ↔ b.ev η = !first := by
    intro η; cases first <;> simp
  obtain ⟨η0, h0⟩ := nonconst h1 h2 (!first)
  obtain ⟨sub, bs', p1, p2, p3, p4, p5⟩ := subst_param ⟨η0, (hc η0).2 h0⟩ bs
  obtain ⟨ds, e, hl, ⟨η, hη⟩, hb⟩ := ih bs' (by omega)
  dsimp only
  rw [p1]
  simp only [Out.ofOption, Out.bind, p2, e]
  refine ⟨!first, ds, rfl, by omega, ?_, fun ζ hζ => ?_, Or.inl rfl⟩
  · obtain ⟨ζ, q1, q2⟩ := p4 η
    exact ⟨ζ, (hc ζ).1 q1, by rw [← q2, hη]⟩
  · rw [← p5 ζ ((hc ζ).2 hζ)]
    exact hb ζ

theorem findMin_u : ∀ (n : Nat) (l : List (Fn o)), l.length ≤ n → ∃ ds, findMin n false l = .ok (ds.map (const o)) ∧
      ds.length = l.length ∧ (∃ η, bits l η = ds) ∧ ∀ ζ, uv ds ≤ uv (bits l ζ)
  | n, [], _ => ⟨[], by cases n <;> rfl, rfl, ⟨fun _ => false, rfl⟩, fun _ => le_refl _⟩
  | 0, _ :: _, h => by simp at h
  | n + 1, b :: bs, h => by
    have hn : bs.length ≤ n := by simpa using h
    obtain ⟨d, ds, e, s⟩ := min_step n false b bs hn (findMin_u n)
    obtain ⟨η, q1, q2⟩ := s.ex
    refine ⟨d :: ds, e, by simp [s.len], ⟨η, by simp [bits] at q2 ⊢; exact ⟨q1, q2⟩⟩, fun ζ => ?_⟩
    have hb : bits (b :: bs) ζ = b.ev ζ :: bits bs ζ := rfl
    have hl : (bits bs ζ).length = ds.length := by simp [bits, s.len]
    rw [hb, uv, uv, hl]
    by_cases hd : b.ev ζ = d
    · have := s.best ζ hd
      rw [hd]; omega
    · rcases s.dig with h | h
      · subst h
        have : b.ev ζ = true := by simpa using hd
        rw [this]
        have := uv_lt ds
        simp; omega
      · exact absurd (h ζ) hd

theorem findMax_u : ∀ (n : Nat) (l : List (Fn o)), l.length ≤ n → ∃ ds, findMax n false l = .ok (ds.map (const o)) ∧
      ds.length = l.length ∧ (∃ η, bits l η = ds) ∧ ∀ ζ, uv (bits l ζ) ≤ uv ds
  | n, [], _ => ⟨[], by cases n <;> rfl, rfl, ⟨fun _ => false, rfl⟩, fun _ => le_refl _⟩
  | 0, _ :: _, h => by simp at h
  | n + 1, b :: bs, h => by
    have hn : bs.length ≤ n := by simpa using h
    obtain ⟨d, ds, e, s⟩ := max_step n false b bs hn (findMax_u n)
    obtain ⟨η, q1, q2⟩ := s.ex
    refine ⟨d :: ds, e, by simp [s.len], ⟨η, by simp [bits] at q2 ⊢; exact ⟨q1, q2⟩⟩, fun ζ => ?_⟩
    have hb : bits (b :: bs) ζ = b.ev ζ :: bits bs ζ := rfl
    have hl : (bits bs ζ).length = ds.length := by simp [bits, s.len]
    rw [hb, uv, uv, hl]
    by_cases hd : b.ev ζ = d
    · have := s.best ζ hd
      rw [hd]; omega
    · rcases s.dig with h | h
      · subst h
        have : b.ev ζ = false := by simpa using hd
        rw [this]
        have := uv_lt (bits bs ζ)
        rw [hl] at this
        simp; omega
      · exact absurd (h ζ) hd

theorem findMin_top (b : Fn o) (bs : List (Fn o)) : ∃ d ds,
    findMin (b :: bs).length true (b :: bs) = .ok ((d :: ds).map (const o)) ∧
    Step (fun x y => uv x ≤ uv y) true b bs d ds :=
  min_step bs.length true b bs (le_refl _) (findMin_u _)

theorem findMax_top (b : Fn o) (bs : List (Fn o)) : ∃ d ds,
    findMax (b :: bs).length true (b :: bs) = .ok ((d :: ds).map (const o)) ∧
    Step (fun x y => uv y ≤ uv x) false b bs d ds :=
  max_step bs.length true b bs (le_refl _) (findMax_u _)

theorem bits_const (l : List Bool) (η : Env) : bits (l.map (const o)) η = l := by
  induction l with
  | nil => rfl
  | cons b l ih => simp only [bits, List.map_cons] at ih ⊢; rw [ih]; rfl

theorem read_signed (d : Bool) (ds : List Bool) :
    Gen.bv2int ((d :: ds).map (const o)) = .ok (tc (d :: ds)) := by
  rw [bv2int_ok (by simp) (isConst_map _) (fun _ => false), signed, bits_const]

theorem read_unsigned (l : List Bool) : Ugen.bv2num 0 (l.map (const o)) = .ok ((uv l : Nat) : Int) := by
  rw [Ugen.bv2num_ok (fun _ => false) _ _ (isConst_map _), unsigned, bits_const]
  simp

end Voss.Gmin
