import Verif.Comp.Words
/-
Compiling operands: what a sequence of operands contributes to a net.
-/
namespace Voss.Comp
open Voss.Sim
open Voss.Ste (Comp Net)
open Voss.Bv (uv tc)

/-- The component holds of the values `σ` of its inputs and `σ'` of its outputs. -/
def Ok (k : Comp) (σ σ' : Nat → Bool) : Prop :=
  List.Forall₂ Possible (wordOp k.prim k.size (k.inps.map σ)) (k.outs.map σ')

/-- Parameters that match the size of the component. -/
def Shape (size : Nat) : Prim → Prop
  | .eq _ | .gr _ => size = 1
  | .slice idxs => idxs.length = size
  | .updSlice idxs => ∀ i ∈ idxs, i < size
  | .idelay _ _ _ _ => 0 < size
  | .sx n => 0 < n
  | .memRead _ _ dsz => dsz = size
  | .memWrite _ lines dsz => lines * dsz = size
  | _ => True

/-- The component has the inputs and outputs its operation needs. -/
def Proper (k : Comp) : Prop :=
  k.prim.inputs k.size ≤ k.inps.length ∧ k.outs.length = k.size ∧ Shape k.size k.prim

/-- The values of the named vectors. -/
def val (look : String → List Nat) (σ : Nat → Bool) : String → List Bool := fun s => (look s).map σ

/-- All named nodes are below `next`. -/
def Named (look : String → List Nat) (next : Nat) : Prop := ∀ s, ∀ x ∈ look s, x < next

theorem Named.mono {look : String → List Nat} {a b : Nat} (h : Named look a) (hab : a ≤ b) : Named look b :=
  fun s x hx => Nat.lt_of_lt_of_le (h s x hx) hab

theorem map_agree {σ τ : Nat → Bool} {n : Nat} (h : ∀ x < n, τ x = σ x) {l : List Nat} (hl : ∀ x ∈ l, x < n) :
    l.map τ = l.map σ := List.map_congr_left fun x hx => h x (hl x hx)

theorem val_agree {look : String → List Nat} {σ τ : Nat → Bool} {n : Nat} (hn : Named look n) (h : ∀ x < n, τ x = σ x) :
    val look τ = val look σ := by
  funext s
  exact map_agree h (hn s)

theorem ok_agree {k : Comp} {σ τ : Nat → Bool} {n : Nat} (h : ∀ x < n, τ x = σ x) (hi : ∀ x ∈ k.inps, x < n) (ho : ∀ x ∈ k.outs, x < n)
    (hk : Ok k σ σ) : Ok k τ τ := by
  unfold Ok at *
  rwa [map_agree h hi, map_agree h ho]

/-- What operands with nodes `i` contribute: `P` says which words are possible on those nodes. -/
structure Good (look : String → List Nat) (P : (String → List Bool) → List Bool → Prop) (m next next' : Nat) (i : List Nat) (c : Net) : Prop where
  le : next ≤ next'
  len : i.length = m
  bnd : ∀ x ∈ i, x < next'
  inps : ∀ k ∈ c, ∀ x ∈ k.inps, x < next'
  outs : ∀ k ∈ c, ∀ x ∈ k.outs, next ≤ x ∧ x < next'
  nodup : (c.flatMap (·.outs)).Nodup
  delay : ∀ k ∈ c, k.delay = false
  proper : ∀ k ∈ c, Proper k
  sound : ∀ σ, (∀ k ∈ c, Ok k σ σ) → P (val look σ) (i.map σ)
  complete : ∀ σ w, P (val look σ) w → ∃ τ, (∀ x < next, τ x = σ x) ∧ i.map τ = w ∧ ∀ k ∈ c, Ok k τ τ

/-- What compiling an expression with the output nodes `outs` yields. -/
structure Top (look : String → List Nat) (P : (String → List Bool) → List Bool → Prop) (next next' : Nat) (os : List Nat) (pdel : Bool) (c : Net) : Prop where
  le : next ≤ next'
  inps : ∀ k ∈ c, ∀ x ∈ k.inps, x < next'
  outs : ∀ k ∈ c, ∀ x ∈ k.outs, x ∈ os ∨ (next ≤ x ∧ x < next')
  nodup : os.Nodup → (c.flatMap (·.outs)).Nodup
  all : ∀ x ∈ os, x ∈ c.flatMap (·.outs)
  delay : ∀ k ∈ c, k.delay = true → pdel = true ∧ k.outs = os
  proper : ∀ k ∈ c, Proper k
  sound : ∀ σ σ', (pdel = false → σ' = σ) → (∀ k ∈ c, Ok k σ (if k.delay then σ' else σ)) → P (val look σ) (os.map σ')
  complete : ∀ σ σ', (pdel = false → σ' = σ) → P (val look σ) (os.map σ') →
    ∃ τ, (∀ x < next, τ x = σ x) ∧ ∀ k ∈ c, Ok k τ (if k.delay then σ' else τ)

/-- The empty sequence. -/
theorem good_nil (look : String → List Nat) (next : Nat) : Good look (fun _ w => w = []) 0 next next [] [] where
  le := Nat.le_refl _
  len := rfl
  bnd := by simp
  inps := by simp
  outs := by simp
  nodup := by simp
  delay := by simp
  proper := by simp
  sound := by simp
  complete := by rintro σ w rfl; exact ⟨σ, by simp⟩

/-- The words of two parts, one after the other. -/
def Both (P Q : (String → List Bool) → List Bool → Prop) (v : String → List Bool) (w : List Bool) : Prop :=
  ∃ a b, P v a ∧ Q v b ∧ w = a ++ b

/-- A sequence of two parts. -/
theorem good_append {look : String → List Nat} {P Q} {m m' n0 n1 n2 : Nat} {i j : List Nat} {c d : Net} (hn : Named look n0)
    (h1 : Good look P m n0 n1 i c) (h2 : Good look Q m' n1 n2 j d) : Good look (Both P Q) (m + m') n0 n2 (i ++ j) (c ++ d) where
  le := Nat.le_trans h1.le h2.le
  len := by rw [List.length_append, h1.len, h2.len]
  bnd := by
    intro x hx
    rcases List.mem_append.mp hx with hx | hx
    · exact Nat.lt_of_lt_of_le (h1.bnd x hx) h2.le
    · exact h2.bnd x hx
  inps := by
    intro k hk x hx
    rcases List.mem_append.mp hk with hk | hk
    · exact Nat.lt_of_lt_of_le (h1.inps k hk x hx) h2.le
    · exact h2.inps k hk x hx
  outs := by
    intro k hk x hx
    rcases List.mem_append.mp hk with hk | hk
    · exact ⟨(h1.outs k hk x hx).1, Nat.lt_of_lt_of_le (h1.outs k hk x hx).2 h2.le⟩
    · exact ⟨Nat.le_trans h1.le (h2.outs k hk x hx).1, (h2.outs k hk x hx).2⟩
  nodup := by
    rw [List.flatMap_append, List.nodup_append]
    refine ⟨h1.nodup, h2.nodup, ?_⟩
    intro a ha b hb hab
    obtain ⟨k, hk, hka⟩ := List.mem_flatMap.mp ha
    obtain ⟨k', hk', hkb⟩ := List.mem_flatMap.mp hb
    have e1 := (h1.outs k hk a hka).2
    have e2 := (h2.outs k' hk' b hkb).1
    omega
  delay := by
    intro k hk
    rcases List.mem_append.mp hk with hk | hk
    · exact h1.delay k hk
    · exact h2.delay k hk
  proper := by
    intro k hk
    rcases List.mem_append.mp hk with hk | hk
    · exact h1.proper k hk
    · exact h2.proper k hk
  sound := by
    intro σ hσ
    exact ⟨_, _, h1.sound σ (fun k hk => hσ k (by simp [hk])), h2.sound σ (fun k hk => hσ k (by simp [hk])), List.map_append⟩
  complete := by
    rintro σ w ⟨a, b, ha, hb, rfl⟩
    obtain ⟨τ, t1, t2, t3⟩ := h1.complete σ a ha
    rw [← val_agree hn t1] at hb
    obtain ⟨ρ, r1, r2, r3⟩ := h2.complete τ b hb
    refine ⟨ρ, fun x hx => ?_, ?_, ?_⟩
    · rw [r1 x (Nat.lt_of_lt_of_le hx h1.le), t1 x hx]
    · rw [List.map_append, r2, map_agree r1 h1.bnd, t2]
    · intro k hk
      rcases List.mem_append.mp hk with hk | hk
      · exact ok_agree r1 (h1.inps k hk) (fun x hx => (h1.outs k hk x hx).2) (t3 k hk)
      · exact r3 k hk

/-- A named vector as operand. -/
theorem good_name (look : String → List Nat) (s : String) (next n : Nat) (hn : Named look next) (hl : (look s).length = n) :
    Good look (fun v w => w = v s) n next next (look s) [] where
  le := Nat.le_refl _
  len := hl
  bnd := hn s
  inps := by simp
  outs := by simp
  nodup := by simp
  delay := by simp
  proper := by simp
  sound := by intro σ _; rfl
  complete := by rintro σ w rfl; exact ⟨σ, by simp [val]⟩

/-- A temporary vector as operand. -/
theorem good_temp {look : String → List Nat} {P} {next next' sz : Nat} {c : Net} (hn : Named look next)
    (hP : ∀ σ w, P (val look σ) w → w.length = sz) (h : Top look P (next + sz) next' (List.range' next sz) false c) :
    Good look P sz next next' (List.range' next sz) c where
  le := by have := h.le; omega
  len := List.length_range'
  bnd := by
    intro x hx
    simp only [List.mem_range'_1] at hx
    have := h.le
    omega
  inps := h.inps
  outs := by
    intro k hk x hx
    have := h.le
    rcases h.outs k hk x hx with hx | hx
    · simp only [List.mem_range'_1] at hx; omega
    · omega
  nodup := h.nodup List.nodup_range'
  delay := by
    intro k hk
    cases hd : k.delay with
    | false => rfl
    | true => exact absurd (h.delay k hk hd).1 (by simp)
  proper := h.proper
  sound := by
    intro σ hσ
    exact h.sound σ σ (fun _ => rfl) (fun k hk => by simpa using hσ k hk)
  complete := by
    intro σ w hw
    have hl := hP σ w hw
    have hagree : ∀ x < next, (fun x => if next ≤ x then w.getD (x - next) false else σ x) x = σ x := by
      intro x hx; simp only; rw [if_neg (by omega)]
    have hmap : (List.range' next sz).map (fun x => if next ≤ x then w.getD (x - next) false else σ x) = w := by
      apply List.ext_getElem
      · simp [hl]
      · intro i h1 h2
        simp only [List.getElem_map, List.getElem_range']
        rw [if_pos (by omega), show next + 1 * i - next = i by omega, List.getD_eq_getElem?_getD, List.getElem?_eq_getElem h2]
        rfl
    rw [← val_agree hn hagree] at hw
    have hw2 : P (val look fun x => if next ≤ x then w.getD (x - next) false else σ x)
        ((List.range' next sz).map fun x => if next ≤ x then w.getD (x - next) false else σ x) := by rw [hmap]; exact hw
    obtain ⟨τ, t1, t2⟩ := h.complete _ _ (fun _ => rfl) hw2
    refine ⟨τ, fun x hx => ?_, ?_, ?_⟩
    · exact (t1 x (by omega)).trans (hagree x hx)
    · rw [map_agree t1 (by intro x hx; simp only [List.mem_range'_1] at hx; omega), hmap]
    · intro k hk
      have hd : k.delay = false := by
        cases hd : k.delay with
        | false => rfl
        | true => exact absurd (h.delay k hk hd).1 (by simp)
      have := t2 k hk
      rwa [if_neg (by simp [hd])] at this

/-- The component for an operator, before those of its operands. -/
theorem top_push {look : String → List Nat} {P Q} {m next next' : Nat} {i outs : List Nat} {c : Net} {p : Prim} {size : Nat} {pdel : Bool}
    (ho : ∀ x ∈ outs, x < next) (hg : Good look P m next next' i c)
    (hq : ∀ σ w, Q (val look σ) w ↔ ∃ u, P (val look σ) u ∧ List.Forall₂ Possible (wordOp p size u) w)
    (hp : p.inputs size ≤ m) (hs : outs.length = size) (hsh : Shape size p) :
    Top look Q next next' outs pdel (⟨p, size, i, outs, pdel, 0⟩ :: c) where
  le := hg.le
  inps := by
    intro k hk x hx
    rcases List.mem_cons.mp hk with rfl | hk
    · exact hg.bnd x hx
    · exact hg.inps k hk x hx
  outs := by
    intro k hk x hx
    rcases List.mem_cons.mp hk with rfl | hk
    · exact .inl hx
    · exact .inr (hg.outs k hk x hx)
  nodup := by
    intro hd
    rw [List.flatMap_cons, List.nodup_append]
    refine ⟨hd, hg.nodup, ?_⟩
    intro a ha b hb hab
    obtain ⟨k, hk, hkb⟩ := List.mem_flatMap.mp hb
    have := ho a ha
    have := (hg.outs k hk b hkb).1
    omega
  all := by
    intro x hx
    rw [List.flatMap_cons]
    exact List.mem_append_left _ hx
  delay := by
    intro k hk hd
    rcases List.mem_cons.mp hk with rfl | hk
    · exact ⟨hd, rfl⟩
    · rw [hg.delay k hk] at hd; exact absurd hd (by simp)
  proper := by
    intro k hk
    rcases List.mem_cons.mp hk with rfl | hk
    · exact ⟨by simp only [hg.len]; exact hp, hs, hsh⟩
    · exact hg.proper k hk
  sound := by
    intro σ σ' hσ hk
    rw [hq]
    refine ⟨i.map σ, hg.sound σ (fun k h => ?_), ?_⟩
    · have := hk k (by simp [h])
      rwa [hg.delay k h] at this
    · have := hk _ (List.mem_cons_self ..)
      simp only [Ok] at this
      cases pdel with
      | false => rw [hσ rfl] at *; simpa using this
      | true => simpa using this
  complete := by
    intro σ σ' hσ hw
    rw [hq] at hw
    obtain ⟨u, hu, hf⟩ := hw
    obtain ⟨τ, t1, t2, t3⟩ := hg.complete σ u hu
    refine ⟨τ, t1, fun k hk => ?_⟩
    rcases List.mem_cons.mp hk with rfl | hk
    · simp only [Ok, t2]
      cases pdel with
      | false => rw [hσ rfl] at hf; simpa [map_agree t1 ho] using hf
      | true => simpa using hf
    · rw [hg.delay k hk]
      simpa using t3 k hk

end Voss.Comp
