import Verif.Bexpr.SaveLemmas
import Mathlib.Tactic.DeriveEncodable
import Mathlib.Logic.Equiv.List
import Mathlib.Data.Finset.Basic
import Mathlib.Data.Finset.Card
/- Instances that meet the assumptions: a solver that tries all assignments, and BDD handles that are codes of formulas. -/
namespace Voss.Bexpr

/-! ### A solver -/

def satB (σ : Nat → Bool) (cs : List Clause) (as : List SLit) : Bool :=
  cs.all (fun c => c.any fun a => a.holds σ) && as.all fun a => a.holds σ

theorem satB_iff (σ : Nat → Bool) (cs : List Clause) (as : List SLit) : satB σ cs as = true ↔ Sat σ cs as := by
  simp [satB, Sat, Clause.holds]

def allLists : Nat → List (List Bool)
  | 0 => [[]]
  | n + 1 => (allLists n).flatMap fun l => [false :: l, true :: l]

theorem mem_allLists : ∀ l : List Bool, l ∈ allLists l.length := by
  intro l
  induction l with
  | nil => simp [allLists]
  | cons b l ih =>
    simp only [List.length_cons, allLists, List.mem_flatMap]
    exact ⟨l, ih, by cases b <;> simp⟩

def asgOf (l : List Bool) (v : Nat) : Bool := (l[v]?).getD false

/-- The largest variable. -/
def maxVar (cs : List Clause) (as : List SLit) : Nat := (cs.flatten ++ as).foldl (fun m a => max m a.var) 0

theorem foldl_max_le (as : List SLit) : ∀ m, m ≤ as.foldl (fun m a => max m a.var) m ∧
    ∀ a ∈ as, a.var ≤ as.foldl (fun m a => max m a.var) m := by
  induction as with
  | nil => intro m; simp
  | cons a as ih =>
    intro m
    obtain ⟨h1, h2⟩ := ih (max m a.var)
    simp only [List.foldl_cons]
    refine ⟨by omega, fun b hb => ?_⟩
    rcases List.mem_cons.1 hb with rfl | hb
    · omega
    · exact h2 b hb

/-- Try everything. -/
def trySolve (_ : Nat) (cs : List Clause) (as : List SLit) : Ans :=
  match (allLists (maxVar cs as + 1)).find? fun l => satB (asgOf l) cs as with
  | some l => .sat (asgOf l)
  | none => .unsat

theorem trySolve_right {c : Cfg} (h : c.solve = trySolve) : RightAnswers c := by
  refine ⟨fun n cs as hs => ?_, fun n cs as σ hs => ?_⟩
  · rw [h] at hs
    unfold trySolve at hs
    split at hs
    · cases hs
    · rename_i hn
      rintro ⟨σ, hσ⟩
      have hmem : (List.range (maxVar cs as + 1)).map σ ∈ allLists (maxVar cs as + 1) := by
        have := mem_allLists ((List.range (maxVar cs as + 1)).map σ)
        simpa using this
      have := List.find?_eq_none.1 hn _ hmem
      apply this
      rw [satB_iff]
      have hv : ∀ a : SLit, a.var ≤ maxVar cs as → a.holds (asgOf ((List.range (maxVar cs as + 1)).map σ)) = a.holds σ := by
        intro a ha
        unfold SLit.holds asgOf
        rw [List.getElem?_map, List.getElem?_range (by omega)]
        rfl
      have hle := (foldl_max_le (cs.flatten ++ as) 0).2
      refine ⟨fun cl hcl => ?_, fun a ha => ?_⟩
      · obtain ⟨a, ha, hh⟩ := hσ.1 cl hcl
        refine ⟨a, ha, ?_⟩
        rw [hv a (hle a (List.mem_append.2 (.inl (List.mem_flatten.2 ⟨cl, hcl, ha⟩))))]
        exact hh
      · rw [hv a (hle a (List.mem_append.2 (.inr ha)))]
        exact hσ.2 a ha
  · rw [h] at hs
    unfold trySolve at hs
    split at hs
    · rename_i l hl
      cases hs
      have := List.find?_some hl
      exact (satB_iff _ _ _).1 this
    · cases hs

/-- Merging on, with the exhaustive solver. -/
def cfg0 : Cfg := { reorder := false, redundant := false, satLimit := 1, solve := trySolve }

theorem cfg0_right : RightAnswers cfg0 := trySolve_right rfl

/-! ### BDDs -/

/-- Formulas; the names as lists of numbers. -/
inductive Fm where
  | zero | one
  | var (n : List Nat)
  | not (f : Fm)
  | and (f g : Fm)
  deriving Encodable

def fromNats (l : List Nat) : Name := l.map (BitVec.ofNat 8)
def toNats (n : Name) : List Nat := n.map BitVec.toNat

theorem from_to (n : Name) : fromNats (toNats n) = n := by
  unfold fromNats toNats
  rw [List.map_map]
  conv => rhs; rw [← List.map_id n]
  refine List.map_congr_left fun b _ => ?_
  simp

def Fm.eval : Fm → Fn
  | .zero, _ => false
  | .one, _ => true
  | .var n, ρ => ρ (fromNats n)
  | .not f, ρ => !f.eval ρ
  | .and f g, ρ => f.eval ρ && g.eval ρ

def toFm (b : Nat) : Fm := (Encodable.decode b).getD .zero

@[simp] theorem toFm_encode (f : Fm) : toFm (Encodable.encode f) = f := by simp [toFm]

def zeroC : Nat := Encodable.encode Fm.zero
def oneC : Nat := Encodable.encode Fm.one

def fmNot (b : Nat) : Nat :=
  if b = oneC then zeroC else if b = zeroC then oneC else Encodable.encode (Fm.not (toFm b))

def fmOps : BddOps :=
  { zero := zeroC, one := oneC, not := fmNot, and := fun a b => Encodable.encode (Fm.and (toFm a) (toFm b)),
    var := fun n => Encodable.encode (Fm.var (toNats n)) }

def fmDen (b : Nat) : Fn := (toFm b).eval

theorem fm_right : BddRight fmOps fmDen := by
  refine ⟨fun ρ => by simp [fmDen, fmOps, zeroC, Fm.eval], fun ρ => by simp [fmDen, fmOps, oneC, Fm.eval], ?_, ?_, ?_⟩
  · intro b ρ
    show (toFm (fmNot b)).eval ρ = _
    unfold fmNot fmDen
    split
    · rename_i h; subst h; simp [zeroC, oneC, Fm.eval]
    split
    · rename_i h; subst h; simp [zeroC, oneC, Fm.eval]
    · simp [Fm.eval]
  · intro a b ρ; simp [fmDen, fmOps, Fm.eval]
  · intro n ρ; simp [fmDen, fmOps, Fm.eval, from_to]

/-- Variables, and replacing one by a constant. -/
def Fm.vars : Fm → Finset Name
  | .zero => ∅
  | .one => ∅
  | .var n => {fromNats n}
  | .not f => f.vars
  | .and f g => f.vars ∪ g.vars

def Fm.cof (v : Name) (b : Bool) : Fm → Fm
  | .zero => .zero
  | .one => .one
  | .var n => if fromNats n = v then (if b then .one else .zero) else .var n
  | .not f => .not (f.cof v b)
  | .and f g => .and (f.cof v b) (g.cof v b)

theorem Fm.cof_vars (v : Name) (b : Bool) (f : Fm) : (f.cof v b).vars ⊆ f.vars.erase v := by
  induction f with
  | zero => simp [cof, vars]
  | one => simp [cof, vars]
  | var n =>
    simp only [cof]
    split
    · cases b <;> simp [vars]
    · rename_i h; simp [vars, Ne.symm h]
  | not f ih => exact ih
  | and f g ih1 ih2 =>
    simp only [cof, vars, Finset.erase_union_distrib]
    exact Finset.union_subset_union ih1 ih2

theorem Fm.cof_eval (v : Name) (b : Bool) (f : Fm) (ρ : Env) (h : ρ v = b) : (f.cof v b).eval ρ = f.eval ρ := by
  induction f with
  | zero => rfl
  | one => rfl
  | var n =>
    simp only [cof]
    split
    · rename_i hn
      simp only [eval, hn, h]
      cases b <;> rfl
    · rfl
  | not f ih => simp [cof, eval, ih]
  | and f g ih1 ih2 => simp [cof, eval, ih1, ih2]

theorem Fm.eval_closed (f : Fm) (h : f.vars = ∅) (ρ ρ' : Env) : f.eval ρ = f.eval ρ' := by
  induction f with
  | zero => rfl
  | one => rfl
  | var n => simp [vars] at h
  | not f ih => simp [eval, ih h]
  | and f g ih1 ih2 =>
    simp only [vars, Finset.union_eq_empty] at h
    simp [eval, ih1 h.1, ih2 h.2]

def fmDepth (b : Nat) : Nat := if b = oneC ∨ b = zeroC then 0 else (toFm b).vars.card + 1

/-- Some variable of the formula and the cofactors; a constant formula gets constants. -/
noncomputable def fmTop : TopCof := fun b =>
  open Classical in
  if b = oneC ∨ b = zeroC then none
  else if h : (toFm b).vars.Nonempty then
    some (h.choose, Encodable.encode ((toFm b).cof h.choose true), Encodable.encode ((toFm b).cof h.choose false))
  else
    let x := if fmDen b (fun _ => false) then oneC else zeroC
    some ([], x, x)

theorem one_ne_zeroC : oneC ≠ zeroC := by
  intro h
  have := congrArg toFm h
  simp [oneC, zeroC] at this

theorem fmDepth_le (b : Nat) : fmDepth b ≤ (toFm b).vars.card + 1 := by
  unfold fmDepth; split <;> omega

theorem fm_cof : CofRight fmOps fmDen fmTop fmDepth := by
  refine ⟨?_, ?_, ?_, ?_⟩
  · intro f h1 h2
    unfold fmTop
    rw [if_neg (fun h : f = oneC ∨ f = zeroC => h.elim h1 h2)]
    split
    · exact ⟨_, _, _, rfl⟩
    · exact ⟨_, _, _, rfl⟩
  · intro f v hi lo h ρ
    unfold fmTop at h
    split at h
    · cases h
    split at h
    · rename_i hne
      simp only [Option.some.injEq, Prod.mk.injEq] at h
      obtain ⟨rfl, rfl, rfl⟩ := h
      simp only [fmDen, toFm_encode]
      cases hv : ρ hne.choose with
      | true => simp [Fm.cof_eval _ true _ ρ hv]
      | false => simp [Fm.cof_eval _ false _ ρ hv]
    · rename_i hne
      rw [Finset.not_nonempty_iff_eq_empty] at hne
      simp only [Option.some.injEq, Prod.mk.injEq] at h
      obtain ⟨rfl, rfl, rfl⟩ := h
      simp only [fmDen, ite_self]
      rw [Fm.eval_closed _ hne ρ fun _ => false]
      have : ∀ b : Bool, b = (toFm (if b = true then oneC else zeroC)).eval ρ := by
        intro b
        cases b
        · simp [zeroC, Fm.eval]
        · simp [oneC, Fm.eval]
      exact this _
  · intro f v hi lo h
    unfold fmTop at h
    split at h
    · cases h
    rename_i hc0
    have hd : fmDepth f = (toFm f).vars.card + 1 := by
      unfold fmDepth
      rw [if_neg hc0]
    rw [hd]
    split at h
    · rename_i hne
      simp only [Option.some.injEq, Prod.mk.injEq] at h
      obtain ⟨rfl, rfl, rfl⟩ := h
      have hc : ∀ b, fmDepth (Encodable.encode ((toFm f).cof hne.choose b)) < (toFm f).vars.card + 1 := by
        intro b
        refine Nat.lt_of_le_of_lt (fmDepth_le _) ?_
        rw [toFm_encode]
        have h1 := Finset.card_le_card (Fm.cof_vars hne.choose b (toFm f))
        have h2 := Finset.card_erase_lt_of_mem hne.choose_spec
        omega
      exact ⟨hc true, hc false⟩
    · simp only [Option.some.injEq, Prod.mk.injEq] at h
      obtain ⟨rfl, rfl, rfl⟩ := h
      have : fmDepth (if fmDen f (fun _ => false) = true then oneC else zeroC) = 0 := by
        unfold fmDepth
        rw [if_pos]
        split <;> simp
      rw [this]
      exact ⟨by omega, by omega⟩
  · intro f
    show fmDepth (fmNot f) = fmDepth f ∧ _
    by_cases h1 : f = oneC
    · subst h1
      refine ⟨?_, fun h => absurd rfl h⟩
      unfold fmNot fmDepth
      simp
    by_cases h2 : f = zeroC
    · subst h2
      refine ⟨?_, fun _ h => absurd rfl h⟩
      unfold fmNot fmDepth
      rw [if_neg h1]
      simp
    have hn : fmNot f = Encodable.encode (Fm.not (toFm f)) := by
      unfold fmNot; rw [if_neg h1, if_neg h2]
    have hno : fmNot f ≠ oneC := by
      rw [hn]; intro h
      have := congrArg toFm h
      simp [oneC] at this
    have hnz : fmNot f ≠ zeroC := by
      rw [hn]; intro h
      have := congrArg toFm h
      simp [zeroC] at this
    refine ⟨?_, fun _ _ => ⟨hno, hnz⟩⟩
    unfold fmDepth
    rw [if_neg (fun h : fmNot f = oneC ∨ fmNot f = zeroC => h.elim hno hnz),
      if_neg (fun h : f = oneC ∨ f = zeroC => h.elim h1 h2), hn, toFm_encode]
    rfl

end Voss.Bexpr
