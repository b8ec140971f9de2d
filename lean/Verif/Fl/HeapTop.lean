import Verif.Fl.HeapRun
import Verif.Fl.Compile
import Verif.Fl.Engeler
/-
The top level of fl, and a concrete instance of everything the reducer is parameterised by.
-/
namespace Voss.Fl

/-- A command: an expression, or a definition (language.y:420-455). -/
inductive Cmd where
  | expr (t : Term)
  | decl (x : Name) (t : Term)

/-- `it` (language.y). -/
def itName : Name := ['i', 't']

/-- A sequence of commands (language.y:420-455): a definition is compiled, with the names of earlier
definitions replaced by their nodes (`Replace_name`, symbol.c:1175-1199), and not evaluated; an expression
is compiled, evaluated (`Print_Result`) and gets the name `it`.  Gives the state and the node after each
evaluation.  Left out: an expression of type void gets no name; printing. -/
def session {B E : Type} [DecidableEq B] (bs : Bools B E) (ext : Ext B) (k : Nat) :
    List Cmd → (Name → Option Nat) → St B → Option (List (St B × Nat))
  | [], _, _ => some []
  | .decl x t :: cs, link, st =>
    match load bs link (compileTerm t) st with
    | none => none
    | some (st, n) => session bs ext k cs (fun y => if y = x then some n else link y) st
  | .expr t :: cs, link, st =>
    match evaluate bs ext k link (compileTerm t) st with
    | none => none
    | some (st, n) =>
      match session bs ext k cs (fun y => if y = itName then some n else link y) st with
      | none => none
      | some rs => some ((st, n) :: rs)

/-- The heap with Boolean functions for some names. -/
def start {B E : Type} (bs : Bools B E) (fs : List (Name × B)) : St B :=
  ⟨fs.map fun p => ⟨.bool p.2, true⟩, bs.one, false⟩

/-- Where the names are. -/
def startLink {B : Type} : List (Name × B) → Nat → Name → Option Nat
  | [], _, _ => none
  | (x, _) :: fs, i, y => if y = x then some i else startLink fs (i + 1) y

/-- What the expressions among the commands can mean in the environment `ρ`: call-by-name lambda calculus,
each name standing for its latest definition. -/
def Means {D : Type} (A : Alg D) : List Cmd → Env D → List D → Prop
  | [], _, ds => ds = []
  | .decl x t :: cs, ρ, ds => ∃ d, Val A t.plain ρ [] d ∧ Means A cs (ρ.set x d) ds
  | .expr t :: cs, ρ, ds => ∃ d ds', ds = d :: ds' ∧ Val A t.plain ρ [] d ∧ Means A cs (ρ.set itName d) ds'

/-- The results, read back for the assignment `e`, are the values. -/
def Shows {B E D : Type} (A : Alg D) (bs : Bools B E) (e : E) : List (St B × Nat) → List D → Prop
  | [], [] => True
  | (st, n) :: rs, d :: ds => (∀ x, Reads bs st e n x → d = x.val A) ∧ Shows A bs e rs ds
  | _, _ => False

/-! ### A concrete instance -/

/-- Boolean functions of three variables as truth tables. -/
def tables : Bools (BitVec 8) (Fin 8) where
  one := BitVec.allOnes 8
  zero := 0#8
  and f g := f &&& g
  or f g := f ||| g
  not f := ~~~ f
  xnor f g := ~~~ (f ^^^ g)
  sat f e := f.getLsbD e
  sat_one e := by revert e; decide
  sat_zero e := by simp
  sat_and f g e := by simp
  sat_or f g e := by simp
  sat_not f e := by simp
  sat_xnor f g e := by simp; cases f.getLsbD e <;> cases g.getLsbD e <;> rfl

/-- Addition and conjunction. -/
def sample : Ext (BitVec 8) where
  arity p := if p ≤ 1 then 2 else 0
  run
    | 0, [.int a, .int b] => some (.int (a + b))
    | 1, [.bool f, .bool g] => some (.bool (f &&& g))
    | _, _ => none

namespace Engeler

theorem lam_proper (f : D → D) : ¬ lam f .pf := by
  intro h
  simp [lam] at h

theorem ops : Ops alg data tables sample where
  equal_bool a b := by
    rw [bool_eq, bool_eq, bool_eq]
    show app (app (con .equal) _) _ = _
    simp only [con]
    rw [beta, beta, op2_one] <;> try cont
    exact fun t => Iff.rfl
  proper_part c ds hc hl := by
    have hl : ds.length < arity sample.arity c := hl
    show ¬ (alg.apps (con c) ds) .pf
    rcases c with _ | _ | _ | _ | _ | _ | _ | _ | _ | _ | _ | _ | _ | _ | _ | _ | _ | _ | _ | _ | _ | _ | _ | _ | _ | _ |
      _ | _ | _ | _ | _ | _ | _ | (_ | _ | p) <;>
    rcases ds with _ | ⟨a, _ | ⟨b, _ | ⟨d, _ | ⟨_, _⟩⟩⟩⟩ <;>
    first
    | (exfalso; revert hl; simp [arity, sample]; done)
    | exact absurd rfl hc
    | (exfalso; revert hl; simp [arity, sample]; omega)
    | (show ¬ con _ .pf
       simp only [con]
       exact lam_proper _)
    | (show ¬ app (con _) _ .pf
       simp only [con]
       rw [beta] <;> first | exact lam_proper _ | (unfold cond pcatch when pair; cont) | cont)
    | (show ¬ app (app (con _) _) _ .pf
       simp only [con]
       rw [beta, beta] <;> first | exact lam_proper _ | (unfold cond when; cont) | cont)
    | (show ¬ app (app (app (con _) _) _) _ .pf
       simp only [con]
       rw [beta, beta, beta] <;> first | exact lam_proper _ | cont)
  run p ss s e hl h := by
    rcases p with _ | _ | p
    · match ss, h with
      | [.int a, .int b], h =>
        cases h
        show app (app (con (.prim 0)) (con (.int a))) (con (.int b)) = con (.int (a + b))
        simp only [con]
        rw [beta, beta, op2_one] <;> try cont
        exact fun t => Iff.rfl
    · match ss, h with
      | [.bool f, .bool g], h =>
        cases h
        show app (app (con (.prim 1)) (alg.bool _)) (alg.bool _) = alg.bool (tables.sat (tables.and f g) e)
        rw [bool_eq, bool_eq, bool_eq, tables.sat_and]
        simp only [con]
        rw [beta, beta, op2_one] <;> try cont
        exact fun t => Iff.rfl
    · cases h
end Engeler

end Voss.Fl
