import Verif.Scope.Model

/-!
# What the guide says about abstract types

A session is a nesting of scopes.  A scope is the list of the definitions made in it, the newest
first; a definition is a name and a number.  A name means its newest definition in the innermost
scope that defines it.  `end_abstype` closes the innermost scope: of its definitions only those
remain, in the enclosing scope, that are exported one by one (`export`) or that are the newest ones
of the listed names.
-/

namespace Voss.Scope.Spec

open Voss.Scope

/-- The definitions of one scope. -/
abbrev Frame := List (Name × Nat)

structure Env where
  /-- the open scopes, the innermost first -/
  scopes : List Frame
  /-- definitions that are exported -/
  exported : List Nat
  /-- definitions that are declared and not yet made -/
  pending : List Nat
  /-- the number of the next definition -/
  next : Nat
deriving DecidableEq, Repr

/-- The newest definition of a name in a list. -/
def newest (f : Frame) (n : Name) : Option Nat := (f.find? (fun p => p.1 = n)).map (·.2)

/-- What a name means. -/
def Env.meaning (e : Env) (n : Name) : Option Nat := newest e.scopes.flatten n

/-- What remains of a scope. -/
def remaining (exported : List Nat) : List Name → Frame → Frame
  | _, [] => []
  | ks, (n, i) :: f =>
    if i ∈ exported ∨ n ∈ ks then (n, i) :: remaining exported (ks.filter (fun k => k ≠ n)) f
    else remaining exported ks f

/-- A new definition in the innermost scope. -/
def Env.add (e : Env) (n : Name) : Env :=
  { e with
    scopes := match e.scopes with
      | f :: fs => ((n, e.next) :: f) :: fs
      | [] => [[(n, e.next)]]
    next := e.next + 1 }

def start : Env := ⟨[[("//DuMmY", 0)]], [], [], 1⟩

def define (e : Env) (n : Name) : Env :=
  match e.meaning n with
  | some i => if i ∈ e.pending then { e with pending := e.pending.filter (fun j => j ≠ i) }
              else e.add n
  | none => e.add n

def step (e : Env) : Op → Env
  | .define n => define e n
  | .overload n => e.add n
  | .forward n => { e.add n with pending := e.next :: e.pending }
  | .types cs fs => (cs ++ fs).foldl Env.add e
  | .exp n =>
    match e.meaning n with
    | some i => { e with exported := i :: e.exported }
    | none => e
  | .opens => { e with scopes := [] :: e.scopes }
  | .closes ks =>
    match e.scopes with
    | f :: g :: fs =>
      -- a list with a name that is not defined is refused
      if ks.any (fun k => (e.meaning k).isNone) then e
      else { e with scopes := (remaining e.exported ks f ++ g) :: fs }
    | _ => e

def run (h : List Op) : Env := h.foldl step start

/-! ### The sessions for which the program does this -/

/-- What the condition below has to remember: for each open scope the names of which the newest
definition made in it, or in scopes inside it, is hidden; and the names that have come into a scope by
`end_abstype` while the scope had a definition of the name. -/
structure Ghost where
  hidden : List (List Name)
  doubled : List Name
deriving DecidableEq, Repr

/-- A new definition of a name is not hidden. -/
def Ghost.defined (g : Ghost) (n : Name) : Ghost :=
  { g with hidden := match g.hidden with
      | h :: hs => h.filter (fun m => m ≠ n) :: hs
      | [] => [] }

/-- Whether a statement is one that the program executes as it should. -/
def fine (e : Env) (g : Ghost) : Op → Bool
  -- a name is not exported between its declaration and its definition
  | .define n =>
    match e.meaning n with
    | some i => !(decide (i ∈ e.pending) && decide (i ∈ e.exported))
    | none => true
  -- types are declared outside of abstract types, and their names are not doubled
  | .types cs fs => decide (e.scopes.length = 1) && (cs ++ fs).all (fun n => n ∉ g.doubled)
  -- the list of an end_abstype has only names that are defined, that are not exported one by one,
  -- of which no newer definition is hidden in a scope inside; no two definitions of one name remain
  | .closes ks =>
    match e.scopes, g.hidden with
    | f :: _ :: _, h :: _ =>
      ks.all (fun k => (e.meaning k).isSome && decide (k ∉ h)
        && f.all (fun p => !(decide (p.1 = k) && decide (p.2 ∈ e.exported))))
      && decide ((remaining e.exported ks f).map (·.1)).Nodup
    | _, _ => true
  | _ => true

/-- The names whose newest definition is hidden after a statement, and the doubled names. -/
def Ghost.step (e : Env) (g : Ghost) : Op → Ghost
  | .define n =>
    match e.meaning n with
    | some i => if i ∈ e.pending then g else g.defined n
    | none => g.defined n
  | .overload n => g.defined n
  | .forward n => g.defined n
  | .opens => { g with hidden := [] :: g.hidden }
  | .closes ks =>
    match e.scopes, g.hidden with
    | f :: p :: _, h :: hp :: hs =>
      let r := remaining e.exported ks f
      let shown := fun n => decide (n ∉ h) && (match newest f n with
        | some i => decide ((n, i) ∈ r)
        | none => false)
      { hidden := (f.map (·.1) ++ h ++ hp).filter (fun n => !shown n) :: hs
        doubled := g.doubled ++ (r.map (·.1)).filter (fun n => (newest p n).isSome) }
    | _, _ => g
  | _ => g

/-- All statements of a session are fine. -/
def fineFrom (e : Env) (g : Ghost) : List Op → Bool
  | [] => true
  | o :: os => fine e g o && fineFrom (step e o) (g.step e o) os

/-- The condition on sessions. -/
def Fine (h : List Op) : Prop := fineFrom start ⟨[[]], []⟩ h = true

instance (h : List Op) : Decidable (Fine h) := inferInstanceAs (Decidable (_ = true))

end Voss.Scope.Spec
