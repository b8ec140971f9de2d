import Verif.Lst.Assoc
import Verif.Lst.Qsort
/-
Specification of the builtin list functions.
-/
namespace Voss.Lst

section
variable {α β σ : Type}

/-- Integers an `int` can hold. -/
def InInt (z : Int) : Prop := -2147483648 ≤ z ∧ z < 2147483648

/-- What a comparison has to be. -/
structure Equiv (eq : α → α → Bool) : Prop where
  refl : ∀ a, eq a a = true
  symm : ∀ a b, eq a b = true → eq b a = true
  trans : ∀ a b c, eq a b = true → eq b c = true → eq a c = true

/-- The element is in the list, up to `eq`. -/
def In (eq : α → α → Bool) (x : α) (l : List α) : Prop := ∃ y ∈ l, eq x y = true

/-- Each element once, where it first occurs. -/
def firsts (eq : α → α → Bool) : List α → List α
  | [] => []
  | x :: t => x :: (firsts eq t).filter (fun y => !eq y x)

/-- No two elements are equal. -/
def NoDup (eq : α → α → Bool) (l : List α) : Prop := l.Pairwise (fun x y => eq x y = false)

/-- The elements, each in the class of those with an equal value; classes and elements in the order of the
list. -/
def classes (eq : β → β → Bool) (g : α → β) (l : List α) : List (List α) :=
  (firsts eq (l.map g)).map (fun v => l.filter (fun e => eq v (g e)))

/-- The elements at the other positions. -/
def others (l : List α) (is : List Int) : List α :=
  l.zipIdx.filterMap (fun x => if (x.2 : Int) + 1 ∈ is then none else some x.1)

/-- The predicate says yes or no. -/
def Decided (p : α → PRes) (e : α) : Prop := p e = .one ∨ p e = .zero

/-- Yes. -/
def yes (p : α → PRes) (e : α) : Bool := p e == .one

/-- The failure of a predicate that does not say yes or no. -/
def bad : PRes → Res β
  | .fail m => .fail m
  | _ => .own

/-- Going along the list at node `s`, after the elements `l` one is at node `t`. -/
inductive Walk (heap : σ → Cell α σ) : σ → List α → σ → Prop where
  | here (s : σ) : Walk heap s [] s
  | next {s t u : σ} {a : α} {l : List α} : heap s = .cons a t → Walk heap t l u → Walk heap s (a :: l) u

/-- The node is not a failure. -/
def Good (heap : σ → Cell α σ) (s : σ) : Prop := ∀ m, heap s ≠ .fail m

/-- The list at node `s` has the elements `l`. -/
def Holds (heap : σ → Cell α σ) (s : σ) (l : List α) : Prop := ∃ t, Walk heap s l t ∧ heap t = .nil

/-- The value of the first pair whose key is equal. -/
def assocSpec (eq : α → α → Bool) (get : α → α × α) (key : α) (l : List α) : Res α :=
  match l.find? (fun e => eq key (get e).1) with
  | some e => .ok (get e).2
  | none => .own

/-- What a call has to give. -/
inductive Right (eq : α → α → Bool) (pair : α → α × α) (heap : σ → Cell α σ) : Call α σ → Res (Val α) → Prop where
  | assoc {key : α} {s : σ} {l : List α} : Holds heap s l →
      Right eq pair heap (.assoc key s) ((assocSpec eq pair key l).map .elem)
  | rassoc {key : α} {s : σ} {l : List α} : Holds heap s l →
      Right eq pair heap (.rassoc key s) ((assocSpec eq (fun e => ((pair e).2, (pair e).1)) key l).map .elem)
  | mem {key : α} {s : σ} {l : List α} : Holds heap s l →
      Right eq pair heap (.mem key s) (.ok (.bool (l.any (fun e => eq key e))))
  /-- Position `i`, from 1; the node after the element must not be a failure. -/
  | el {i : Int} {s t : σ} {l : List α} {e : α} : Walk heap s (l ++ [e]) t → Good heap t → i = l.length + 1 →
      Right eq pair heap (.el i s) (.ok (.elem e))
  /-- A failure in the list up to there. -/
  | elFail {i : Int} {s t : σ} {l : List α} {m : String} : Walk heap s l t → heap t = .fail m → l.length ≤ i →
      Right eq pair heap (.el i s) (.fail m)
  /-- The list is too short. -/
  | elShort {i : Int} {s : σ} {l : List α} : Holds heap s l → l.length < i → Right eq pair heap (.el i s) .own
  | elNeg {i : Int} {s : σ} : i ≤ 0 → Right eq pair heap (.el i s) .own

/-- The calls the program can make: the arguments of `assoc`, `rev_assoc` and `mem` have been evaluated, and
are lists of at most `n` elements; that of `el` is a list. -/
def Sensible (heap : σ → Cell α σ) (n : Nat) : Call α σ → Prop
  | .assoc _ s => ∃ l, Holds heap s l ∧ l.length < n
  | .rassoc _ s => ∃ l, Holds heap s l ∧ l.length < n
  | .mem _ s => ∃ l, Holds heap s l ∧ l.length < n
  | .el i s => InInt i ∧ i < n ∧ Good heap s

/-- What happens: calls, and collections after which memory that was not in use has other contents. -/
inductive Event (α σ : Type) where
  | call (c : Call α σ)
  | collect (dead : σ → Bool) (heap' : σ → Cell α σ)

/-- There is a table for the list. -/
def Tbls.HasRec (T : Tbls α σ) (s : σ) : Prop :=
  T.assoc s ≠ none ∨ T.rassoc s ≠ none ∨ T.mem s ≠ none ∨ T.el s ≠ none

/-- A collection keeps the nodes of the lists that are in use; those with a table are, or are declared
dead. -/
def Event.Legal (n : Nat) (heap : σ → Cell α σ) (T : Tbls α σ) : Event α σ → Prop
  | .call c => Sensible heap n c
  | .collect dead heap' => ∀ s, T.HasRec s → dead s = false → ∀ l t, Walk heap s l t → heap' t = heap t

/-- A session: each call with the heap at its time and its result. -/
inductive Session [DecidableEq σ] (eq : α → α → Bool) (pair : α → α × α) (n : Nat) :
    (σ → Cell α σ) → Tbls α σ → List ((σ → Cell α σ) × Call α σ × Res (Val α)) → Prop where
  | start (heap : σ → Cell α σ) : Session eq pair n heap Tbls.init []
  | call {heap : σ → Cell α σ} {T : Tbls α σ} {log : List ((σ → Cell α σ) × Call α σ × Res (Val α))} (c : Call α σ) :
      Session eq pair n heap T log → (Event.call c).Legal n heap T →
      Session eq pair n heap (call eq pair heap n T c).1 (log ++ [(heap, c, (call eq pair heap n T c).2)])
  | collect {heap : σ → Cell α σ} {T : Tbls α σ} {log : List ((σ → Cell α σ) × Call α σ × Res (Val α))} (dead : σ → Bool)
      (heap' : σ → Cell α σ) :
      Session eq pair n heap T log → (Event.collect dead heap').Legal n heap T →
      Session eq pair n heap' (gc dead T) log

/-! ### Sorting -/

/-- A comparison of positions: antisymmetric in its sign, and transitive. -/
structure Order {γ : Type} (c : γ → γ → Int) : Prop where
  anti : ∀ i j, sgn (c i j) = - sgn (c j i)
  trans : ∀ i j k, c i j ≤ 0 → c j k ≤ 0 → c i k ≤ 0

/-- The comparison is consistent on the elements of the list. -/
structure OrderOn (l : List α) (c : α → α → Int) : Prop where
  anti : ∀ a ∈ l, ∀ b ∈ l, sgn (c a b) = - sgn (c b a)
  trans : ∀ a ∈ l, ∀ b ∈ l, ∀ d ∈ l, c a b ≤ 0 → c b d ≤ 0 → c a d ≤ 0

/-- The result of a tree of comparisons for given outcomes. -/
def Strat.eval (c : Nat → Nat → Int) : Strat → List Nat
  | .done out => out
  | .ask i j k => (k (sgn (c i j))).eval c

/-- The tree compares existing elements only. -/
def Strat.Within (n : Nat) : Strat → Prop
  | .done _ => True
  | .ask i j k => i < n ∧ j < n ∧ ∀ z, (k z).Within n

/-- What the C standard says about `qsort`: for a consistent comparison the result has all elements, in
ascending order. -/
structure SortOk (alg : Nat → Strat) : Prop where
  within : ∀ n, (alg n).Within n
  perm : ∀ n c, Order c → ((alg n).eval c).Perm (List.range n)
  sorted : ∀ n c, Order c → ((alg n).eval c).Pairwise (fun i j => c i j ≤ 0)

end
end Voss.Lst
