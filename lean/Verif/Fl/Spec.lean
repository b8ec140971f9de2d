import Verif.Fl.Term
/-
What terms and combinator code mean, independently of the compiler.
-/
namespace Voss.Fl

/-- A combinatory algebra with the combinators of the reducer: what the constants mean, and the laws that
the rewrite rules drawn in graph.c:3114-3455 state.  Every model of the language is one. -/
structure Alg (D : Type) where
  app : D → D → D
  con : Con → D
  law_S : ∀ f g x, app (app (app (con .S) f) g) x = app (app f x) (app g x)
  law_S' : ∀ m n o p, app (app (app (app (con .S') m) n) o) p = app (app m (app n p)) (app o p)
  law_K : ∀ x y, app (app (con .K) x) y = x
  law_I : ∀ x, app (con .I) x = x
  law_C : ∀ f x y, app (app (app (con .C) f) x) y = app (app f y) x
  law_C' : ∀ m n o p, app (app (app (app (con .C') m) n) o) p = app (app m (app n p)) o
  law_B : ∀ f g x, app (app (app (con .B) f) g) x = app f (app g x)
  law_Bstar : ∀ c f g x, app (app (app (app (con .Bstar) c) f) g) x = app c (app f (app g x))
  law_B' : ∀ c f g x, app (app (app (app (con .B') c) f) g) x = app (app c f) (app g x)
  law_Y : ∀ f, app (con .Y) f = app f (app (con .Y) f)

/-- The value of a Boolean constant. -/
def Alg.bool {D : Type} (A : Alg D) (b : Bool) : D := A.con (if b then .tt else .ff)

/-- The primitive functions that pattern matching uses.  A list cell and a pair are the same kind of node
(graph.c:3636-3648).  `proper` are the values that are no pattern match failure. -/
structure Data {D : Type} (A : Alg D) where
  proper : D → Prop
  cond_bool : ∀ b x y, A.app (A.app (A.app (A.con .cond) (A.bool b)) x) y = if b then x else y
  equal_int : ∀ m n, A.app (A.app (A.con .equal) (A.con (.int m))) (A.con (.int n)) = A.bool (decide (m = n))
  constrEq_str : ∀ s t, A.app (A.app (A.con .constrEq) (A.con (.str s))) (A.con (.str t)) = A.bool (decide (s = t))
  constrEq_pair : ∀ x y t,
    A.app (A.app (A.con .constrEq) (A.app (A.app (A.con .cons) x) y)) (A.con (.str t)) = A.bool false
  identical_bool : ∀ a b, A.app (A.app (A.con .identical) (A.bool a)) (A.bool b) = A.bool (a == b)
  tuple_cons : ∀ x y, A.app (A.app (A.con .tuple) x) y = A.app (A.app (A.con .cons) x) y
  empty_nil : A.app (A.con .empty) (A.con .nil) = A.bool true
  empty_cons : ∀ x y, A.app (A.con .empty) (A.app (A.app (A.con .cons) x) y) = A.bool false
  isCons_nil : A.app (A.con .isCons) (A.con .nil) = A.bool false
  isCons_cons : ∀ x y, A.app (A.con .isCons) (A.app (A.app (A.con .cons) x) y) = A.bool true
  isTuple_str : ∀ s, A.app (A.con .isTuple) (A.con (.str s)) = A.bool false
  isTuple_cons : ∀ x y, A.app (A.con .isTuple) (A.app (A.app (A.con .cons) x) y) = A.bool true
  head_cons : ∀ x y, A.app (A.con .head) (A.app (A.app (A.con .cons) x) y) = x
  tail_cons : ∀ x y, A.app (A.con .tail) (A.app (A.app (A.con .cons) x) y) = y
  fst_cons : ∀ x y, A.app (A.con .fst) (A.app (A.app (A.con .cons) x) y) = x
  snd_cons : ∀ x y, A.app (A.con .snd) (A.app (A.app (A.con .cons) x) y) = y
  pcatch_pfail : ∀ y, A.app (A.app (A.con .pcatch) (A.con .pfail)) y = y
  pcatch_proper : ∀ x y, proper x → A.app (A.app (A.con .pcatch) x) y = x
  namedArg : ∀ x y z, A.app (A.app (A.app (A.con .namedArg) x) y) z = x
  seq : ∀ x y, A.app (A.app (A.con .seq) x) y = y
  proper_int : ∀ n, proper (A.con (.int n))
  proper_str : ∀ s, proper (A.con (.str s))
  proper_bool : ∀ b, proper (A.bool b)
  proper_nil : proper (A.con .nil)
  proper_cons : ∀ x y, proper (A.app (A.app (A.con .cons) x) y)

/-- Environments. -/
abbrev Env (D : Type) := Name → D

def Env.set {D : Type} (ρ : Env D) (x : Name) (d : D) : Env D := fun y => if y = x then d else ρ y

/-- `f` applied to a list of arguments. -/
def Alg.apps {D : Type} (A : Alg D) (f : D) : List D → D
  | [] => f
  | v :: as => A.apps (A.app f v) as

/-- Applying the term to the values `as` in the environment `ρ` can give `d`: call-by-name lambda
calculus.  `(\x. b) v ...` is `b ...` with `v` for `x`; a value of `\x. b` itself is any element that maps
every `v` to a value of `b` with `v` for `x`. -/
def Val {D : Type} (A : Alg D) : Term → Env D → List D → D → Prop
  | .var x, ρ, as, d => d = A.apps (ρ x) as
  | .con c, _, as, d => d = A.apps (A.con c) as
  | .app a b, ρ, as, d => ∃ v, Val A b ρ [] v ∧ Val A a ρ (v :: as) d
  | .lam x b, ρ, [], d => ∀ v, Val A b (ρ.set x v) [] (A.app d v)
  | .lam x b, ρ, v :: as, d => Val A b (ρ.set x v) as d

/-- `NAMED_ARG e x d` below a lambda only says that the argument `x` has a name and a default value:
the term without these annotations. -/
def Term.plain : Term → Term
  | .var x => .var x
  | .con c => .con c
  | .app a b => .app a.plain b.plain
  | .lam x (.app (.app (.app (.con .namedArg) e) _) _) => .lam x e.plain
  | .lam x b => .lam x b.plain

/-- Value of combinator code. -/
def Code.ev {D : Type} (A : Alg D) (ρ : Env D) : Code → D
  | .var x => ρ x
  | .con c => A.con c
  | .app a b => A.app (a.ev A ρ) (b.ev A ρ)

end Voss.Fl
