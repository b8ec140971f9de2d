import Verif.Bdd.History
/-
The quantifiers `!x. e` and `?x. e` of the language (graph.c:4081-4115): the bound variable is
replaced by a BDD variable with a generated name, and this variable is quantified away in the value of
the body.
-/
namespace Voss.Bdd

/-- Boolean expressions with quantifiers.  Bound variables are de Bruijn indices; the name at a
quantifier is the one the user wrote (the code only uses it to make up the BDD variable). -/
inductive QE where
  | const (b : Bool)
  /-- `variable name` -/
  | var (name : String)
  | bound (k : Nat)
  | not (e : QE)
  | bin (op : BinOp) (e1 e2 : QE)
  | quant (univ : Bool) (x : String) (e : QE)

/-- Decimal digits as produced by `%d`. -/
def decimal (n : Nat) : List Char := Nat.toDigits 10 n

/-- `Sprintf(buf, "%%%s%d", name, uniq_quant_cnt++)` (graph.c:4104).  (The counter is an `int` in C and
unbounded here.) -/
def quantName (x : String) (cnt : Nat) : String := String.ofList ('%' :: (x.toList ++ decimal cnt))

/-- Evaluation of an expression (graph.c:4081-4134 for the quantifiers: make the variable, evaluate
the body with it, quantify).  `env` holds the values of the enclosing bound variables, the number is
`uniq_quant_cnt`.  A dangling index is `none`.  (Operands of connectives are evaluated left to right,
and no garbage collection takes place.) -/
def evalQ : S → Nat → List F → QE → Option (F × S × Nat)
  | s, cnt, _, .const b => some (if b then ONE else ZERO, s, cnt)
  | s, cnt, _, .var name => do
    let (f, s) ← bVar s name
    some (f, s, cnt)
  | s, cnt, env, .bound k => do
    let f ← env[k]?
    some (f, s, cnt)
  | s, cnt, env, .not e => do
    let (f, s, cnt) ← evalQ s cnt env e
    some (bNot f, s, cnt)
  | s, cnt, env, .bin op e1 e2 => do
    let (f, s, cnt) ← evalQ s cnt env e1
    let (g, s, cnt) ← evalQ s cnt env e2
    let (r, s) ← op.run s f g
    some (r, s, cnt)
  | s, cnt, env, .quant univ x e => do
    let (v, s) ← bVar s (quantName x cnt)
    let (f, s, cnt) ← evalQ s (cnt + 1) (v :: env) e
    let (r, s) ← if univ then quantForall s v f else quantThereis s v f
    some (r, s, cnt)

/-! ### Specification -/

/-- What the expression means: `β` gives the values of the enclosing bound variables. -/
def QE.sem : QE → List Bool → NEnv → Bool
  | .const b, _, _ => b
  | .var name, _, η => η name
  | .bound k, β, _ => β.getD k false
  | .not e, β, η => !(e.sem β η)
  | .bin op e1 e2, β, η => op.sem (e1.sem β η) (e2.sem β η)
  | .quant univ _ e, β, η =>
    if univ then e.sem (true :: β) η && e.sem (false :: β) η else e.sem (true :: β) η || e.sem (false :: β) η

/-- All indices are bound by one of `n` enclosing quantifiers or inside. -/
def QE.Closed : QE → Nat → Prop
  | .const _, _ => True
  | .var _, _ => True
  | .bound k, n => k < n
  | .not e, n => e.Closed n
  | .bin _ e1 e2, n => e1.Closed n ∧ e2.Closed n
  | .quant _ _ e, n => e.Closed (n + 1)

/-- Free variables do not look like generated ones. -/
def QE.FreeOK : QE → Prop
  | .const _ => True
  | .var name => name.toList.head? ≠ some '%'
  | .bound _ => True
  | .not e => e.FreeOK
  | .bin _ e1 e2 => e1.FreeOK ∧ e2.FreeOK
  | .quant _ _ e => e.FreeOK

/-- No bound variable has a name that ends in a digit. -/
def QE.BinderOK : QE → Prop
  | .const _ => True
  | .var _ => True
  | .bound _ => True
  | .not e => e.BinderOK
  | .bin _ e1 e2 => e1.BinderOK ∧ e2.BinderOK
  | .quant _ x e => (∀ c, x.toList.getLast? = some c → c.isDigit = false) ∧ e.BinderOK

end Voss.Bdd
