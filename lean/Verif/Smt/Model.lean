/-! Model of the translation of word expressions for an SMT solver: smt.fl:43-235 `merge_indices`, `is_relation`,
`wexpr2smtbv`.

Each expression gets one name (the table `wexpr2id_tbl`), declared as a Boolean or as a bit-vector, and one assertion.  Expressions
are the Boolean connectives, `W_EQ`, `W_GR`, one of the arithmetic operations, `W_ITE`, constants and variables.  Not
modelled: the text of the assertions, slices other than `merge_indices`, `W_PRED`, extensions, `W_CAT`, names of variables. -/

namespace Voss.Smt

/-- smt.fl:43-53 `merge`. -/
def mergeGo (s e : Int) : List Int → List (Int × Int)
  | [] => [(s, e)]
  | n :: ns => if n = e - 1 then mergeGo s n ns else (s, e) :: mergeGo n n ns

/-- smt.fl:43-53 `merge_indices`. -/
def mergeIndices : List Int → List (Int × Int)
  | [] => []
  | n :: ns => mergeGo n n ns

/-- Word expressions, as far as they are modelled. -/
inductive W where
  | var (i : Nat)
  | const (v : List Bool)
  | not (e : W)
  | and (a b : W)
  | or (a b : W)
  | eq (a b : W)
  | gr (a b : W)
  | op (a b : W)
  | ite (c a b : W)

/-- smt.fl:54-62 `is_relation`. -/
def isRelation : W → Bool
  | .eq _ _ => true
  | .gr _ _ => true
  | .not e => isRelation e
  | .and a b => isRelation a || isRelation b
  | .or a b => isRelation a || isRelation b
  | .ite _ a b => isRelation a || isRelation b
  | _ => false

/-- A value of the solver: a Boolean or a bit-vector. -/
inductive Val where
  | bool (b : Bool)
  | bv (l : List Bool)
deriving DecidableEq

section
variable (gr : List Bool → List Bool → Bool) (op : List Bool → List Bool → List Bool) (env : Nat → List Bool)

/-- The value of the right side of the assertion for an expression (smt.fl:83-200), where `ρ` gives the values of names; `none`:
the solver refuses it, because an operation of the SMT-LIB standard is applied to values of the wrong sort.  The size of a
condition (`wexpr_size`) is `size`.  There is no assertion for a variable: `env` is what the solver chooses (smt.fl:93-96). -/
def rhs (size : W → Nat) (ρ : W → Val) : W → Option Val
  | .var i => some (.bv (env i))
  | .const v => some (.bv v)
  | .not e =>
    if isRelation (.not e) then match ρ e with
      | .bool b => some (.bool !b)
      | _ => none
    else match ρ e with
      | .bv l => some (.bv (l.map (!·)))
      | _ => none
  | .and a b =>
    if isRelation (.and a b) then match ρ a, ρ b with
      | .bool x, .bool y => some (.bool (x && y))
      | _, _ => none
    else match ρ a, ρ b with
      | .bv x, .bv y => if x.length = y.length then some (.bv (List.zipWith (· && ·) x y)) else none
      | _, _ => none
  | .or a b =>
    if isRelation (.or a b) then match ρ a, ρ b with
      | .bool x, .bool y => some (.bool (x || y))
      | _, _ => none
    else match ρ a, ρ b with
      | .bv x, .bv y => if x.length = y.length then some (.bv (List.zipWith (· || ·) x y)) else none
      | _, _ => none
  | .eq a b => match ρ a, ρ b with
    | .bool x, .bool y => some (.bool (x == y))
    | .bv x, .bv y => if x.length = y.length then some (.bool (x == y)) else none
    | _, _ => none
  | .gr a b => match ρ a, ρ b with
    | .bv x, .bv y => if x.length = y.length then some (.bool (gr x y)) else none
    | _, _ => none
  | .op a b => match ρ a, ρ b with
    | .bv x, .bv y => if x.length = y.length then some (.bv (op x y)) else none
    | _, _ => none
  | .ite c a b =>
    let pick (x : Bool) : Option Val := match ρ a, ρ b with
      | .bool u, .bool v => some (.bool (if x then u else v))
      | .bv u, .bv v => if u.length = v.length then some (.bv (if x then u else v)) else none
      | _, _ => none
    if !isRelation (.ite c a b) && size c == 1 then match ρ c with
      | .bv x => if x.length = 1 then pick (x == [true]) else none
      | .bool _ => none
    else match ρ c with
      | .bool x => pick x
      | .bv _ => none

/-- The declaration of the name (smt.fl:83-85): a value of the declared sort. -/
def declared (e : W) : Val → Bool
  | .bool _ => isRelation e
  | .bv _ => !isRelation e

/-- The declarations and assertions for an expression and the expressions in it hold. -/
def Holds (size : W → Nat) (ρ : W → Val) : W → Prop
  | e@(.var _) => declared e (ρ e) = true ∧ rhs gr op env size ρ e = some (ρ e)
  | e@(.const _) => declared e (ρ e) = true ∧ rhs gr op env size ρ e = some (ρ e)
  | e@(.not a) => declared e (ρ e) = true ∧ rhs gr op env size ρ e = some (ρ e) ∧ Holds size ρ a
  | e@(.and a b) => declared e (ρ e) = true ∧ rhs gr op env size ρ e = some (ρ e) ∧ Holds size ρ a ∧ Holds size ρ b
  | e@(.or a b) => declared e (ρ e) = true ∧ rhs gr op env size ρ e = some (ρ e) ∧ Holds size ρ a ∧ Holds size ρ b
  | e@(.eq a b) => declared e (ρ e) = true ∧ rhs gr op env size ρ e = some (ρ e) ∧ Holds size ρ a ∧ Holds size ρ b
  | e@(.gr a b) => declared e (ρ e) = true ∧ rhs gr op env size ρ e = some (ρ e) ∧ Holds size ρ a ∧ Holds size ρ b
  | e@(.op a b) => declared e (ρ e) = true ∧ rhs gr op env size ρ e = some (ρ e) ∧ Holds size ρ a ∧ Holds size ρ b
  | e@(.ite c a b) => declared e (ρ e) = true ∧ rhs gr op env size ρ e = some (ρ e) ∧ Holds size ρ c ∧ Holds size ρ a ∧
      Holds size ρ b

end

end Voss.Smt
