import Verif.Type.Decl
/-
Specification of type declarations.
-/
namespace Voss.TC

def Syns.length : Syns → Nat
  | .nil => 0
  | .cons _ ts => ts.length + 1

/-- What a type name with arguments means. -/
def named (x : String) (ts : Tys) : Ty :=
  match builtin x with
  | some o => .con o ts
  | none => if x = "tbl" then .con .tbl ts else .con (.concrete x) ts

mutual
/-- What a written type means. -/
def Syn.den : Syn → Ty
  | .name x => named x .nil
  | .var v => .var v
  | .app args x => named x args.den
  | .op o args => .con o args.den
def Syns.den : Syns → Tys
  | .nil => .nil
  | .cons t ts => .cons t.den ts.den
end

mutual
/-- Every type name is used with its number of arguments. -/
def Syn.Conf (ar : String → Nat) : Syn → Prop
  | .name x => ar x = 0
  | .var _ => True
  | .app args x => args.length = ar x ∧ args.Conf ar
  | .op o args => o ≠ .tbl ∧ args.Conf ar
def Syns.Conf (ar : String → Nat) : Syns → Prop
  | .nil => True
  | .cons t ts => t.Conf ar ∧ ts.Conf ar
end

mutual
/-- The type names used. -/
def Syn.names : Syn → List String
  | .name x => [x]
  | .var _ => []
  | .app args x => args.names ++ [x]
  | .op _ args => args.names
def Syns.names : Syns → List String
  | .nil => []
  | .cons t ts => t.names ++ ts.names
end

mutual
/-- The type names used other than as arguments of a type name. -/
def Syn.outer : Syn → List String
  | .name x => [x]
  | .var _ => []
  | .app _ x => [x]
  | .op _ args => args.outer
def Syns.outer : Syns → List String
  | .nil => []
  | .cons t ts => t.outer ++ ts.outer
end

def TypeDef.names (t : TypeDef) : List String := t.ctors.flatMap fun c => c.2.names

/-- The type that a definition declares. -/
def TypeDef.ty (t : TypeDef) : Ty := .con (.concrete t.name) (varsOf t.params).erase

/-- `ar` gives the number of arguments of every type. -/
structure Arity (ar : String → Nat) : Prop where
  builtin : ∀ x, (builtin x).isSome → ar x = 0
  tbl : ar "tbl" = 2

/-- A definition of a new name in which every type has its number of arguments. -/
structure TypeDef.Conf (ar : String → Nat) (t : TypeDef) : Prop where
  new : Voss.TC.builtin t.name = none ∧ t.name ≠ "tbl"
  params : t.params.length = ar t.name
  ctors : ∀ c ∈ t.ctors, c.2.Conf ar

/-- The constructors that a group of definitions is to define, with the types of their arguments and of
their result. -/
def declared (defs : List TypeDef) : List (String × Tys × Ty) :=
  defs.flatMap fun t => t.ctors.map fun c => (c.1, c.2.den, t.ty)

def Ctor.types (c : Ctor) : String × Tys × Ty := (c.name, c.args.erase, c.res.erase)

/-- Names are declared before they are used, or, if they have no parameters, in the same group.  `xs` are
the names declared before the group. -/
def Ordered (ar : String → Nat) (group : List String) : List String → List TypeDef → Prop
  | _, [] => True
  | xs, t :: ts =>
    (∀ y ∈ t.names, (builtin y).isSome ∨ y = "tbl" ∨ y ∈ t.name :: xs ∨ (ar y = 0 ∧ y ∈ group)) ∧
      Ordered ar group (t.name :: xs) ts

/-- The same for a session. -/
def OrderedS (ar : String → Nat) : List String → List (List TypeDef) → Prop
  | _, [] => True
  | xs, g :: gs => Ordered ar (g.map TypeDef.name) xs g ∧ OrderedS ar (g.map TypeDef.name ++ xs) gs

mutual
/-- The type mentions `x` with a number of arguments other than `n`. -/
def Syn.misuses (x : String) (n : Nat) : Syn → Prop
  | .name y => y = x ∧ n ≠ 0
  | .var _ => False
  | .app args y => y = x ∧ args.length ≠ n ∨ args.misuses x n
  | .op _ args => args.misuses x n
def Syns.misuses (x : String) (n : Nat) : Syns → Prop
  | .nil => False
  | .cons t ts => t.misuses x n ∨ ts.misuses x n
end

/-- An application to several arguments. -/
def apps (f : Tm) : List Tm → Tm
  | [] => f
  | e :: es => apps (.app f e) es

/-- The expressions have the types. -/
def HasTypes (η : Nat → Ty) (Γ : List (String × Ty)) : List Tm → Tys → Prop
  | [], .nil => True
  | e :: es, .cons t ts => HasType η Γ e t ∧ HasTypes η Γ es ts
  | _, _ => False

/-- The type of `((head, a1), a2), ...`: a value of a declared type is the constructor's name with the
arguments. -/
def Tys.after (head : Ty) : Tys → Ty
  | .nil => head
  | .cons a as => as.after (.con .tuple (.cons head (.cons a .nil)))

end Voss.TC
