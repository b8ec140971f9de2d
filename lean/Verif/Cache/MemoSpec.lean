import Verif.Cache.Memo
/-
Specification of cached functions: what the function returns when nothing is cached.
-/
namespace Voss.Cache
variable {R : Type}

/-- Run a body without caches. -/
def plainBody (store : Nat → V) (call : Nat → Nat → List V → Option R) : Body R → Option R
  | .ret r => some r
  | .deref c k => plainBody store call (k (store c))
  | .collect _ k => plainBody store call k
  | .call g ctx args k => do plainBody store call (k (← call g ctx args))

/-- A call of function `g` when every call evaluates the body; `n` bounds the nesting of calls. -/
def plain (store : Nat → V) (defs : Nat → Nat → List V → Body R) : Nat → Nat → Nat → List V → Option R
  | 0, _, _, _ => none
  | n + 1, g, ctx, args => plainBody store (plain store defs n) (defs g ctx args)

/-- Function `g`, when nothing is cached, returns `r` for these arguments. -/
def Returns (store : Nat → V) (defs : Nat → Nat → List V → Body R) (g ctx : Nat) (args : List V) (r : R) : Prop :=
  ∃ n, plain store defs n g ctx args = some r

/-- A value without the addresses of its nodes; a function is known by the address of its node. -/
def erase : V → V
  | .null => .null
  | .leaf _ l => .leaf 0 l
  | .cons _ h t => .cons 0 (erase h) (erase t)
  | .app a l r => .app a l r

/-- Two values are the same up to where they are stored. -/
def Same (a b : V) : Prop := erase a = erase b
def SameArgs (as bs : List V) : Prop := as.map erase = bs.map erase

/-- A vector without redundant sign bits. -/
def Trimmed : List Nat → Prop
  | [] => False
  | [_] => True
  | b :: c :: _ => b ≠ c

/-- The primitives that carry contents a user can tell apart: `debug`, `fail`, `printf`, `sprintf`, `eprintf`,
`fprintf`, open files, external functions, `sscanf` (graph.h:456-536). -/
def contentTags : List Nat := [39, 43, 108, 109, 110, 111, 112, 119, 124]

/-- Leaves that are compared by all of their contents, and whose contents never change: no reference cell,
no table or STE result; vectors have no redundant sign bits; numbers are neither NaN nor minus zero; a
primitive has no contents unless it is one of those above. -/
def Leaf.Plain : Leaf → Prop
  | .int _ | .str _ | .bool _ | .bexpr _ => True
  | .prim t p => t ∈ contentTags ∨ p = 0
  | .ref _ => False
  | .bv l => Trimmed l
  | .flt b => fNan b = false ∧ (fZero b = true → b = 0)
  | .ext c _ => c ≠ clsTable ∧ c ≠ clsSte

def V.Plain : V → Prop
  | .null => True
  | .leaf _ l => l.Plain
  | .cons _ h t => h.Plain ∧ t.Plain
  | .app _ _ _ => True

/-- The class of an external object. -/
def Leaf.cls : Leaf → Option (Option Nat)
  | .bv _ => some none
  | .flt _ => some (some 0)
  | .ext c _ => some (some (c + 1))
  | _ => none

/-- A value of one fl type has external objects of the same class at the same places. -/
def Alike : V → V → Prop
  | .leaf _ l, .leaf _ l' => l.cls.isSome → l'.cls.isSome → l.cls = l'.cls
  | .cons _ h t, .cons _ h' t' => Alike h h' ∧ Alike t t'
  | _, _ => True

/-- Arguments for the parameters of one function, which has one type. -/
def AlikeArgs (as bs : List V) : Prop := Alike (keyArgs as) (keyArgs bs)

/-- A body that calls functions with plain arguments only, which `ok` admits for that function, and does
not look into reference cells. -/
def Body.Pure (ok : Nat → List V → Prop) : Body R → Prop
  | .ret _ => True
  | .call g _ args k => (ok g args ∧ ∀ a ∈ args, a.Plain) ∧ ∀ r, (k r).Pure ok
  | .deref _ _ => False
  | .collect _ k => k.Pure ok

/-- What is assumed of the functions: bodies are pure; they cannot tell where an argument is stored; and
the arguments that one function is called with are alike. -/
structure Pure (ok : Nat → List V → Prop) (store : Nat → V) (defs : Nat → Nat → List V → Body R) : Prop where
  body : ∀ g ctx args, ok g args → (∀ a ∈ args, a.Plain) → (defs g ctx args).Pure ok
  same : ∀ g ctx as bs r, SameArgs as bs → Returns store defs g ctx as r → Returns store defs g ctx bs r
  alike : ∀ g as bs, ok g as → ok g bs → AlikeArgs as bs

/-- The same for the events of a session. -/
def Event.Pure (ok : Nat → List V → Prop) : Event → Prop
  | .call g _ args => ok g args ∧ ∀ a ∈ args, a.Plain
  | _ => True

/-- The calls of a session. -/
def calls : List Event → List (Nat × Nat × List V)
  | [] => []
  | .call g ctx args :: es => (g, ctx, args) :: calls es
  | _ :: es => calls es

end Voss.Cache
