/-
Model of the values that `src/bin/fl/cache.c` stores, compares and hashes: forced fl values.

Conventions.
* A value `V` carries the address of every node.  An address determines the node, so `n1 == n2` on
  pointers is equality of `V`s.
* `none` as the result of a comparison is undefined behaviour, `DIE`, or a chain of reference cells that
  never ends.
* Strings are interned (C46), so a string leaf is its characters.
-/
namespace Voss.Cache

/-- Contents of a `LEAF` node (graph.h:268-345).  External objects are split by class: bit vectors
(`bv.c`) hold the list of their formulas, floating point numbers (`float.c`) the 64 bits, any other
object is a class number and the address of the object. -/
inductive Leaf where
  | int (z : Int)
  | str (s : String)
  | bool (f : Nat)
  | bexpr (e : Nat)
  | prim (tag payload : Nat)
  | ref (k : Nat)
  | bv (l : List Nat)
  | flt (b : BitVec 64)
  | ext (cls obj : Nat)
deriving DecidableEq

/-- A forced value: `NULL`, a leaf, a `CONS_ND`, or an `APPLY_ND` (a function), which is only ever looked
at through the addresses of its children. -/
inductive V where
  | null
  | leaf (a : Nat) (l : Leaf)
  | cons (a : Nat) (h t : V)
  | app (a l r : Nat)
deriving DecidableEq

/-- Class numbers of tables and STE results, whose `eq_fn` is different (table.c:327-334,
fsm.c:4072-4079). -/
def clsTable : Nat := 0
def clsSte : Nat := 1

/-- `ZERO` and `ONE` (new_bdd.c:1162-1163; `LG_BDD_SIZE` is 31). -/
def zero : Nat := 0
def one : Nat := 2 ^ 31

/-- `B_Equal` on formulas: pointer equality (C14). -/
def bEqual (f g : Nat) : Bool := f == g

/-- `bv_eq_fn(p1, p2, TRUE)` bv.c:229-280: the shorter vector is sign extended.  A vector with no bits
would have the head of NIL followed. -/
def bvIdentical (l1 l2 : List Nat) : Option Bool :=
  let s := if l1.length > l2.length then l2 else l1
  let l := if l1.length > l2.length then l1 else l2
  match s with
  | [] => none
  | b :: _ => some ((l.take (l.length - s.length)).all (fun c => bEqual b c)
      && (List.zipWith bEqual s (l.drop (l.length - s.length))).all id)

/-- IEEE 754 double: not a number, and either zero. -/
def fNan (b : BitVec 64) : Bool := b.toNat / 2 ^ 52 % 2 ^ 11 == 2 ^ 11 - 1 && b.toNat % 2 ^ 52 != 0
def fZero (b : BitVec 64) : Bool := b.toNat % 2 ^ 63 == 0

/-- `==` on doubles. -/
def fEq (a b : BitVec 64) : Bool := !fNan a && !fNan b && (a == b || (fZero a && fZero b))

/-- The formula `eq_fn(p1, p2, TRUE)` gives for external objects of one class: `default_eq_fn`
(symbol.c:1337-1346), but tables and STE results return the C truth value (table.c:333, fsm.c:4078).  For
classes compared by content (`fsm`, `image`) the object number stands for the content. -/
def extEq (cls o1 o2 : Nat) : Nat :=
  if cls = clsTable ∨ cls = clsSte then (if o1 = o2 then 1 else 0) else (if o1 = o2 then one else zero)

/-- Tags of `PRIM_FN` leaves whose contents are compared (cache.c:465-482); graph.h:456-536. -/
def tPrintf : Nat := 108
def tSprintf : Nat := 109
def tFprintf : Nat := 111
def tEprintf : Nat := 110
def tSscanf : Nat := 124
def tExtapi : Nat := 119
def tFilefp : Nat := 112
def tFail : Nat := 43
def tDebug : Nat := 39
def payloadTags : List Nat := [tPrintf, tSprintf, tFprintf, tEprintf, tSscanf, tExtapi, tFilefp, tFail, tDebug]

/-- The comparison of two leaves (cache.c:443-502, 345-403); `deref` compares the contents of two
reference cells. -/
def leafEq (deref : Nat → Nat → Option Bool) : Leaf → Leaf → Option Bool
  | .int a, .int b => some (a == b)
  | .str a, .str b => some (a == b)
  | .bool a, .bool b => some (bEqual a b)
  | .bexpr a, .bexpr b => some (a == b)
  | .ref a, .ref b => deref a b
  | .prim t p, .prim t' p' =>
    if t ≠ t' then some false else if t ∈ payloadTags then some (p == p') else some true
  | .bv a, .bv b => bvIdentical a b
  | .flt a, .flt b => some (fEq a b)
  | .ext c a, .ext c' b => if c = c' then some (extEq c a b == one) else none
  | .bv _, .flt _ => none
  | .bv _, .ext _ _ => none
  | .flt _, .bv _ => none
  | .flt _, .ext _ _ => none
  | .ext _ _, .bv _ => none
  | .ext _ _, .flt _ => none
  | _, _ => some false

/-- The comparison of two values, when reference cells are compared by `deref`. -/
def eqWith (deref : Nat → Nat → Option Bool) : V → V → Option Bool
  | x, y =>
    if x = y then some true else
    match x, y with
    | .cons _ h t, .cons _ h' t' => do
      if ← eqWith deref h h' then eqWith deref t t' else some false
    | .leaf _ l, .leaf _ l' => leafEq deref l l'
    | _, _ => some false

/-- `cache_eq` cache.c:417-507; `G_rec_equ` cache.c:319-411 is the same function with its tail call
turned into a jump.  `store` are the contents of the reference cells (`Get_RefVar`), `n` bounds how many
cells are followed. -/
def cacheEq (store : Nat → V) : Nat → V → V → Option Bool
  | 0, x, y => eqWith (fun _ _ => none) x y
  | n + 1, x, y => eqWith (fun a b => cacheEq store n (store a) (store b)) x y

/-- What hashing takes from elsewhere: `Arbi_hash`, `str_hash`, the conversion of a double to `unint`,
the `hash_fn` of the other classes, and addresses as 32-bit numbers. -/
structure HashEnv where
  int : Int → Nat → Nat
  str : String → Nat → Nat
  strPtr : String → Nat
  flt : BitVec 64 → Nat
  ext : Nat → Nat → Nat → Nat
  bexpr : Nat → Nat

/-- Arithmetic on `unsigned int`. -/
def w32 (n : Nat) : Nat := n % 2 ^ 32

variable (E : HashEnv)

/-- `bv_hash_fn` bv.c:282-293 (`G_rec_hash` of a Boolean leaf is its number modulo `n`). -/
def bvHash (l : List Nat) (n : Nat) : Nat := l.foldl (fun res f => w32 (w32 (3 * res) + f % n) % n) 13

/-- `hash_fn` of the classes of external objects, and the leaves hashed alike by `cache_hash` and
`g_rec_hash_rec` (cache.c:535-551, 280-299). -/
def leafHash (n : Nat) : Leaf → Nat
  | .int z => E.int z n
  | .str s => E.str s n
  | .bool f => f % n
  | .bexpr e => E.bexpr e % n
  | .prim t _ => t % n
  | .ref _ => 98 % n
  | .bv l => bvHash l n
  | .flt b => E.flt b % n
  | .ext c o => E.ext c o n

/-- `cache_hash` cache.c:522-559. -/
def cacheHash (n : Nat) : V → Nat
  | .null => 0
  | .cons _ h t => w32 (931 * cacheHash n h + cacheHash n t) % n
  | .app _ l r => w32 (931 * l + r) % n
  | .leaf _ l => leafHash E n l

/-- The loop of `main_cache_hash` (cache.c:514-517).  Anything but a list has its head taken from a node
that is not a `CONS_ND`. -/
def mainSum (n : Nat) : V → Nat → Option Nat
  | .null, sum => some sum
  | .cons _ h t, sum => mainSum n t (w32 (931 * sum + cacheHash E n h))
  | _, _ => none

/-- `main_cache_hash` cache.c:509-520. -/
def mainHash (argl : V) (size : Nat) : Option Nat := do
  let sum ← mainSum E (w32 (size * 16)) argl 0
  some (sum % size)

end Voss.Cache
