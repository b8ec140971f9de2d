import Verif.Type.DeclSpec
/-
Model of forward declarations and of the printing of types (`typecheck.c`).

Conventions.
* Types are stored types, without bound variables, so `get_real_type` does nothing.
* Printed text is a list of tokens: a name is one token, and so are the stars of a type variable.
-/
namespace Voss.TC

/-- The fields `anon_cnt` of type variables (`none`: -1) and the global `anon_cnt`. -/
structure Stars where
  cnt : Nat → Option Nat
  next : Nat

/-- `get_insert_star_cnt` typecheck.c:2317-2323. -/
def star (s : Stars) (v : Nat) : Nat × Stars :=
  match s.cnt v with
  | some k => (k, s)
  | none => (s.next, { cnt := fun w => if w = v then some s.next else s.cnt w, next := s.next + 1 })

mutual
/-- `reset_cnt` typecheck.c:2325-2355. -/
def resetCnt (s : Stars) : Ty → Stars
  | .var v => { s with cnt := fun w => if w = v then none else s.cnt w }
  | .con _ ts => resetCnts s ts
def resetCnts (s : Stars) : Tys → Stars
  | .nil => s
  | .cons t ts => resetCnts (resetCnt s t) ts
end

mutual
/-- `annotate_star_cnt` typecheck.c:2941-2952. -/
def annot (s : Stars) : Ty → Stars
  | .var v => (star s v).2
  | .con _ ts => annots s ts
def annots (s : Stars) : Tys → Stars
  | .nil => s
  | .cons t ts => annots (annot s t) ts
end

mutual
/-- `Type_eq` typecheck.c:2404-2455 (the comparison of pointers at its start only saves time: the two
records it is called with in `Forward_Declare_Ok` share no variables). -/
def eqStar (s : Stars) : Ty → Ty → Bool × Stars
  | .var v, .var w =>
    let (i, s) := star s v
    let (j, s) := star s w
    (i == j, s)
  | .con o ts, .con o' ts' => if o ≠ o' then (false, s) else eqStars s ts ts'
  | _, _ => (false, s)
def eqStars (s : Stars) : Tys → Tys → Bool × Stars
  | .nil, .nil => (true, s)
  | .cons t ts, .cons t' ts' =>
    match eqStar s t t' with
    | (true, s) => eqStars s ts ts'
    | (false, s) => (false, s)
  | _, _ => (false, s)
end

/-- `Forward_Declare_Ok` typecheck.c:858-870. -/
def forwardOk (s : Stars) (decl actual : Ty) : Bool :=
  let s := resetCnt s decl
  let s := annot { s with next := 1 } decl
  let s := resetCnt s actual
  let s := annot { s with next := 1 } actual
  (eqStar s decl actual).1

/-- Printed text. -/
inductive Tok where
  | stars (n : Nat)
  | word (w : String)
  | lpar | rpar | lcurl | rcurl | comma | commaSp | arrow | hash | ref | list
deriving DecidableEq

/-- The name of a built-in type (typecheck.c:2663-2686). -/
def Op.word : Op → String
  | .bool => "bool"
  | .bexpr => "bexpr"
  | .int => "int"
  | .fsm => "obsolete_fsm"
  | .string => "string"
  | .void => "void"
  | .fp => "stream"
  | _ => ""

def paren (b : Bool) (l : List Tok) : List Tok := if b then .lpar :: l ++ [.rpar] else l

mutual
/-- `print_type_rec` typecheck.c:2651-2744; `none`: a null pointer is followed. -/
def print (p : Nat) (s : Stars) : Ty → Option (List Tok × Stars)
  | .var v => some ([.stars (star s v).1], (star s v).2)
  | .con .arrow (.cons a (.cons b _)) => do
    let (l, s) ← print 3 s a
    let (r, s) ← print 2 s b
    some (paren (p > 2) (l ++ .arrow :: r), s)
  | .con .tuple (.cons a (.cons b _)) => do
    let (l, s) ← print 2 s a
    let (r, s) ← print 2 s b
    some (paren (p > 2) (l ++ .hash :: r), s)
  | .con .ref (.cons a _) => do
    let (l, s) ← print 1 s a
    some (paren (p > 1) (l ++ [.ref]), s)
  | .con .list (.cons a _) => do
    let (l, s) ← print 9 s a
    some (paren (p > 0) (l ++ [.list]), s)
  | .con .tbl (.cons a (.cons b _)) => do
    let (l, s) ← print 1 s a
    let (r, s) ← print 1 s b
    some (paren (p > 1) (.lcurl :: l ++ .commaSp :: r ++ [.rcurl, .word "tbl"]), s)
  | .con .arrow _ | .con .tuple _ | .con .ref _ | .con .list _ | .con .tbl _ => none
  | .con (.concrete x) .nil => some ([.word x], s)
  | .con (.concrete x) (.cons a as) => do
    let (l, s) ← print p s a
    let (r, s) ← printRest p s as
    some (.lcurl :: l ++ r ++ [.rcurl, .word x], s)
  | .con o _ => some ([.word o.word], s)
/-- The arguments of a declared type after the first. -/
def printRest (p : Nat) (s : Stars) : Tys → Option (List Tok × Stars)
  | .nil => some ([], s)
  | .cons a as => do
    let (l, s) ← print p s a
    let (r, s) ← printRest p s as
    some (.comma :: l ++ r, s)
end

/-- `Get_tmp_type_string` symbol.c:1560-1570 and `Print_Type` typecheck.c:566-576 with `reset` (texts longer
than the buffer of 4096 characters are not modelled). -/
def typeText (s : Stars) (t : Ty) : Option (List Tok) :=
  (print 0 { resetCnt s t with next := 1 } t).map (·.1)

/-- `args` with each type replaced by a new variable. -/
def freshFor (v : Nat) : Tys → Tys
  | .nil => .nil
  | .cons _ as => .cons (.var v) (freshFor (v + 1) as)

/-- The type of a constructor when its type has been compared with the declaration (`Make_TYPE`
graph.c:1411-1417, `Unify_Constr` typecheck.c:759-770): the result is still the tuple of the constructor's
name and its arguments, with the variables `v`, `v + 1`, ... for their types. -/
def ctorTypeBefore (v : Nat) (all : Tys) : Tys → Ty
  | .nil => properArgs (.base .string) (freshFor v all)
  | .cons a as => .arrow a (ctorTypeBefore v all as)

/-- The signature of a declared type, which the functions `write_` and `read_` of the type put into a file,
and compare with the one in the file: `Add_Destructors` symbol.c:681-699, 722-726. -/
def signature (s : Stars) (v : Nat) (name : String) : List (String × Tys) → Option (List (List Tok))
  | [] => some [[.word name]]
  | (c, as) :: cs => do
    let t ← typeText s (ctorTypeBefore v as as)
    let r ← signature s v name cs
    some ((.word c :: t) :: r)

end Voss.TC
