import Verif.Fl.Compile
/-
Compilation of pattern matching (graph.c:5497-5846, language.y:797-955): function definitions by clauses
become lambda terms that test and take apart their arguments.
-/
namespace Voss.Fl
open Voss.Bdd (decimal)

/-- Patterns.  `con0` is a constructor name, `capp p q` a constructor applied to arguments (`p` is again a
`con0` or a `capp`).  (Patterns on `^`, SUC and bexprs are not modelled: the first two cannot be written,
because the parser yields variables and not the primitives that `trarg` looks for, the last is an error.
Named arguments with defaults are not modelled.) -/
inductive Pat where
  | int (n : Int) | str (s : Name) | bool (b : Bool)
  | var (x : Name)
  | nil | cons (p q : Pat) | tuple (p q : Pat)
  | con0 (c : Name) | capp (p q : Pat)
  deriving DecidableEq, Repr

/-- `Sprintf(buf, "_q_%d", n)` (graph.c:910). -/
def qName (n : Nat) : Name := "_q_".toList ++ decimal n

/-- `Sprintf(buf, "Arg%d", n)` (language.y:922, graph.c:938). -/
def argName (n : Nat) : Name := "Arg".toList ++ decimal n

/-- The name of the destructor (graph.c:5837); it is bound to the identity function. -/
def destName (c : Name) : Name := "__DeStRuCtOr".toList ++ c

/-- `Mk_constructor_name` (graph.c:556-561): the string that stands for the constructor. -/
def cname (c : Name) : Name := "!,.:".toList ++ c

/-- `get_constr_name` (graph.c:5473-5479); patterns other than constructors are an error. -/
def Pat.head : Pat → Name
  | .con0 c => c
  | .capp p _ => p.head
  | _ => []

/-- The loop of `Find_new_free_var` (graph.c:907-913); gives the number used.  The bound on the number of
rounds is the size of the expression, which has fewer free variables than that. -/
def findNewF : Nat → Term → Nat → Nat
  | 0, _, n => n
  | k + 1, e, n => if isFree (qName n) e then findNewF k e (n + 1) else n

def findNew (e : Term) (n : Nat) : Nat := findNewF e.size e n

/-- `Make_3inp_Primitive(P_COND, c, E, PFAIL)`. -/
def condPF (c e : Term) : Term := .app (.app (.app (.con .cond) c) e) (.con .pfail)

def prim1 (p : Con) (a : Term) : Term := .app (.con p) a
def prim2 (p : Con) (a b : Term) : Term := .app (.app (.con p) a) b

/-- The test of a leaf pattern: `\x. x op c => E | PFAIL`. -/
def leafTest (op c : Con) (e : Term) (k : Nat) : Term :=
  .lam (qName k) (condPF (prim2 op (.var (qName k)) (.con c)) e)

/-- `trarg` (graph.c:5497-5830).  The last argument and result are `find_new_var_cnt`. -/
def trarg : Pat → Term → Bool → Nat → Term × Nat
  | .int i, e, _, n =>
    let k := findNew e n
    (leafTest .equal (.int i) e k, k + 1)
  | .str s, e, _, n =>
    let k := findNew e n
    (leafTest .constrEq (.str s) e k, findNew e (k + 1) + 1)
  | .bool b, e, _, n =>
    let k := findNew e n
    (leafTest .identical (if b then .tt else .ff) e k, k + 1)
  | .var x, e, _, n => (.lam x e, n)
  | .nil, e, _, n =>
    let k := findNew e n
    (.lam (qName k) (condPF (prim1 .empty (.var (qName k))) e), k + 1)
  | .cons a b, e, _, n =>
    let k := findNew e n
    let (fb, n) := trarg b e false (k + 1)
    let (fa, n) := trarg a (.app fb (prim1 .tail (.var (qName k)))) false n
    (.lam (qName k) (condPF (prim1 .isCons (.var (qName k))) (.app fa (prim1 .head (.var (qName k))))), n)
  | .tuple a b, e, _, n =>
    let k := findNew e n
    let (fb, n) := trarg b e false (k + 1)
    let (fa, n) := trarg a (.app fb (prim1 .snd (.var (qName k)))) false n
    (.lam (qName k) (condPF (prim1 .isTuple (.var (qName k))) (.app fa (prim1 .fst (.var (qName k))))), n)
  | .con0 c, e, constructor, n =>
    let k := findNew e n
    let t := leafTest .constrEq (.str (cname c)) e k
    (if constructor then t else .app (.var (destName c)) t, k + 1)
  | .capp a b, e, constructor, n =>
    let k := findNew e n
    let (fb, n) := trarg b e false (k + 1)
    let (fa, n) := trarg a (.app fb (prim1 .snd (.var (qName k)))) true n
    let t := .lam (qName k) (condPF (prim1 .isTuple (.var (qName k))) (.app fa (prim1 .fst (.var (qName k)))))
    (if constructor then t else .app (.var (destName a.head)) t, n)

/-- One clause of a function definition: patterns, guard and body. -/
structure Clause where
  pats : List Pat
  guard : Option Term
  body : Term

/-- `lhs_expr_list` without the patterns (language.y:939-954). -/
def Clause.rhs (c : Clause) : Term :=
  match c.guard with
  | none => c.body
  | some g => condPF g c.body

/-- `lhs_expr_list` (language.y:916-938). -/
def lhs : List Pat → Term → Nat → Term × Nat
  | [], e, n => (e, n)
  | p :: ps, e, n =>
    let (r, n) := lhs ps e n
    let (t, n) := trarg p r false n
    (.app t (.var (argName (ps.length + 1))), n)

/-- `Can_Fail_Pat_Match` (graph.c:1711-1750): of PCATCH only the second operand counts. -/
def canFail : Term → Bool
  | .var _ => false
  | .con c => c == .pfail
  | .app (.app (.con .pcatch) _) b => canFail b
  | .app a b => canFail a || canFail b
  | .lam _ b => canFail b

/-- `fn_defs` (language.y:840-885) with the name of the function; a definition has at least one clause. -/
def fnDefs (f : Name) : List Clause → Nat → Term × Nat
  | [], n => (.con .pfail, n)
  | [c], n =>
    let (e, n) := lhs c.pats c.rhs n
    (if canFail e then
      prim2 .pcatch e (prim1 .error (.con (.str ("No pattern matched for ".toList ++ f ++ ['\n']))))
    else e, n)
  | c :: cs, n =>
    let (e, n) := lhs c.pats c.rhs n
    let (r, n) := fnDefs f cs n
    (prim2 .pcatch e r, n)

/-- `Add_args` (graph.c:929-941). -/
def addArgs : Nat → Term → Term
  | 0, e => e
  | n + 1, e => .lam (argName (n + 1)) (addArgs n e)

/-- `decl` (language.y:797-838) without caching, strict arguments and debug information. -/
def decl (f : Name) (cs : List Clause) (arity : Nat) (recursive : Bool) (n : Nat) : Term × Nat :=
  let (e, n) := fnDefs f cs n
  let res := addArgs arity e
  (if recursive then prim1 .Y (.lam f res) else res, n)

/-- `type_constr_rec` (graph.c:2690-2702); the second argument is the number of arguments still to do. -/
def constrRec (c : Name) : Nat → Nat → Term
  | _, 0 => .con (.str (cname c))
  | cnt, k + 1 => prim2 .tuple (constrRec c (cnt + 1) k) (.var (argName cnt))

/-- `Make_TYPE` (graph.c:1411-1417). -/
def constructor (c : Name) (arity : Nat) : Term := addArgs arity (constrRec c 1 arity)

end Voss.Fl
