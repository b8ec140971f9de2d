import Verif.Fl.Pattern
/-
The graph reducer of fl: the heap, the spine stack, the rewrite rules, conditionals on symbolic Boolean
values, forcing and merging of structures (graph.c).

Simplifications, for the whole file: reference counts, garbage collection, tracing, interrupts and the
limit on the recursion depth are left out.  Functions take `fuel`; `none` is "not finished", a `DIE`, or
undefined behaviour.  A CONS_ND with two NULL sons is the leaf `con nil`.  Boolean functions are values of
an abstract type `B` (the BDD package is modelled in `Verif.Bdd`).
-/
namespace Voss.Fl

/-- What the reducer uses of the BDD package: `B_One`, `B_Zero`, `B_And`, `B_Or`, `B_Not`, `B_Xnor`, and
what the functions mean for an assignment of the variables. -/
structure Bools (B E : Type) where
  one : B
  zero : B
  and : B → B → B
  or : B → B → B
  not : B → B
  xnor : B → B → B
  sat : B → E → Bool
  sat_one : ∀ e, sat one e = true
  sat_zero : ∀ e, sat zero e = false
  sat_and : ∀ f g e, sat (and f g) e = (sat f e && sat g e)
  sat_or : ∀ f g e, sat (or f g) e = (sat f e || sat g e)
  sat_not : ∀ f e, sat (not f) e = !sat f e
  sat_xnor : ∀ f g e, sat (xnor f g) e = (sat f e == sat g e)

/-- Heap nodes: APPLY_ND, CONS_ND, LEAF (PRIM_FN, INT, STRING), LEAF (BOOL), P_FAIL.  `hole` is a node
whose sons are not set yet or set to `void_nd`. -/
inductive Node (B : Type) where
  | app (l r : Nat)
  | cons (h t : Nat)
  | con (c : Con)
  | bool (f : B)
  | fail
  | hole
  deriving DecidableEq

/-- A cell and its FORCED mark (graph.h:204-208). -/
structure Cell (B : Type) where
  nd : Node B
  forced : Bool

/-- The heap and `cur_eval_cond`.  `taint` is not in the code: it records that a conditional was decided
by `cur_eval_cond` alone, that `==` compared non-constant Booleans, or that NONE was merged with
another value. -/
structure St (B : Type) where
  heap : List (Cell B)
  cond : B
  taint : Bool

namespace St
variable {B : Type}

def size (st : St B) : Nat := st.heap.length

def node (st : St B) (n : Nat) : Option (Node B) := (st.heap[n]?).map Cell.nd

def forced (st : St B) (n : Nat) : Bool :=
  match st.heap[n]? with
  | some c => c.forced
  | none => false

/-- Sets the contents of a cell; `mk`: and marks it FORCED. -/
def put (st : St B) (n : Nat) (nd : Node B) (mk : Bool) : St B :=
  { st with heap := st.heap.modify n fun c => ⟨nd, c.forced || mk⟩ }

/-- Rewrites the redex, which still is `old`.  (The test is not in the code: that the evaluation of an
argument has changed the very redex it is evaluated for counts as undefined here.  In the code such an
evaluation waits for its own result.) -/
def rewrite [DecidableEq B] (st : St B) (red : Nat) (old nd : Node B) (mk : Bool) : Option (St B) :=
  if st.node red = some old then some (st.put red nd mk) else none

/-- `OVERWRITE` (graph.h:228-237): copies the contents, not the mark. -/
def overwrite [DecidableEq B] (st : St B) (red : Nat) (old : Node B) (n : Nat) : Option (St B) :=
  match st.node n with
  | none => none
  | some nd => st.rewrite red old nd false

/-- `MAKE_FORCED` (graph.h:207). -/
def mark (st : St B) (n : Nat) : St B :=
  { st with heap := st.heap.modify n fun c => ⟨c.nd, true⟩ }

/-- `Make_APPL_ND`, `Make_CONS_ND` and the like. -/
def alloc (st : St B) (nd : Node B) (mk : Bool) : St B × Nat :=
  ({ st with heap := st.heap ++ [⟨nd, mk⟩] }, st.heap.length)

/-- `is_fail` (graph.c:1254). -/
def isFail (st : St B) (n : Nat) : Bool :=
  match st.node n with
  | some .fail => true
  | _ => false

end St

/-- Leaves that are no functions. -/
def Con.isLeaf : Con → Bool
  | .nil => true | .int _ => true | .str _ => true | .tt => true | .ff => true
  | _ => false

/-- Number of arguments the rule of a primitive takes (`depth < ...` in graph.c:3105-4675).  0: a leaf that
is no function. -/
def arity (ext : Nat → Nat) : Con → Nat
  | .S => 3 | .S' => 4 | .K => 2 | .I => 1 | .C => 3 | .C' => 4 | .B => 3 | .Bstar => 4 | .B' => 4 | .Y => 1
  | .cond => 3 | .pfail => 1 | .pcatch => 2 | .error => 1 | .namedArg => 3 | .seq => 2
  | .equal => 2 | .constrEq => 2 | .identical => 2
  | .empty => 1 | .isCons => 1 | .isTuple => 1 | .head => 1 | .tail => 1 | .fst => 1 | .snd => 1
  | .cons => 2 | .tuple => 2
  | .nil => 0 | .int _ => 0 | .str _ => 0 | .tt => 0 | .ff => 0
  | .prim n => ext n

/-- INT, STRING and BOOL leaves. -/
inductive Scalar (B : Type) where
  | int (n : Int)
  | str (s : Name)
  | bool (f : B)

def Scalar.node {B : Type} : Scalar B → Node B
  | .int n => .con (.int n)
  | .str s => .con (.str s)
  | .bool f => .bool f

def Node.scalar {B : Type} : Node B → Option (Scalar B)
  | .con (.int n) => some (.int n)
  | .con (.str s) => some (.str s)
  | .bool f => some (.bool f)
  | _ => none

/-- The functions of the external interface with strictness "0" in every argument and scalar arguments
and result: the number of arguments, and the result (`none`: the function fails). -/
structure Ext (B : Type) where
  arity : Nat → Nat
  run : Nat → List (Scalar B) → Option (Scalar B)

/-- The node an external function makes of the redex. -/
def Ext.node {B : Type} (ext : Ext B) (p : Nat) (ss : List (Scalar B)) : Node B :=
  match ext.run p ss with
  | some s => s.node
  | none => .fail

section
variable {B E : Type} [DecidableEq B] (bs : Bools B E)

/-- Results of merging so far. -/
abbrev Memo := List ((Nat × Nat) × Nat)

/-- `IS_NONE` (graph.c:1796). -/
def isNone (nd : Node B) : Bool :=
  match nd with
  | .con (.str s) => decide (s = cname ['N', 'O', 'N', 'E'])
  | _ => false

/-- Merging of two nodes with the sons `a b` and `a' b'` (graph.c:1950-1985 and 2017-2045). -/
def mergeSons (rec : St B → Memo → Nat → Nat → Option (St B × Memo × Nat)) (mk : Nat → Nat → Node B)
    (st : St B) (memo : Memo) (l r a b a' b' : Nat) : Option (St B × Memo × Nat) :=
  let res := st.size
  match rec (st.alloc .hole false).1 (((l, r), res) :: memo) a a' with
  | none => none
  | some (st, memo, x) =>
    if st.isFail x then some (st, memo, x)
    else match rec st memo b b' with
      | none => none
      | some (st, memo, y) =>
        if st.isFail y then some (st, memo, y)
        else if x = a ∧ y = b then some (st, ((l, r), l) :: memo, l)
        else if x = a' ∧ y = b' then some (st, ((l, r), r) :: memo, r)
        else some (st.put res (mk x y) false, memo, res)

/-- `FAIL_GM2` (graph.c:1890). -/
def mergeFail (st : St B) (memo : Memo) : Option (St B × Memo × Nat) :=
  some ((st.alloc .fail false).1, memo, (st.alloc .fail false).2)

/-- Merging of two nodes, with the leaf function `g_b_ite` (graph.c:1918-2095, 6018-6050). -/
def mergeNodes (c : B) (rec : St B → Memo → Nat → Nat → Option (St B × Memo × Nat)) (st : St B) (memo : Memo)
    (l r : Nat) : Option (St B × Memo × Nat) :=
  match memo.lookup (l, r) with
  | some res => some (st, memo, res)
  | none =>
    match st.node l, st.node r with
    | some (.app a b), some (.app a' b') => mergeSons rec .app st memo l r a b a' b'
    | some (.cons a b), some (.cons a' b') => mergeSons rec .cons st memo l r a b a' b'
    | some (.bool f), some (.bool g) =>
      let h := bs.or (bs.and c f) (bs.and (bs.not c) g)
      if h = f then some (st, ((l, r), l) :: memo, l)
      else if h = g then some (st, ((l, r), r) :: memo, r)
      else some ((st.alloc (.bool h) true).1, ((l, r), st.size) :: memo, st.size)
    | some (.con a), some (.con b) =>
      if a = b ∧ (l = r ∨ a.isLeaf = true) then some (st, ((l, r), l) :: memo, l) else mergeFail st memo
    | some .hole, _ => none
    | _, some .hole => none
    | none, _ => none
    | _, none => none
    | _, _ => mergeFail st memo

/-- `Gen_map2` with the leaf function `g_b_ite` (graph.c:1898-2095) and condition `c`: the structure that
is `l` where `c` holds and `r` elsewhere, or FAIL.  A NONE is replaced by the other structure first.  Not
modelled: reference variables, external objects, bexprs. -/
def merge (c : B) : Nat → St B → Memo → Nat → Nat → Option (St B × Memo × Nat)
  | 0, _, _, _, _ => none
  | k + 1, st, memo, l, r =>
    match st.node l, st.node r with
    | some nl, some nr =>
      mergeNodes bs c (merge c k) (if isNone nl = isNone nr then st else { st with taint := true }) memo
        (if isNone nl then r else l) (if isNone nl then r else if isNone nr then l else r)
    | _, _ => none

/-- The loop of `force` (graph.c:5064-5090) with the reducer `tr`: everything that can be reached from
`node` through list cells and pairs is reduced and marked. -/
def forceLoop (tr : St B → Nat → Option (St B × Nat)) (node : Nat) : Nat → St B → List Nat → Option (St B × Nat)
  | 0, _, _ => none
  | _ + 1, st, [] => some (st, node)
  | k + 1, st, cur :: todo =>
    if st.forced cur then forceLoop tr node k st todo
    else match tr st cur with
      | none => none
      | some (st, cur) =>
        if st.isFail cur then some (st.put node .fail false, node)
        else
          let st := st.mark cur
          match st.node cur with
          | some (.cons h t) => forceLoop tr node k st (h :: t :: todo)
          | _ => forceLoop tr node k st todo

/-- `force` (graph.c:5052-5090). -/
def force (tr : St B → Nat → Option (St B × Nat)) (k : Nat) (st : St B) (node : Nat) : Option (St B × Nat) :=
  if st.forced node then some (st, node) else forceLoop tr node k st [node]

/-- The arguments on the spine: the right sons of the nodes, when the nodes still form a spine above
`root`.  (The code reads the right sons without the test; that a nested evaluation has changed the spine
counts as undefined here.) -/
def rights (st : St B) (root : Nat) : List Nat → Option (List Nat)
  | [] => some []
  | n :: ns =>
    match st.node n with
    | some (.app l r) => if l = root then (rights st n ns).map (r :: ·) else none
    | _ => none

/-- The rules that only rebuild the redex (graph.c:3114-3495 and 3636-3648). -/
def contract (st : St B) (redex : Nat) : Con → List Nat → Option (St B)
  | .S, [f, g, x] =>
    let (st, a) := st.alloc (.app f x) false
    let (st, b) := st.alloc (.app g x) false
    some (st.put redex (.app a b) false)
  | .S', [m, n, o, p] =>
    let (st, a) := st.alloc (.app n p) false
    let (st, b) := st.alloc (.app m a) false
    let (st, c) := st.alloc (.app o p) false
    some (st.put redex (.app b c) false)
  | .C, [f, x, y] =>
    let (st, a) := st.alloc (.app f y) false
    some (st.put redex (.app a x) false)
  | .C', [m, n, o, p] =>
    let (st, a) := st.alloc (.app n p) false
    let (st, b) := st.alloc (.app m a) false
    some (st.put redex (.app b o) false)
  | .B, [f, g, x] =>
    let (st, a) := st.alloc (.app g x) false
    some (st.put redex (.app f a) false)
  | .Bstar, [c, f, g, x] =>
    let (st, a) := st.alloc (.app g x) false
    let (st, b) := st.alloc (.app f a) false
    some (st.put redex (.app c b) false)
  | .B', [c, f, g, x] =>
    let (st, a) := st.alloc (.app c f) false
    let (st, b) := st.alloc (.app g x) false
    some (st.put redex (.app a b) false)
  | .Y, [f] => some (st.put redex (.app f redex) false)
  | .cons, [x, y] => some (st.put redex (.cons x y) false)
  | .tuple, [x, y] => some (st.put redex (.cons x y) false)
  | _, _ => none

/-- Tests of list cells and pairs (graph.c:4030-4060). -/
def test1 : Con → Node B → Option B
  | .empty, .con .nil => some bs.one
  | .empty, .cons _ _ => some bs.zero
  | .isCons, .con .nil => some bs.zero
  | .isCons, .cons _ _ => some bs.one
  | .isTuple, .con (.str _) => some bs.zero
  | .isTuple, .cons _ _ => some bs.one
  | _, _ => none

/-- Comparisons (graph.c:3746-3800, `Is_equal` 4951-5010) of scalars: the result, and whether it is the
same for all assignments although the arguments are not. -/
def test2 : Con → Node B → Node B → Option (B × Bool)
  | .equal, .con (.int m), .con (.int n) => some (if m = n then bs.one else bs.zero, false)
  | .equal, .bool f, .bool g => some (bs.xnor f g, false)
  | .constrEq, .con (.str s), .con (.str t) => some (if s = t then bs.one else bs.zero, false)
  | .constrEq, .cons _ _, .con (.str _) => some (bs.zero, false)
  | .identical, .bool f, .bool g =>
    some (if f = g then bs.one else bs.zero,
      !(decide (f = g) || (decide (f = bs.one ∨ f = bs.zero) && decide (g = bs.one ∨ g = bs.zero))))
  | _, _, _ => none

/-- The son of a list cell or pair that HEAD, TAIL, FST and SND select. -/
def field : Con → Nat → Nat → Nat
  | .head, h, _ => h
  | .fst, h, _ => h
  | _, _, t => t

/-- Evaluates the arguments of an external function in order; `.inr n`: argument `n` failed
(graph.c:4548-4562). -/
def evalArgs (tr : St B → Nat → Option (St B × Nat)) : St B → List Nat → Option (St B × (List Nat ⊕ Nat))
  | st, [] => some (st, .inl [])
  | st, a :: as =>
    match tr st a with
    | none => none
    | some (st, a) =>
      if st.isFail a then some (st, .inr a)
      else match evalArgs tr st as with
        | none => none
        | some (st, .inr n) => some (st, .inr n)
        | some (st, .inl ns) => some (st, .inl (a :: ns))

/-- The scalars at the nodes. -/
def scalars (st : St B) : List Nat → Option (List (Scalar B))
  | [] => some []
  | n :: ns =>
    match (st.node n).bind Node.scalar, scalars st ns with
    | some s, some ss => some (s :: ss)
    | _, _ => none

/-- Evaluates `n` and overwrites the redex with it. -/
def project (tr : St B → Nat → Option (St B × Nat)) (st : St B) (redex : Nat) (old : Node B) (n : Nat) :
    Option (St B) :=
  match tr st n with
  | none => none
  | some (st, n) => st.overwrite redex old n

/-- COND (graph.c:4198-4280).  Left out: the redex is cut off from the branch that is not taken, so that
this can be collected while the other one is evaluated. -/
def fireCond (tr fo : St B → Nat → Option (St B × Nat)) (k : Nat) (st : St B) (redex : Nat) (old : Node B)
    (a1 a2 a3 : Nat) : Option (St B) :=
  match tr st a1 with
  | none => none
  | some (st, a1) =>
    if st.isFail a1 then st.overwrite redex old a1
    else match st.node a1 with
      | some (.bool f) =>
        if f = bs.one then project tr st redex old a2
        else if f = bs.zero then project tr st redex old a3
        else
          let res := st.cond
          if bs.and res f = bs.zero then
            (project tr { st with cond := bs.and res (bs.not f), taint := true }
              redex old a3).map fun st => { st with cond := res }
          else if bs.and res (bs.not f) = bs.zero then
            (project tr { st with cond := bs.and res f, taint := true }
              redex old a2).map fun st => { st with cond := res }
          else match fo { st with cond := bs.and res f } a2 with
            | none => none
            | some (st, a2) =>
              if st.isFail a2 then ({ st with cond := res } : St B).overwrite redex old a2
              else match fo { st with cond := bs.and res (bs.not f) } a3 with
                | none => none
                | some (st, a3) =>
                  if st.isFail a3 then ({ st with cond := res } : St B).overwrite redex old a3
                  else match merge bs f k { st with cond := res } [] a2 a3 with
                    | none => none
                    | some (st, _, n) => st.overwrite redex old n
      | _ => none

/-- CONSTR_EQ, EQUAL, IDENTICAL (graph.c:3746-3790). -/
def fireCmp (tr : St B → Nat → Option (St B × Nat)) (st : St B) (redex : Nat) (old : Node B) (c : Con)
    (x y : Nat) : Option (St B) :=
  match tr st x with
  | none => none
  | some (st, x) =>
    if st.isFail x then st.overwrite redex old x
    else match tr st y with
      | none => none
      | some (st, y) =>
        if st.isFail y then st.overwrite redex old y
        else match st.node x, st.node y with
          | some nx, some ny =>
            match test2 bs c nx ny with
            | none => none
            | some (f, syn) => ({ st with taint := st.taint || syn } : St B).rewrite redex old (.bool f) false
          | _, _ => none

/-- EMPTY, IS_CONS, IS_TUPLE (graph.c:3980-4060). -/
def fireTest (tr : St B → Nat → Option (St B × Nat)) (st : St B) (redex : Nat) (old : Node B) (c : Con)
    (x : Nat) : Option (St B) :=
  match tr st x with
  | none => none
  | some (st, x) =>
    if st.isFail x then st.overwrite redex old x
    else match st.node x with
      | none => none
      | some nx =>
        match test1 bs c nx with
        | none => none
        | some f => st.rewrite redex old (.bool f) false

/-- HEAD, TAIL, FST, SND (graph.c:3500-3600). -/
def fireField (tr : St B → Nat → Option (St B × Nat)) (st : St B) (redex : Nat) (old : Node B) (c : Con)
    (x : Nat) : Option (St B) :=
  match tr st x with
  | none => none
  | some (st, x) =>
    if st.isFail x then st.overwrite redex old x
    else match st.node x with
      | some (.cons h t) => project tr st redex old (field c h t)
      | some (.con .nil) => st.rewrite redex old .fail false
      | _ => none

/-- SEQ (graph.c:3207-3230). -/
def fireSeq (tr : St B → Nat → Option (St B × Nat)) (st : St B) (redex : Nat) (old : Node B) (x y : Nat) :
    Option (St B) :=
  match tr st x with
  | none => none
  | some (st, x) => if st.isFail x then st.overwrite redex old x else project tr st redex old y

/-- PCATCH (graph.c:3321-3338). -/
def firePcatch (tr : St B → Nat → Option (St B × Nat)) (st : St B) (redex : Nat) (old : Node B) (x y : Nat) :
    Option (St B) :=
  match tr st x with
  | none => none
  | some (st, x) =>
    if st.node x = some (.con .pfail) then project tr st redex old y else st.overwrite redex old x

/-- ERROR (graph.c:3791-3799). -/
def fireError (tr : St B → Nat → Option (St B × Nat)) (st : St B) (redex : Nat) (old : Node B) (x : Nat) :
    Option (St B) :=
  match tr st x with
  | none => none
  | some (st, x) =>
    if st.isFail x then st.overwrite redex old x else st.rewrite redex old .fail false

/-- A function of the external interface (graph.c:4534-4625). -/
def fireExt (ext : Ext B) (tr : St B → Nat → Option (St B × Nat)) (st : St B) (redex : Nat) (old : Node B)
    (p : Nat) (as : List Nat) : Option (St B) :=
  match evalArgs tr st as with
  | none => none
  | some (st, .inr n) => st.overwrite redex old n
  | some (st, .inl ns) =>
    match scalars st ns with
    | none => none
    | some ss => st.rewrite redex old (ext.node p ss) true

/-- One rule: the state after the redex, a primitive with its arguments, is rewritten.  `tr` is the
recursive call of `traverse_left`, `fo` that of `force`. -/
def fire (ext : Ext B) (tr fo : St B → Nat → Option (St B × Nat)) (k : Nat) (st : St B) (redex : Nat)
    (old : Node B) : Con → List Nat → Option (St B)
  | .K, [x, _] => project tr st redex old x
  | .I, [x] => project tr st redex old x
  | .namedArg, [x, _, _] => project tr st redex old x
  | .seq, [x, y] => fireSeq tr st redex old x y
  | .pcatch, [x, y] => firePcatch tr st redex old x y
  | .error, [x] => fireError tr st redex old x
  | .cond, [a1, a2, a3] => fireCond bs tr fo k st redex old a1 a2 a3
  | .equal, [x, y] => fireCmp bs tr st redex old .equal x y
  | .constrEq, [x, y] => fireCmp bs tr st redex old .constrEq x y
  | .identical, [x, y] => fireCmp bs tr st redex old .identical x y
  | .empty, [x] => fireTest bs tr st redex old .empty x
  | .isCons, [x] => fireTest bs tr st redex old .isCons x
  | .isTuple, [x] => fireTest bs tr st redex old .isTuple x
  | .head, [x] => fireField tr st redex old .head x
  | .tail, [x] => fireField tr st redex old .tail x
  | .fst, [x] => fireField tr st redex old .fst x
  | .snd, [x] => fireField tr st redex old .snd x
  | .prim p, as => fireExt ext tr st redex old p as
  | c, as => contract st redex c as

/-- The body of `traverse_left` from the label `start` (graph.c:3085-4776): `spine` is the part of the
stack above the entry (`depth` many nodes, the top first). -/
def loop (ext : Ext B) (tr fo : St B → Nat → Option (St B × Nat)) :
    Nat → St B → Nat → List Nat → Option (St B × Nat)
  | 0, _, _, _ => none
  | k + 1, st, root, spine =>
    match st.node root with
    | none => none
    | some .hole => none
    | some (.app l _) => loop ext tr fo k st l (root :: spine)
    | some (.cons _ _) => if spine = [] then some (st, root) else none
    | some (.bool _) => if spine = [] then some (st, root) else none
    | some .fail =>
      match rights st root spine, spine.getLast? with
      | none, _ => none
      | some _, none => some (st, root)
      | some _, some r => some (st.put r .fail false, r)
    | some (.con c) =>
      match rights st root spine with
      | none => none
      | some as =>
        let n := arity ext.arity c
        if n = 0 then
          match c with
          | .prim p => loop ext tr fo k (st.put root (ext.node p []) true) root spine
          | _ => if spine = [] then some (st, root) else none
        else if spine.length < n then some (st, spine.getLastD root)
        else
          match spine[n - 1]? with
          | none => none
          | some redex =>
            match st.node redex with
            | none => none
            | some old =>
              match fire bs ext tr fo k st redex old c (as.take n) with
              | none => none
              | some st => loop ext tr fo k st redex (spine.drop n)

/-- `traverse_left` (graph.c:3053-4778). -/
def trav (ext : Ext B) : Nat → St B → Nat → Option (St B × Nat)
  | 0, _, _ => none
  | k + 1, st, n =>
    if st.forced n then some (st, n)
    else loop bs ext (trav ext k) (force (trav ext k) k) k st n []

/-- `Make_0inp_Primitive`, `Make_INT_leaf`, `Make_APPL_ND` and so on along combinator code, with the
variables linked to existing nodes.  Leaves of constants are marked FORCED. -/
def load (link : Name → Option Nat) : Code → St B → Option (St B × Nat)
  | .var x, st => (link x).map fun n => (st, n)
  | .con .tt, st => some (st.alloc (.bool bs.one) true)
  | .con .ff, st => some (st.alloc (.bool bs.zero) true)
  | .con (.int n), st => some (st.alloc (.con (.int n)) true)
  | .con (.str s), st => some (st.alloc (.con (.str s)) true)
  | .con c, st => some (st.alloc (.con c) false)
  | .app a b, st =>
    match load link a st with
    | none => none
    | some (st, l) =>
      match load link b st with
      | none => none
      | some (st, r) => some (st.alloc (.app l r) false)

/-- Evaluation of an expression: the code is loaded and forced (`Eval`, graph.c:5340-5352). -/
def evaluate (ext : Ext B) (k : Nat) (link : Name → Option Nat) (c : Code) (st : St B) : Option (St B × Nat) :=
  match load bs link c st with
  | none => none
  | some (st, n) => force (trav bs ext k) k st n

end
end Voss.Fl
