import Verif.Pre.Range
import Verif.Bv.Spec
/-
Model of src/vosslib/symbolic_lists.fl: lists whose length depends on Boolean variables.

Boolean functions, the outcome of an evaluation and conditionals with a symbolic condition are those of C86-C89
(`Fn`, `Out`, `branch`); `p` is the condition that the enclosing conditionals amount to when the function is called.
The elements are of any type `V`; what a symbolic conditional makes of two elements (graph.c:1918-2095, `Gen_map2`) is
the parameter `m`.  Arguments are completely evaluated before the call, and results are completely evaluated, except
where a function is given an argument that is not (`Arg`).
-/
namespace Voss.Slist
open Voss.Pre

variable {o : Order} {V W : Type}

/-- symbolic_lists.fl:2, values of the type `slist opt`: `none` is NONE, `node leaf hd tl` is
SOME (S_LIST leaf hd tl). -/
inductive SList (o : Order) (V : Type) where
  | none
  | node (leaf : Fn o) (hd : Option V) (tl : SList o V)
  deriving DecidableEq

/-- graph.c:1936-1938: NONE is replaced by the other value. -/
def mergeOpt (m : Fn o → V → V → Out V) (c : Fn o) : Option V → Option V → Out (Option V)
  | .none, .none => .ok .none
  | .none, .some y => (m c y y).bind fun z => .ok (some z)
  | .some x, .none => (m c x x).bind fun z => .ok (some z)
  | .some x, .some y => (m c x y).bind fun z => .ok (some z)

/-- graph.c:1918-2095, a list merged with itself, because the other value is NONE. -/
def mergeSelf (m : Fn o → V → V → Out V) (c : Fn o) : SList o V → Out (SList o V)
  | .none => .ok .none
  | .node l h t =>
    (mergeBool c l l).bind fun l' => (mergeOpt m c h h).bind fun h' => (mergeSelf m c t).bind fun t' =>
      .ok (.node l' h' t')

/-- graph.c:1918-2095, what a symbolic conditional makes of two lists. -/
def merge (m : Fn o → V → V → Out V) (c : Fn o) : SList o V → SList o V → Out (SList o V)
  | .none, y => mergeSelf m c y
  | x, .none => mergeSelf m c x
  | .node l1 h1 t1, .node l2 h2 t2 =>
    (mergeBool c l1 l2).bind fun l => (mergeOpt m c h1 h2).bind fun h => (merge m c t1 t2).bind fun t =>
      .ok (.node l h t)

/-- symbolic_lists.fl:5. -/
def sNil (o : Order) (V : Type) : SList o V := .node (Fn.tt o) none .none
/-- symbolic_lists.fl:6. -/
def sCons (e : V) (l : SList o V) : SList o V := .node (Fn.ff o) (some e) l

/-- symbolic_lists.fl:9 `is_s_NIL`. -/
def isNil : SList o V → Out (Fn o)
  | .node leaf _ _ => .ok leaf
  | .none => .fail
/-- symbolic_lists.fl:10 `is_s_CONS`. -/
def isCons : SList o V → Out (Fn o)
  | .node leaf _ _ => .ok leaf.not
  | .none => .fail

/-- symbolic_lists.fl:19-22; the two outcomes of a symbolic condition are lists of different lengths, which cannot be
merged. -/
def list2 : SList o V → Out (List V)
  | .none => .fail
  | .node leaf hd tl =>
    if leaf = Fn.tt o then .ok []
    else if leaf = Fn.ff o then
      match hd with
      | some h => (list2 tl).bind fun l => .ok (h :: l)
      | none => .fail
    else .fail

/-- `depends` of a list; `vs` is `depends` of an element. -/
def vars (vs : V → List String) : SList o V → List String
  | .none => []
  | .node leaf hd tl => leaf.1.vars ++ (hd.elim [] vs) ++ vars vs tl

/-- symbolic_lists.fl:14-25 `slist2list`. -/
def slist2list (vs : V → List String) (x : SList o V) : Out (List V) :=
  if vars vs x ≠ [] then .fail else list2 x

/-- symbolic_lists.fl:33-36, `exp`. -/
def exp : Fn o → SList o V → Out (List (Fn o × V))
  | _, .none => .fail
  | cond, .node leaf hd tl =>
    if leaf = Fn.tt o then .ok []
    else
      let cond' := cond.and leaf.not
      match hd with
      | some h => (exp cond' tl).bind fun l => .ok ((cond', h) :: l)
      | none => .fail

/-- symbolic_lists.fl:30-39 `slist2guarded_list`. -/
def slist2guardedList (vs : V → List String) (x : SList o V) : Out (List (Fn o × V)) :=
  if vars vs x = [] then (slist2list vs x).bind fun l => .ok (l.map fun e => (Fn.tt o, e))
  else exp (Fn.tt o) x

/-- symbolic_lists.fl:42-48 `list2slist`. -/
def list2slist (o : Order) : List V → SList o V
  | [] => sNil o V
  | e :: l => sCons e (list2slist o l)

/-- symbolic_lists.fl:50-54 `s_append`, the second list evaluated. -/
def append (m : Fn o → V → V → Out V) : Fn o → SList o V → SList o V → Out (SList o V)
  | _, .none, _ => .fail
  | p, .node leaf hd tl, y =>
    branch p leaf (fun _ => .ok y)
      (fun p => match hd with
        | some h => (append m p tl y).bind fun r => .ok (sCons h r)
        | none => .fail)
      (merge m)

/-- symbolic_lists.fl:56-60 `s_length`. -/
def length : Fn o → SList o V → Out (List (Fn o))
  | _, .none => .fail
  | p, .node leaf hd tl =>
    branch p leaf (fun _ => .ok [Fn.ff o])
      (fun p => match hd with
        | some _ => (length p tl).bind fun r => Out.ofOption (Bv.bvAdd r [Fn.ff o, Fn.tt o])
        | none => .fail)
      mergeBv

/-- symbolic_lists.fl:62-66 `s_rev`. -/
def rev (m : Fn o → V → V → Out V) : Fn o → SList o V → Out (SList o V)
  | _, .none => .fail
  | p, .node leaf hd tl =>
    branch p leaf (fun _ => .ok (.node leaf hd tl))
      (fun p => match hd with
        | some h => (rev m p tl).bind fun r => append m p r (sCons h (sNil o V))
        | none => .fail)
      (merge m)

/-- symbolic_lists.fl:70-72, `get_last`. -/
def getLast (m : Fn o → V → V → Out V) : Fn o → SList o V → Out V
  | p, .node _ (some h) (.node l' h' t') =>
    branch p l' (fun _ => .ok h) (fun p => getLast m p (.node l' h' t')) m
  | _, _ => .fail

/-- symbolic_lists.fl:68-75 `s_last`. -/
def last (m : Fn o → V → V → Out V) (p : Fn o) (x : SList o V) : Out V :=
  (isNil x).bind fun leaf => branch p leaf (fun _ => .fail) (fun p => getLast m p x) m

/-- symbolic_lists.fl:79-81, `get_all_byt_last`. -/
def getButlast (m : Fn o → V → V → Out V) : Fn o → SList o V → Out (SList o V)
  | p, .node _ (some h) (.node l' h' t') =>
    branch p l' (fun _ => .ok (sNil o V))
      (fun p => (getButlast m p (.node l' h' t')).bind fun r => .ok (sCons h r)) (merge m)
  | _, _ => .fail

/-- symbolic_lists.fl:77-84 `s_butlast`. -/
def butlast (m : Fn o → V → V → Out V) (p : Fn o) (x : SList o V) : Out (SList o V) :=
  (isNil x).bind fun leaf => branch p leaf (fun _ => .fail) (fun p => getButlast m p x) (merge m)

/-- symbolic_lists.fl:86-90 `s_el`. -/
def el (m : Fn o → V → V → Out V) : Fn o → List (Fn o) → SList o V → Out V
  | _, _, .none => .fail
  | p, idx, .node leaf hd tl =>
    branch p leaf (fun _ => .fail)
      (fun p => match hd with
        | some h => (Out.ofOption (Bv.bvEq idx [Fn.ff o, Fn.tt o])).bind fun c =>
          branch p c (fun _ => .ok h)
            (fun p => (Out.ofOption (Bv.bvSub idx [Fn.ff o, Fn.tt o])).bind fun i => el m p i tl) m
        | none => .fail)
      m

/-- symbolic_lists.fl:92-96 `s_map`; the function is evaluated under the condition that it runs under. -/
def map (m : Fn o → W → W → Out W) (fn : Fn o → V → Out W) : Fn o → SList o V → Out (SList o W)
  | _, .none => .fail
  | p, .node leaf hd tl =>
    branch p leaf (fun _ => .ok (sNil o W))
      (fun p => match hd with
        | some h => (fn p h).bind fun w => (map m fn p tl).bind fun r => .ok (sCons w r)
        | none => .fail)
      (merge m)

/-- symbolic_lists.fl:98-103 `s_filter`. -/
def filter (m : Fn o → V → V → Out V) (pred : Fn o → V → Out (Fn o)) : Fn o → SList o V → Out (SList o V)
  | _, .none => .fail
  | p, .node leaf hd tl =>
    branch p leaf (fun _ => .ok (sNil o V))
      (fun p => match hd with
        | some h => (pred p h).bind fun keep =>
          branch p keep (fun p => (filter m pred p tl).bind fun r => .ok (sCons h r))
            (fun p => filter m pred p tl) (merge m)
        | none => .fail)
      (merge m)

/-- symbolic_lists.fl:105-109 `s_itlist`, the base evaluated. -/
def itlist (m : Fn o → W → W → Out W) (fn : Fn o → V → W → Out W) : Fn o → SList o V → W → Out W
  | _, .none, _ => .fail
  | p, .node leaf hd tl, base =>
    branch p leaf (fun _ => .ok base)
      (fun p => match hd with
        | some h => (itlist m fn p tl base).bind fun r => fn p h r
        | none => .fail)
      m

/-! ### Arguments that are not evaluated -/

/-- An argument: an expression that is not evaluated yet (it will be under the condition of the conditional that asks
for it first, graph.c:4198-4256), or its value, which replaces it (graph.c `OVERWRITE`). -/
inductive Arg (o : Order) (W : Type) where
  | expr (f : Fn o → Out W)
  | value (w : W)

def Arg.eval (p : Fn o) : Arg o W → Out (W × Arg o W)
  | .expr f => (f p).bind fun w => .ok (w, .value w)
  | .value w => .ok (w, .value w)

/-- graph.c:4198-4256 as `branch`, with an argument that both branches refer to. -/
def branchArg {α : Type} (p c : Fn o) (t e : Fn o → Arg o W → Out (α × Arg o W)) (merge : Fn o → α → α → Out α)
    (a : Arg o W) : Out (α × Arg o W) :=
  if c = Fn.tt o then t p a
  else if c = Fn.ff o then e p a
  else if p.and c = Fn.ff o then e (p.and c.not) a
  else if p.and c.not = Fn.ff o then t (p.and c) a
  else (t (p.and c) a).bind fun xa => (e (p.and c.not) xa.2).bind fun yb =>
    (merge c xa.1 yb.1).bind fun z => .ok (z, yb.2)

/-- symbolic_lists.fl:50-54 `s_append` with any second argument. -/
def appendArg (m : Fn o → V → V → Out V) : Fn o → SList o V → Arg o (SList o V) →
    Out (SList o V × Arg o (SList o V))
  | _, .none, _ => .fail
  | p, .node leaf hd tl, y =>
    branchArg p leaf (fun p a => a.eval p)
      (fun p a => match hd with
        | some h => (appendArg m p tl a).bind fun r => .ok (sCons h r.1, r.2)
        | none => .fail)
      (merge m) y

/-- symbolic_lists.fl:105-109 `s_itlist` with any base. -/
def itlistArg (m : Fn o → W → W → Out W) (fn : Fn o → V → W → Out W) : Fn o → SList o V → Arg o W →
    Out (W × Arg o W)
  | _, .none, _ => .fail
  | p, .node leaf hd tl, base =>
    branchArg p leaf (fun p a => a.eval p)
      (fun p a => match hd with
        | some h => (itlistArg m fn p tl a).bind fun r => (fn p h r.1).bind fun w => .ok (w, r.2)
        | none => .fail)
      m base

/-- symbolic_lists.fl:111 `s_accumulate`: `s_last sl` is not evaluated before the call. -/
def accumulate (m : Fn o → V → V → Out V) (fn : Fn o → V → V → Out V) (p : Fn o) (x : SList o V) : Out V :=
  (butlast m p x).bind fun b => (itlistArg m fn p b (.expr fun p => last m p x)).bind fun r => .ok r.1

/-! ### Lists of numbers -/

/-- symbolic_lists.fl:115-117, `build`; the number bounds the depth of the calls. -/
def buildUp (lim : List (Fn o)) : Nat → Fn o → List (Fn o) → Out (SList o (List (Fn o)))
  | 0, _, _ => .more
  | k + 1, p, cur =>
    (Out.ofOption (Bv.bvGreater cur lim)).bind fun c =>
      branch p c (fun _ => .ok (sNil o _))
        (fun p => (Out.ofOption (Bv.bvAdd cur [Fn.ff o, Fn.tt o])).bind fun n =>
          (buildUp lim k p n).bind fun r => .ok (sCons cur r))
        (merge mergeBv)

/-- symbolic_lists.fl:114-120 `s_upto`. -/
def upto (k : Nat) (p : Fn o) (start lim : List (Fn o)) : Out (SList o (List (Fn o))) := buildUp lim k p start

/-- symbolic_lists.fl:123-125, `build`. -/
def buildDown (lim : List (Fn o)) : Nat → Fn o → List (Fn o) → Out (SList o (List (Fn o)))
  | 0, _, _ => .more
  | k + 1, p, cur =>
    (Out.ofOption (Bv.bvLess cur lim)).bind fun c =>
      branch p c (fun _ => .ok (sNil o _))
        (fun p => (Out.ofOption (Bv.bvSub cur [Fn.ff o, Fn.tt o])).bind fun n =>
          (buildDown lim k p n).bind fun r => .ok (sCons cur r))
        (merge mergeBv)

/-- symbolic_lists.fl:122-128 `s_downto`. -/
def downto (k : Nat) (p : Fn o) (start lim : List (Fn o)) : Out (SList o (List (Fn o))) := buildDown lim k p start

end Voss.Slist
