import Verif.Ste.Model
/-
Model of the circuit compiler of src/bin/fl/fsm.c: how the update functions of a leaf of a circuit
description (pexlif) become components (fsm.c:4486-5040, 6843-6862).

A node list (`ilist_ptr`, a list of runs of consecutive node numbers) is the list of its nodes, most
significant first.  Sizes are natural numbers, indices are integers within the range of the C type.
Name lookup (`map_vector`, fsm.c:5249-5352) is a parameter: `look` gives the nodes of a vector name that
has been declared.  Temporary vectors (`__tmp<n>`) get the next free node numbers, as in `declare_vector`
(fsm.c:5091-5121); that no declared name is called `__tmp<n>` is assumed.
-/
namespace Voss.Comp
open Voss.Sim (Prim)
open Voss.Ste (Comp Net)

/-- Word operators on two words of the same size (fsm.c:8155-8207 `is_binary_wexpr`). -/
inductive Bin where
  | and | or | add | sub | mul | div | mod | shl | shr | ashr | latLeq
  deriving DecidableEq, Repr

/-- Relations between two words (fsm.c:8209-8225 `is_relation_wexpr`). -/
inductive Rel where
  | eq | gr
  deriving DecidableEq, Repr

/-- Word expressions (preamble.fl:2047-2083).  `W_NAMED_CONST` and `W_NAMED_SLICE` are `const` and `slice`:
the name plays no part in `compile_expr`. -/
inductive WExpr where
  | x (sz : Nat)
  | const (sz : Nat) (v : List Arbi.W)
  | var (sz : Nat) (base : String)
  | evar (sz : Nat) (name : String)
  | bin (op : Bin) (l r : WExpr)
  | rel (op : Rel) (l r : WExpr)
  | not (e : WExpr)
  | pred (name : String) (e : WExpr)
  | sx (sz : Nat) (e : WExpr)
  | zx (sz : Nat) (e : WExpr)
  | ite (c t e : WExpr)
  | slice (idxs : List Int) (e : WExpr)
  | upd (base : WExpr) (idxs : List Int) (new : WExpr)
  | cat (parts : List WExpr)
  | memRead (asz lines dsz : Nat) (mem addr : WExpr)
  | memWrite (asz lines dsz : Nat) (mem addr data : WExpr)
  | idelay (sz minRise maxRise minFall maxFall : Nat) (cur : WExpr) (hist : List WExpr)

/-- Outcome: a result, a reported error (`Rprintf`, `Fail_pr`), or undefined behaviour. -/
inductive Out (α : Type) where
  | ok (a : α)
  | err
  | ub
  deriving DecidableEq, Repr

def Out.bind {α β : Type} : Out α → (α → Out β) → Out β
  | .ok a, f => f a
  | .err, _ => .err
  | .ub, _ => .ub

/-- fsm.c:4992-5000 `mk_vec_name` (names of more than 4000 characters are not truncated here). -/
def vecName (base : String) (sz : Nat) : String :=
  if sz = 1 then base else base ++ "[" ++ toString ((sz : Int) - 1) ++ ":0]"

mutual
/-- fsm.c:4486-4544 `get_wexpr_size`.  For a memory read the address size and the data size are fetched in
the wrong order (4537-4538 against pexlif.c:1914), so that the result is the address size. -/
def wsize : WExpr → Nat
  | .x sz => sz
  | .const sz _ => sz
  | .var sz _ => sz
  | .evar sz _ => sz
  | .bin _ l _ => wsize l
  | .rel _ _ _ => 1
  | .not e => wsize e
  | .pred _ _ => 1
  | .sx sz _ => sz
  | .zx sz _ => sz
  | .ite _ t _ => wsize t
  | .slice idxs _ => idxs.length
  | .upd base _ _ => wsize base
  | .cat parts => wsizes parts
  | .memRead asz _ _ _ _ => asz
  | .memWrite _ _ _ mem _ _ => wsize mem
  | .idelay sz _ _ _ _ _ _ => sz
/-- The loop of `get_wexpr_size` over the parts of a concatenation (fsm.c:4528-4535). -/
def wsizes : List WExpr → Nat
  | [] => 0
  | e :: es => wsize e + wsizes es
end

/-- What compiling an operand yields: its nodes, the next free node, the components pushed. -/
abbrev Arg := Nat → Out (List Nat × Nat × Net)

/-- fsm.c:4558-4580 `make_input_arg`.  `go next outs` is the recursive call of `compile_expr`. -/
def arg (look : String → List Nat) (go : Nat → List Nat → Out (Nat × Net)) (e : WExpr) (sz : Nat) : Arg := fun next =>
  match e with
  | .var sz base => .ok (look (vecName base sz), next, [])
  | .evar _ name => .ok (look name, next, [])
  | _ => (go (next + sz) (List.range' next sz)).bind fun r => .ok (List.range' next sz, r.1, r.2)

/-- Operands are compiled in order; their nodes are appended (fsm.c:4665-4675 and similar). -/
def seq : List Arg → Arg
  | [], next => .ok ([], next, [])
  | a :: as, next => (a next).bind fun r => (seq as r.2.1).bind fun s => .ok (r.1 ++ s.1, s.2.1, r.2.2 ++ s.2.2)

/-- The operator codes. -/
def Bin.prim : Bin → Prim
  | .and => .and | .or => .or | .add => .add | .sub => .sub | .mul => .mul | .div => .div | .mod => .mod
  | .shl => .shl | .shr => .shr | .ashr => .ashr | .latLeq => .latLeq

def Rel.prim : Rel → Nat → Prim
  | .eq, n => .eq n
  | .gr, n => .gr n

/-- The component is pushed before those of its operands; its inputs are filled in afterwards. -/
def push (p : Prim) (size : Nat) (outs : List Nat) (pdel : Bool) (args : List Arg) (next : Nat) : Out (Nat × Net) :=
  (seq args next).bind fun r => .ok (r.2.1, ⟨p, size, r.1, outs, pdel, 0⟩ :: r.2.2)

/-- Index lists: position from the most significant end (fsm.c:4826-4838, 4882-4889). -/
def fromMsb (n : Nat) (idxs : List Int) : List Int := idxs.map fun i => (n : Int) - i - 1

/-- Appending to a list of no nodes follows a null pointer (`cinps->next` in fsm.c:4750, `cur->next` in 4909,
4949, 4968). -/
def nonNull (a : Arg) : Arg := fun next => (a next).bind fun r => if r.1 = [] then .ub else .ok r

mutual
/-- fsm.c:4621-4990 `compile_expr`: the components for the expression with the given output nodes, and the
next free node.  `acc` is the run-time choice between the two versions of the conditional.
Negative indices of a slice are not rejected (they give positions beyond the input); no index of an update is
checked: a position before the output is undefined behaviour (of the evaluation).
The sizes of the delayed inputs are all checked before they are compiled here, in C one by one. -/
def compile (look : String → List Nat) (acc : Bool) (next : Nat) (outs : List Nat) (pdel : Bool) : WExpr → Out (Nat × Net)
  | .var sz base => .ok (next, [⟨.wire, sz, look (vecName base sz), outs, pdel, 0⟩])
  | .evar sz name => .ok (next, [⟨.wire, sz, look name, outs, pdel, 0⟩])
  | .x sz => .ok (next, [⟨.unknown, sz, [], outs, pdel, 0⟩])
  | .const sz v => .ok (next, [⟨.const v, sz, [], outs, pdel, 0⟩])
  | .bin op l r =>
    push op.prim outs.length outs pdel
      [arg look (fun n o => compile look acc n o false l) l outs.length,
       arg look (fun n o => compile look acc n o false r) r outs.length] next
  | .rel op l r =>
    push (op.prim (wsize l)) 1 outs pdel
      [arg look (fun n o => compile look acc n o false l) l (wsize l),
       arg look (fun n o => compile look acc n o false r) r (wsize l)] next
  | .not e => push .not outs.length outs pdel [arg look (fun n o => compile look acc n o false e) e outs.length] next
  | .pred _ e => compile look acc next outs false e
  | .sx sz e => push (.sx (wsize e)) sz outs pdel [arg look (fun n o => compile look acc n o false e) e (wsize e)] next
  | .zx sz e => push (.zx (wsize e)) sz outs pdel [arg look (fun n o => compile look acc n o false e) e (wsize e)] next
  | .ite c t e =>
    push (.ite acc) outs.length outs pdel
      [nonNull (arg look (fun n o => compile look acc n o false c) c 1),
       arg look (fun n o => compile look acc n o false t) t outs.length,
       arg look (fun n o => compile look acc n o false e) e outs.length] next
  | .slice idxs e =>
    if outs.length ≠ idxs.length then .err else
    (seq [arg look (fun n o => compile look acc n o false e) e (wsize e)] next).bind fun r =>
    if wsize e ≠ r.1.length then .err else
    if (fromMsb (wsize e) idxs).any (· < 0) then .err else
    .ok (r.2.1, ⟨.slice ((fromMsb (wsize e) idxs).map Int.toNat), outs.length, r.1, outs, pdel, 0⟩ :: r.2.2)
  | .upd base idxs new =>
    if wsize base ≠ outs.length then .err else
    if wsize new ≠ idxs.length then .err else
    if (fromMsb outs.length idxs).any (· < 0) then .ub else
    push (.updSlice ((fromMsb outs.length idxs).map Int.toNat)) outs.length outs pdel
      [arg look (fun n o => compile look acc n o false base) base outs.length,
       arg look (fun n o => compile look acc n o false new) new (wsize new)] next
  | .idelay sz mr Mr mf Mf cur hist =>
    if wsize cur ≠ sz then .err else
    if hist.any (fun e => wsize e ≠ sz) then .err else
    push (.idelay mr Mr mf Mf) sz outs pdel
      (nonNull (arg look (fun n o => compile look acc n o false cur) cur sz) :: compileAll look acc (fun _ => sz) hist) next
  | .cat parts => push .wire outs.length outs pdel (compileAll look acc wsize parts) next
  | .memRead asz lines dsz mem addr =>
    push (.memRead asz lines dsz) dsz outs pdel
      [nonNull (arg look (fun n o => compile look acc n o false addr) addr asz),
       arg look (fun n o => compile look acc n o false mem) mem (lines * dsz)] next
  | .memWrite asz lines dsz mem addr data =>
    push (.memWrite asz lines dsz) (lines * dsz) outs pdel
      [nonNull (arg look (fun n o => compile look acc n o false addr) addr asz),
       arg look (fun n o => compile look acc n o false data) data dsz,
       arg look (fun n o => compile look acc n o false mem) mem (lines * dsz)] next
/-- The operands of a concatenation or of a delay, with their sizes. -/
def compileAll (look : String → List Nat) (acc : Bool) (sz : WExpr → Nat) : List WExpr → List Arg
  | [] => []
  | e :: es => arg look (fun n o => compile look acc n o false e) e (sz e) :: compileAll look acc sz es
end

mutual
/-- fsm.c:5004-5040 `get_lhs_indices`: the nodes an assignment drives.  An index outside the vector is taken
as undefined here (`translate_range` asserts, or continues with a node before the vector). -/
def lhs (look : String → List Nat) : WExpr → Out (List Nat)
  | .var sz base => .ok (look (vecName base sz))
  | .evar _ name => .ok (look name)
  | .slice idxs e => (lhs look e).bind fun v =>
    if idxs.any (fun i => i < 0 ∨ v.length ≤ i) then .ub
    else .ok (((fromMsb v.length idxs).map Int.toNat).map fun i => v.getD i 0)
  | .cat parts => lhsAll look parts
  | _ => .err
/-- The loop over the parts (fsm.c:5028-5033). -/
def lhsAll (look : String → List Nat) : List WExpr → Out (List Nat)
  | [] => .ok []
  | e :: es => (lhs look e).bind fun v => (lhsAll look es).bind fun w => .ok (v ++ w)
end

/-- An update function: `W_UPDATE_FN lhs rhs` or, with `delay`, `W_PHASE_DELAY lhs rhs`. -/
structure Update where
  delay : Bool
  lhs : WExpr
  rhs : WExpr

/-- fsm.c:6843-6858: the update functions of a leaf are compiled one after the other. -/
def leaf (look : String → List Nat) (acc : Bool) : Nat → List Update → Out (Nat × Net)
  | next, [] => .ok (next, [])
  | next, u :: us =>
    (lhs look u.lhs).bind fun outs =>
    (compile look acc next outs u.delay u.rhs).bind fun r =>
    (leaf look acc r.1 us).bind fun s => .ok (s.1, r.2 ++ s.2)

end Voss.Comp
