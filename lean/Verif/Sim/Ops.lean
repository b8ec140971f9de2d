import Verif.Arbi.Model
/-
Model of the word-level circuit primitives of src/bin/fl/fsm.c (lines 5630-6535): functions on words of
dual-rail values, most significant bit first.

A circuit value is a pair of handles: `h` says when the value may be 1, `l` says when it may be 0.
The primitives are polymorphic in the handles, like the C code, which calls `c_AND`, `c_OR`, `c_NOT`
through function pointers and switches them between BDDs, AND-inverter expressions and the size limited
BDD operations.  `Ops` is that table of function pointers (fsm.c:7139-7153 `switch_to_BDDs`).

Words are lists; index 0 is the most significant bit (macros fsm.c:5630-5640).  A loop from the least
significant bit is recursion on the tail first.  `none` is undefined behaviour: signed overflow in index
arithmetic, reading beyond the input buffer, running off the index list.
-/
namespace Voss.Sim

/-- The operations on handles: `c_ZERO`, `c_ONE`, `c_NOT`, `c_AND`, `c_OR`. -/
structure Ops (F : Type) where
  zero : F
  one : F
  not : F → F
  and : F → F → F
  or : F → F → F

/-- A dual-rail value. -/
structure DR (F : Type) where
  h : F
  l : F
  deriving DecidableEq, Repr

variable {F : Type} (o : Ops F)

/-- The constant 0, the constant 1 and the unknown value. -/
def dr0 : DR F := ⟨o.zero, o.one⟩
def dr1 : DR F := ⟨o.one, o.zero⟩
def drX : DR F := ⟨o.one, o.one⟩

/-- Exchange of the rails, as in `op_NOT` (fsm.c:6037-6044) and on the second operand of `op_SUB`. -/
def DR.swap (a : DR F) : DR F := ⟨a.l, a.h⟩

/-- One step of `geq_fn` (fsm.c:5641-5657) and `op_GR` (6064-6081); `g` is the result on the less
significant bits. -/
def cmpCell (a b g : DR F) : DR F :=
  ⟨o.or (o.and a.h b.l) (o.and (o.or a.h b.l) g.h),
   o.and (o.or a.l b.h) (o.or (o.and a.l b.h) g.l)⟩

/-- The comparison loop with its initial value. -/
def cmpFn (init : DR F) : List (DR F) → List (DR F) → DR F
  | a :: as, b :: bs => cmpCell o a b (cmpFn init as bs)
  | _, _ => init

/-- fsm.c:5641-5657 `geq_fn`. -/
def geqFn (av bv : List (DR F)) : DR F := cmpFn o (dr1 o) av bv

/-- The sum of one column of `op_ADD` (fsm.c:6095-6100). -/
def sumCell (a b c : DR F) : DR F :=
  ⟨o.or (o.and (o.or (o.and a.h b.l) (o.and a.l b.h)) c.l)
        (o.and (o.and (o.or a.l b.h) (o.or a.h b.l)) c.h),
   o.and (o.or (o.and (o.or a.l b.h) (o.or a.h b.l)) c.h)
         (o.or (o.or (o.and a.h b.l) (o.and a.l b.h)) c.l)⟩

/-- The carry of one column of `op_ADD` (fsm.c:6101-6104). -/
def carryCell (a b c : DR F) : DR F :=
  ⟨o.or (o.or (o.and a.h b.h) (o.and a.h c.h)) (o.and b.h c.h),
   o.and (o.and (o.or a.l b.l) (o.or a.l c.l)) (o.or b.l c.l)⟩

/-- The ripple-carry loop shared by `op_ADD` (fsm.c:6083-6108), `op_SUB` (6110-6138), `sub_fn`
(5659-5684) and the inner loop of `op_MUL` (6153-6177): sum bits and carry out. -/
def ripple (cin : DR F) : List (DR F) → List (DR F) → List (DR F) × DR F
  | a :: as, b :: bs =>
    let r := ripple cin as bs
    (sumCell o a b r.2 :: r.1, carryCell o a b r.2)
  | _, _ => ([], cin)

/-- fsm.c:5659-5684 `sub_fn`: addition of the complement with carry-in one. -/
def subFn (av bv : List (DR F)) : List (DR F) := (ripple o (dr1 o) av (bv.map DR.swap)).1

/-- One bit of `ITE_fn` (fsm.c:5686-5700) and of the accurate branch of `op_ITE` (6191-6195). -/
def iteCell (c a b : DR F) : DR F :=
  ⟨o.or (o.or (o.and a.h b.h) (o.and c.h a.h)) (o.and c.l b.h),
   o.and (o.and (o.or a.l b.l) (o.or c.l a.l)) (o.or c.h b.l)⟩

/-- The other branch of `op_ITE` (fsm.c:6196-6199). -/
def iteCellQuick (c a b : DR F) : DR F :=
  ⟨o.or (o.and c.h a.h) (o.and c.l b.h), o.and (o.or c.l a.l) (o.or c.h b.l)⟩

/-- fsm.c:5686-5700 `ITE_fn`. -/
def iteFn (c : DR F) (av bv : List (DR F)) : List (DR F) := List.zipWith (iteCell o c) av bv

/-- fsm.c:5702-5712 `shift_left_by_1`. -/
def shiftIn (v : List (DR F)) (i : DR F) : List (DR F) := v.drop 1 ++ [i]

/-- One pass of the loop of `op_DIV` and `op_MOD` (fsm.c:6241-6249, 6273-6281): quotient and remainder. -/
def divStep (bp : List (DR F)) (qr : List (DR F) × List (DR F)) (a : DR F) : List (DR F) × List (DR F) :=
  let r2 := shiftIn qr.2 a
  let cond := geqFn o r2 bp
  (shiftIn qr.1 cond, iteFn o cond (subFn o r2 bp) r2)

/-- fsm.c:6225-6255 `op_DIV` and 6257-6287 `op_MOD`, before selecting the quotient or the remainder. -/
def divMod (av bp : List (DR F)) : List (DR F) × List (DR F) :=
  av.foldl (divStep o bp) (List.replicate av.length (dr0 o), List.replicate av.length (dr0 o))

/-- The partial product for one bit of the second operand of `op_MUL` (fsm.c:6156-6163). -/
def partial1 (shift : Nat) (bi : DR F) (av : List (DR F)) : List (DR F) :=
  (av.drop shift).map (fun a => ⟨o.and bi.h a.h, o.or bi.l a.l⟩) ++ List.replicate (min shift av.length) (dr0 o)

/-- fsm.c:6140-6179 `op_MUL`: for each bit of the second operand, least significant first, add the
shifted first operand to the output. -/
def mulFn (av : List (DR F)) : List (DR F) → List (DR F)
  | [] => List.replicate av.length (dr0 o)
  | b :: bs => (ripple o (dr0 o) (partial1 o bs.length b av) (mulFn av bs)).1

/-! ### Shifts -/

/-- The variable `shift` after `k` doublings: `unint` is 32 bits wide (fsm.c:6299, 6305). -/
def shiftAmt (k : Nat) : Nat := 2^k % 2^32

/-- Conversion from `unint` to `int`. -/
def toInt32 (u : Nat) : Int := if u % 2^32 < 2^31 then ((u % 2^32 : Nat) : Int) else ((u % 2^32 : Nat) : Int) - 2^32

/-- fsm.c:5714-5727 `sshl_fun`.  The index variable is unsigned, so `i + cnt` wraps and is converted to
`int`. -/
def sshlFun (v : List (DR F)) (cnt : Nat) : List (DR F) :=
  (List.range v.length).map fun i =>
    let idx := toInt32 (i + cnt)
    if idx < 0 ∨ idx ≥ v.length then dr0 o else v.getD idx.toNat (dr0 o)

/-- fsm.c:5729-5743 `sshr_fun` and 5745-5759 `sashr_fun`, with the value shifted in.  Here the index is
signed and `i - cnt` can overflow. -/
def sshrFun (v : List (DR F)) (cnt : Nat) (fill : DR F) : Option (List (DR F)) :=
  if (List.range v.length).any (fun i : Nat => decide ((i:Int) - toInt32 cnt < -2^31 ∨ (i:Int) - toInt32 cnt ≥ 2^31)) then none
  else some ((List.range v.length).map fun i : Nat =>
    let idx : Int := (i:Int) - toInt32 cnt
    if idx < 0 ∨ idx ≥ v.length then fill else v.getD idx.toNat fill)

/-- The loop of `op_SHL` (fsm.c:6289-6312) over the bits of the shift amount. -/
def shlLoop (cur : List (DR F)) : List (DR F) → List (DR F)
  | [] => cur
  | b :: bs =>
    let c := shlLoop cur bs
    iteFn o b (sshlFun o c (shiftAmt bs.length)) c

/-- The loop of `op_SHR` (fsm.c:6314-6337) and `op_ASHR` (6339-6364); an arithmetic shift fills with the
most significant bit of the current word. -/
def shrLoop (arith : Bool) (cur : List (DR F)) : List (DR F) → Option (List (DR F))
  | [] => some cur
  | b :: bs => do
    let c ← shrLoop arith cur bs
    let t ← sshrFun c (shiftAmt bs.length) (if arith then c.headD (dr0 o) else dr0 o)
    some (iteFn o b t c)

/-! ### Extension, slices, memories -/

/-- fsm.c:6366-6383 `op_SX` and 6385-6400 `op_ZX`: the low bits of the input, extended with `fill`. -/
def extend (size : Nat) (fill : DR F) (v : List (DR F)) : List (DR F) :=
  List.replicate (size - v.length) fill ++ v.drop (v.length - size)

/-- The selection signal of a memory line (fsm.c:6458-6474, 6500-6516): the address compared to the line
number, least significant bit first. -/
def lineSel : Nat → List (DR F) → DR F × Nat
  | line, [] => (dr1 o, line)
  | line, a :: as =>
    let r := lineSel line as
    let s := if r.2 % 2 = 1 then a else a.swap
    (⟨o.and r.1.h s.h, o.or r.1.l s.l⟩, r.2 / 2)

/-- One line of the memory: line 0 is at the least significant end (`base` in fsm.c:6476). -/
def memLine (lines dsz line : Nat) (mem : List (DR F)) : List (DR F) :=
  (mem.drop ((lines - line - 1) * dsz)).take dsz

/-- fsm.c:6443-6488 `op_MEM_READ`. -/
def memReadFn (lines dsz : Nat) (addr mem : List (DR F)) : List (DR F) :=
  (List.range lines).foldl
    (fun out line => iteFn o (lineSel o line addr).1 (memLine lines dsz line mem) out)
    (List.replicate dsz (drX o))

/-- fsm.c:6490-6531 `op_MEM_WRITE`: the lines of the new memory, line 0 last. -/
def memWriteFn (lines dsz : Nat) (addr data mem : List (DR F)) : List (DR F) :=
  ((List.range lines).reverse.map
    (fun line => iteFn o (lineSel o line addr).1 data (memLine lines dsz line mem))).flatten

/-- fsm.c:6414-6432 `op_UPDATE_SLICE`: replace the bits at the listed positions, in order. -/
def updFn (base : List (DR F)) (idxs : List Nat) (new : List (DR F)) : List (DR F) :=
  (idxs.zip new).foldl (fun acc p => acc.set p.1 p.2) base

/-! ### Inertial delay, constants, lattice comparison -/

/-- One rail of one bit of `op_IDELAY` (fsm.c:5995-6007): `hist` are the input samples, most recent first. -/
def idelayRail (m M : Nat) (cur : F) (hist : List F) : F :=
  let to1 := (hist.take m).foldl o.and o.one
  let to0 := (hist.take M).foldl o.or o.zero
  o.or to1 (o.and cur to0)

/-- One bit of `op_IDELAY` (fsm.c:5986-6021). -/
def idelayBit (mr Mr mf Mf : Nat) (cur : DR F) (hist : List (DR F)) : DR F :=
  ⟨idelayRail o mr Mf cur.h (hist.map DR.h), idelayRail o mf Mr cur.l (hist.map DR.l)⟩

/-- fsm.c:5928-5947 `op_CONST`: the bits of the constant from the least significant one, by testing
against powers of two; the result is most significant bit first. -/
def constLoop (v : List Arbi.W) : Nat → List Arbi.W → List (DR F) → Option (List (DR F))
  | 0, _, acc => some acc
  | n+1, ptr, acc =>
    let bit := if Arbi.cmp (Arbi.bvAnd v ptr) (Arbi.fromWord 0#64) ≠ 0 then dr1 o else dr0 o
    match Arbi.mul ptr (Arbi.fromWord 2#64) with
    | .ok ptr' => constLoop v n ptr' (bit :: acc)
    | _ => none

/-- One bit of `op_LAT_LEQ` (fsm.c:5958-5971). -/
def latCell (a b : DR F) : DR F :=
  let h := o.and (o.or b.h (o.not a.h)) (o.or b.l (o.not a.l))
  ⟨h, o.not h⟩

/-! ### All primitives -/

/-- The primitive a component computes, with its parameters (`op` and `arg` of `ncomp_rec`). -/
inductive Prim where
  | unknown
  | const (v : List Arbi.W)
  | wire
  | latLeq
  | and
  | or
  | not
  | idelay (minRise maxRise minFall maxFall : Nat)
  | eq (isz : Nat)
  | gr (isz : Nat)
  | add
  | sub
  | mul
  | div
  | mod
  | shl
  | shr
  | ashr
  | ite (accurate : Bool)
  | sx (isz : Nat)
  | zx (isz : Nat)
  | slice (idxs : List Nat)
  | updSlice (idxs : List Nat)
  | memRead (asz lines dsz : Nat)
  | memWrite (asz lines dsz : Nat)

/-- How many input bits a primitive of the given output size reads. -/
def Prim.inputs (size : Nat) : Prim → Nat
  | .unknown | .const _ => 0
  | .wire | .not => size
  | .idelay mr Mr mf Mf => (1 + max (max mr Mr) (max mf Mf)) * size
  | .eq isz | .gr isz => 2 * isz
  | .ite _ => 1 + 2 * size
  | .sx isz | .zx isz => isz
  | .slice idxs => idxs.foldr (fun i m => max (i + 1) m) 0
  | .updSlice idxs => size + idxs.length
  | .memRead asz lines dsz => asz + lines * dsz
  | .memWrite asz lines dsz => asz + dsz + lines * dsz
  | _ => 2 * size

/-- Bits of the samples of an input of `op_IDELAY`: position `i` of each of the words after the first. -/
def samples (size i : Nat) (inps : List (DR F)) : List (DR F) :=
  ((List.range (inps.length / size - 1)).map fun k => inps.getD ((1 + k) * size + i) (drX o))

/-- `op_EQ`, one step (fsm.c:6057-6058). -/
def eqCell (eq : DR F) (p : DR F × DR F) : DR F :=
  ⟨o.and (o.or (o.and p.1.h p.2.h) (o.and p.1.l p.2.l)) eq.h,
   o.or (o.and (o.or p.1.l p.2.l) (o.or p.1.h p.2.h)) eq.l⟩

/-- Evaluation of a primitive on the input buffer: the C function stored in `op`. -/
def Prim.eval (p : Prim) (size : Nat) (inps : List (DR F)) : Option (List (DR F)) :=
  if inps.length < p.inputs size then none else
  let a := inps.take size
  let b := (inps.drop size).take size
  match p with
  | .unknown => some (List.replicate size (drX o))
  | .const v => constLoop o v size (Arbi.fromWord 1#64) []
  | .wire => some a
  | .latLeq => some (List.zipWith (latCell o) a b)
  | .and => some (List.zipWith (fun a b => ⟨o.and a.h b.h, o.or a.l b.l⟩) a b)
  | .or => some (List.zipWith (fun a b => ⟨o.or a.h b.h, o.and a.l b.l⟩) a b)
  | .not => some (a.map DR.swap)
  | .idelay mr Mr mf Mf =>
    some ((List.range size).map fun i => idelayBit o mr Mr mf Mf (inps.getD i (drX o)) (samples o size i inps))
  | .eq isz => some [((inps.take isz).zip ((inps.drop isz).take isz)).foldl (eqCell o) (dr1 o)]
  | .gr isz => some [cmpFn o (dr0 o) (inps.take isz) ((inps.drop isz).take isz)]
  | .add => some (ripple o (dr0 o) a b).1
  | .sub => some (ripple o (dr1 o) a (b.map DR.swap)).1
  | .mul => some (mulFn o a b)
  | .div => some (divMod o a b).1
  | .mod => some (divMod o a b).2
  | .shl => some (shlLoop o a b)
  | .shr => shrLoop o false a b
  | .ashr => shrLoop o true a b
  | .ite acc =>
    match inps with
    | [] => none
    | c :: rest =>
      some (List.zipWith (if acc then iteCell o c else iteCellQuick o c) (rest.take size) ((rest.drop size).take size))
  | .sx isz => if isz = 0 then none else some (extend size (inps.headD (drX o)) (inps.take isz))
  | .zx isz => some (extend size (dr0 o) (inps.take isz))
  | .slice idxs => if idxs.length < size then none else some ((idxs.take size).map fun i => inps.getD i (drX o))
  | .updSlice idxs =>
    if idxs.any (fun i => decide (size ≤ i)) then none
    else some (updFn a idxs ((inps.drop size).take idxs.length))
  | .memRead asz lines dsz =>
    if dsz ≠ size then none
    else some (memReadFn o lines dsz (inps.take asz) ((inps.drop asz).take (lines * dsz)))
  | .memWrite asz lines dsz =>
    if lines * dsz ≠ size then none
    else some (memWriteFn o lines dsz (inps.take asz) ((inps.drop asz).take dsz) ((inps.drop (asz + dsz)).take (lines * dsz)))

end Voss.Sim
