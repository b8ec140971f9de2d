import Verif.Vec.Model
import Verif.Hier.Model

/-
Model of the fingerprints of circuits (pexlif.c).
Simplified: expressions are terms of their type (preamble.fl:2046-2083), so that the checks of the program for malformed
expressions have nothing to find; sizes and indices of more than 64 bits, for which `GET_INT` is undefined, are truncated.
-/
namespace Voss.Inst
open Hier

abbrev W64 := BitVec 64

/-- The operators with two arguments. -/
inductive Op where
  | and | or | eq | gr | add | sub | mul | div | mod | shl | shr | ashr | leq
deriving DecidableEq

/-- `wexpr` (preamble.fl:2046-2083). -/
inductive W where
  | x (sz : Int)
  | const (sz v : Int)
  | named (name : Name) (sz v : Int)
  | var (sz : Int) (name : Name)
  | evar (sz : Int) (name : Name)
  | not (a : W)
  | op (o : Op) (a b : W)
  | pred (name : Name) (a : W)
  | sx (sz : Int) (a : W)
  | zx (sz : Int) (a : W)
  | ite (c t e : W)
  | slice (idxs : List Int) (a : W)
  | nslice (name : Name) (idxs : List Int) (a : W)
  | upd (base : W) (name : Name) (idxs : List Int) (new : W)
  | cat (parts : List W)
  | read (asz lines dsz : Int) (mem addr : W)
  | write (asz lines dsz : Int) (mem addr data : W)
  | delay (sz mr Mr mf Mf : Int) (cur : W) (hist : List W)

/-- The functions of a leaf: `W_UPDATE_FN`, `W_PHASE_DELAY`. -/
inductive Fn where
  | update (lhs rhs : W)
  | phase (lhs rhs : W)

/-- An instance inside another one, as far as its signatures look at it. -/
structure Kid where
  name : Name
  attrs : List (Name × Name)
  inps : List Pin
  outs : List Pin
  ints : List Name

/-- The contents of an instance: functions (`P_LEAF`) or instances (`P_HIER`). -/
inductive Content (φ : Type) where
  | leaf (fns : List φ)
  | hier (kids : List Kid)

/-- The arguments of `PINST` that count for signatures. -/
structure Inst (φ : Type) where
  name : Name
  inps : List Pin
  outs : List Pin
  ints : List Name
  content : Content φ

section
variable (pr : Nat → W64)

/-- pexlif.c:2674-2678 `pm_val`; the table of primes is a parameter. -/
def pm (n : Nat) (v : W64) : W64 := v * pr (n % 8192)

/-- `GET_INT` and the conversion to `unsigned long`. -/
def ofInt (z : Int) : W64 := BitVec.ofInt 64 (z.bmod (2 ^ 32))

/-- pexlif.c:2680-2689 `fp_mem`. -/
def fpMem (asz lines dsz : Int) : W64 := pm pr 0 (ofInt asz) + pm pr 1 (ofInt lines) + pm pr 2 (ofInt dsz)

/-- The value of a constant modulo 2^62 (`Arbi_mod`, C03). -/
def constVal (v : Int) : W64 := BitVec.ofInt 64 (v % 2 ^ 62)

/-- pexlif.c:2785-2795 and others: the sum over a list of indices. -/
def fpIdxs : Nat → W64 → List Int → W64
  | _, sum, [] => sum
  | idx, sum, i :: is => fpIdxs (idx + 1) (sum + pm pr idx (ofInt i)) is

/-- The fingerprint of an operator with those of its arguments (pexlif.c:2746-2799). -/
def fpOp : Op → W64 → W64 → W64
  | .eq, a, b => pm pr 11 (a + b)
  | .gr, a, b => pm pr 13 a + pm pr 14 b
  | .add, a, b => pm pr 15 (a + b)
  | .and, a, b => pm pr 8 (a + b)
  | .ashr, a, b => pm pr 28 a + pm pr 29 b
  | .div, a, b => pm pr 20 a + pm pr 21 b
  | .leq, a, b => pm pr 49 a + pm pr 50 b
  | .mod, a, b => pm pr 22 a + pm pr 23 b
  | .mul, a, b => pm pr 18 (a + b)
  | .or, a, b => pm pr 9 (a + b)
  | .shl, a, b => pm pr 24 a + pm pr 25 b
  | .shr, a, b => pm pr 26 a + pm pr 27 b
  | .sub, a, b => pm pr 16 a + pm pr 17 b

mutual
/-- pexlif.c:2691-2889 `fp_w_rec`. -/
def fpW : W → W64
  | .not a => pm pr 10 (fpW a)
  | .x sz => pm pr 1 (ofInt sz)
  | .cat l => fpList 41 0 l
  | .var sz _ => pm pr 6 (ofInt sz)
  | .evar sz _ => pm pr 6 (ofInt sz)
  | .sx sz a => pm pr 30 (ofInt sz) + pm pr 31 (fpW a)
  | .zx sz a => pm pr 32 (ofInt sz) + pm pr 33 (fpW a)
  | .const sz v => pm pr 2 (ofInt sz) + pm pr 3 (constVal v)
  | .op o a b => fpOp pr o (fpW a) (fpW b)
  | .pred _ a => pm pr 12 (fpW a)
  | .slice is a => fpIdxs pr 1 (pm pr 37 (fpW a)) is
  | .ite c t e => pm pr 34 (fpW c) + pm pr 35 (fpW t) + pm pr 36 (fpW e)
  | .named _ sz v => pm pr 4 (ofInt sz) + pm pr 5 (constVal v)
  | .read s l d m a => pm pr 42 (fpMem pr s l d) + pm pr 43 (fpW m) + pm pr 44 (fpW a)
  | .nslice _ is a => fpIdxs pr 1 (pm pr 37 (fpW a)) is
  | .write s l d m a v => pm pr 45 (fpMem pr s l d) + pm pr 46 (fpW m) + pm pr 47 (fpW a) + pm pr 48 (fpW v)
  | .upd b _ is n => fpIdxs pr 1 (pm pr 39 (fpW b) + pm pr 40 (fpW n)) is
  | .delay sz mr Mr mf Mf c h =>
    fpList 66 (pm pr 60 (ofInt sz) + pm pr 61 (ofInt mr) + pm pr 62 (ofInt Mr) + pm pr 63 (ofInt mf) + pm pr 64 (ofInt Mf)
      + pm pr 65 (fpW c)) h
/-- The sum over a list of expressions. -/
def fpList : Nat → W64 → List W → W64
  | _, sum, [] => sum
  | idx, sum, a :: as => fpList (idx + 1) (sum + pm pr idx (fpW a)) as
end

/-- pexlif.c:2891-2897 `fp_w` with `RESTRICT` (pexlif.c:2671). -/
def fpTop (a : W) : W64 := fpW pr a &&& (2 ^ 63 - 1 : BitVec 64)

/-- pexlif.c:2899-2922 `fp_fn`. -/
def fpFn : Fn → W64
  | .update l r => pm pr 51 (fpTop pr l) + pm pr 52 (fpTop pr r)
  | .phase l r => pm pr 53 (fpTop pr l) + pm pr 54 (fpTop pr r)

/-- The sum over sorted sizes (pexlif.c:2945-2952, 2967-2974). -/
def fpSizes : Nat → W64 → List Nat → W64
  | _, sum, [] => sum
  | idx, sum, s :: ss => fpSizes (idx + 1) (sum + pm pr idx (ofInt s)) ss

def sizes : List Name → Option (List Nat)
  | [] => some []
  | n :: ns => do let s ← Vec.mdSize n; let r ← sizes ns; some (s :: r)

variable (sort : List Nat → List Nat)

/-- pexlif.c:2955-2975 `fp_internal`; `qsort` is a parameter. -/
def fpNames (ns : List Name) : Option W64 := (sizes ns).map fun l => fpSizes pr 1 0 (sort l)

/-- pexlif.c:2933-2953 `fp_formal`. -/
def fpFormal (ps : List Pin) : Option W64 := fpNames pr sort (ps.map Pin.formal)

/-- `atol` (C11 7.22.1.2): undefined if the value is not a `long`. -/
def atol (s : Name) : Option Int :=
  let neg := s.head? == some '-'
  let s := if neg then s.drop 1 else s
  let v : Int := (s.takeWhile Char.isDigit).foldl (fun (a : Int) c => 10 * a + (c.toNat - '0'.toNat : Nat)) 0
  let v := if neg then -v else v
  if -2 ^ 63 ≤ v ∧ v < 2 ^ 63 then some v else none

/-- pexlif.c:2977-2987 `find_signature`. -/
def findSignature : List (Name × Name) → Option W64
  | [] => some 0
  | (k, v) :: as => if k = "FP".toList then (atol v).map (BitVec.ofInt 64) else findSignature as

/-- pexlif.c:3005-3020: what an instance inside adds. -/
def fpKid (k : Kid) : Option W64 := do
  let a ← findSignature k.attrs
  let b ← fpFormal pr sort k.inps
  let c ← fpFormal pr sort k.outs
  let d ← fpNames pr sort k.ints
  some (a + b + c + d)

def fpKids : W64 → List Kid → Option W64
  | sum, [] => some sum
  | sum, k :: ks => do let a ← fpKid pr sort k; fpKids (sum + a) ks

/-- pexlif.c:2989-3025 `fp_content`. -/
def fpContent : Content Fn → Option W64
  | .leaf fns => some (pm pr 59 (fns.foldl (fun sum f => sum + fpFn pr f) 0))
  | .hier ks => (fpKids pr sort 0 ks).map (pm pr 65)

/-- pexlif.c:3064-3079 `compute_fp_pinst`: the number. -/
def fpInst (p : Inst Fn) : Option W64 := do
  let a ← fpFormal pr sort p.inps
  let b ← fpFormal pr sort p.outs
  let c ← fpNames pr sort p.ints
  let d ← fpContent pr sort p.content
  some (a + b + c + d)
end

/-- The digits of a number, the last one first. -/
def digits : Nat → Nat → List Char
  | 0, _ => []
  | fuel + 1, n => Char.ofNat (48 + n % 10) :: (if n / 10 = 0 then [] else digits fuel (n / 10))

/-- `%ld` (pexlif.c:3074). -/
def showLong (w : W64) : Name :=
  let z := w.toInt
  if z < 0 then '-' :: (digits 30 z.natAbs).reverse else (digits 30 z.natAbs).reverse

end Voss.Inst
