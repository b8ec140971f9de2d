import Verif.Arbi.StrModel
/-
Model of src/bin/fl/bv.c: symbolic two's complement bit-vectors as lists of formulas, most significant
bit first.

`Fml` is the interface of the packages of Boolean functions that bv.c and bev.c use (new_bdd.c: `B_Zero` ... `B_Ite`, and
`==` on formula handles; bexpr.c: `BE_Zero` ... `BE_Ite`); its laws are what C14, C15 and C24 are about, and so is `Canon`
for BDDs.  Reference
counts and calls of the garbage collector are left out.  Taking the head of the empty list is undefined
behaviour in the C code: builtins return `none` there.
-/
namespace Voss.Bv
open Voss.Arbi (W Res)

/-- The Boolean functions the code computes with, and the Boolean function each handle denotes. -/
class Fml (F : Type) (Env : outParam Type) where
  den : F → Env → Bool
  zero : F
  one : F
  not : F → F
  and : F → F → F
  or : F → F → F
  xor : F → F → F
  xnor : F → F → F
  ite : F → F → F → F
  /-- `==` on handles. -/
  eqb : F → F → Bool
  den_zero : ∀ ρ, den zero ρ = false
  den_one : ∀ ρ, den one ρ = true
  den_not : ∀ a ρ, den (not a) ρ = !den a ρ
  den_and : ∀ a b ρ, den (and a b) ρ = (den a ρ && den b ρ)
  den_or : ∀ a b ρ, den (or a b) ρ = (den a ρ || den b ρ)
  den_xor : ∀ a b ρ, den (xor a b) ρ = (den a ρ ^^ den b ρ)
  den_xnor : ∀ a b ρ, den (xnor a b) ρ = (den a ρ == den b ρ)
  den_ite : ∀ c a b ρ, den (ite c a b) ρ = (if den c ρ then den a ρ else den b ρ)
  eqb_refl : ∀ a, eqb a a = true
  eqb_sound : ∀ a b, eqb a b = true → ∀ ρ, den a ρ = den b ρ

/-- Packages, like the one of BDDs (C14), where the same function has one handle only. -/
class Canon (F : Type) (Env : outParam Type) extends Fml F Env where
  eqb_complete : ∀ a b, (∀ ρ, den a ρ = den b ρ) → eqb a b = true

theorem Fml.eqb_iff {F Env : Type} [Canon F Env] (a b : F) : Fml.eqb a b = true ↔ ∀ ρ : Env, Fml.den a ρ = Fml.den b ρ :=
  ⟨Fml.eqb_sound a b, Canon.eqb_complete a b⟩

variable {F Env : Type} [Fml F Env]
open Fml

/-- bv.c:70-84 `trim_bv`: drop a leading bit equal to the next one. -/
def trim : List F → List F
  | a :: b :: l => if eqb a b then trim (b :: l) else a :: b :: l
  | l => l

/-- bv.c:326-348 `sx2`, one side: repeat the most significant bit up to length `n`. -/
def sxTo (n : Nat) (l : List F) : List F := List.replicate (n - l.length) (l.headD zero) ++ l

/-- bv.c:326-348 `sx2`. -/
def sx2 (l1 l2 : List F) : List F × List F := (sxTo l2.length l1, sxTo l1.length l2)

/-- bv.c:350-368 `zx2`, one side. -/
def zxTo (n : Nat) (l : List F) : List F := List.replicate (n - l.length) zero ++ l

/-- bv.c:350-368 `zx2`. -/
def zx2 (l1 l2 : List F) : List F × List F := (zxTo l2.length l1, zxTo l1.length l2)

/-- bv.c:47-68 `ite_bv_list`. -/
def iteList (cond : F) (l1 l2 : List F) : List F :=
  let p := sx2 l1 l2
  trim (List.zipWith (fun nb pb => or (and cond nb) (and (not cond) pb)) p.1 p.2)

/-- bv.c:390-433 `add_rec`: ripple carry from the least significant end; with `neg` the second operand
is inverted and the carry-in is one.  Returns the sum bits and the carry out. -/
def addRec (neg : Bool) : List F → List F → List F × F
  | a :: l1, b :: l2 =>
    let (rem, cin) := addRec neg l1 l2
    let b := if neg then not b else b
    (xor a (xor b cin) :: rem, or (and a b) (or (and a cin) (and b cin)))
  | _, _ => ([], if neg then one else zero)

/-- bv.c:435-446 `gen_add`. -/
def genAdd (neg : Bool) (l1 l2 : List F) : List F :=
  trim (addRec neg (l1.headD zero :: l1) (l2.headD zero :: l2)).1

/-- bv.c:448-457 `is_zero_list`. -/
def isZeroList (l : List F) : F := l.foldl (fun z b => and z (not b)) one

/-- bv.c:459-471 `negate_bv_list`. -/
def negate (l : List F) : List F :=
  let p := sx2 l [zero]
  trim (genAdd true p.2 p.1)

/-- bv.c:473-485 `decrement_bv_list`. -/
def decrement (l : List F) : List F :=
  let p := sx2 l [zero, one]
  trim (genAdd true p.1 p.2)

/-- bv.c:487-499 `abs_bv_list`. -/
def absList (l : List F) : List F := iteList (l.headD zero) (negate l) l

/-- bv.c:501-531 `mult_bv_list`: unsigned shift-and-add. -/
def mult (xv : List F) : List F → List F
  | [] => [zero]
  | y :: yv =>
    let rem := mult xv yv
    let prod := zero :: xv.map (fun x => and y x) ++ List.replicate yv.length zero
    let p := zx2 prod rem
    trim (genAdd false p.1 p.2)

/-- bv.c:533-555 `less_rec`. -/
def lessRec : List F → List F → F
  | a :: l1, b :: l2 => or (and (not a) b) (and (xnor a b) (lessRec l1 l2))
  | _, _ => zero

/-- bv.c:557-571 `less_than_bv_list`. -/
def less (l1 l2 : List F) : F :=
  let p := sx2 l1 l2
  let neg1 := p.1.headD zero
  let neg2 := p.2.headD zero
  let raw := lessRec p.1 p.2
  ite neg1 (ite neg2 raw one) (ite neg2 zero raw)

/-- bv.c:169-173 `is_symbolic`. -/
def isSymbolic (f : F) : Bool := !eqb f one && !eqb f zero

/-- bv.c:573-584 `is_scalar_list`. -/
def isScalar (l : List F) : Bool := l.all fun f => !isSymbolic f

/-- bv.c:586-607 `constant_power_of_two`: `none` is the C code's -1. -/
def constPow2 (bv : List F) : Option Nat :=
  if isScalar bv then
    match bv.dropWhile (fun f => !eqb f one) with
    | [] => none
    | _ :: rest => if rest.any (fun f => eqb f one) then none else some rest.length
  else none

/-- bv.c:615-637, the power of two path of `fixed_ext_bvdiv`. -/
def divPow2 (cnt : Nat) (av : List F) : List F × List F :=
  let sz := av.length
  (List.replicate cnt zero ++ av.take (sz - cnt), List.replicate (sz - cnt) zero ++ av.drop (sz - cnt))

/-- bv.c:669-676: the subtraction over the buffers. -/
def subBuf : List F → List F → List F × F
  | x :: xs, b :: bs =>
    let (rem, cin) := subBuf xs bs
    let y := not b
    (xor cin (xor x y) :: rem, or (and x y) (or (and x cin) (and y cin)))
  | _, _ => ([], one)

/-- bv.c:677-683: greater-or-equal over the buffers, least significant bit first. -/
def geqBuf : List F → List F → F
  | r :: rs, b :: bs => or (and r (not b)) (and (xnor r b) (geqBuf rs bs))
  | _, _ => one

/-- bv.c:658-701: one pass of the long division loop on the quotient and remainder buffers. -/
def divStep (bb : List F) (qr : List F × List F) (a : F) : List F × List F :=
  let r := qr.2.drop 1 ++ [a]
  let sub := (subBuf r bb).1
  let geq := geqBuf r bb
  (qr.1.drop 1 ++ [geq], List.zipWith (fun s ri => ite geq s ri) sub r)

/-- bv.c:609-717 `fixed_ext_bvdiv`. -/
def fixedDiv (av bv : List F) : List F × List F :=
  match constPow2 bv with
  | some cnt => divPow2 cnt av
  | none => av.foldl (divStep bv) (List.replicate av.length zero, List.replicate av.length zero)

/-- bv.c:927-958 `signed_bvdiv`: `dv` divided by `nv`. -/
def signedDiv (dv nv : List F) : List F × List F :=
  let negD := dv.headD zero
  let negN := nv.headD zero
  let p := zx2 (absList dv) (absList nv)
  let qr := fixedDiv p.1 p.2
  let exact := isZeroList qr.2
  let same := xnor negD negN
  let q0 := iteList same qr.1 (negate qr.1)
  let q := iteList (or exact same) q0 (decrement q0)
  let r0 := iteList same qr.2 (genAdd true qr.2 p.2)
  let r := iteList exact qr.2 (iteList negD (negate r0) r0)
  (q, r)

/-! ### Builtins.  `none` is undefined behaviour (head of the empty list). -/

/-- bv.c:85-98 `get_bv_rec` and bv.c:724-733 `list2bv`. -/
def list2bv (l : List F) : List F := trim l

def guard2 {α : Type} (l1 l2 : List F) (x : α) : Option α := if l1.isEmpty || l2.isEmpty then none else some x

/-- bv.c:844-861 `bv_add`. -/
def bvAdd (l1 l2 : List F) : Option (List F) :=
  let p := sx2 l1 l2
  guard2 l1 l2 (trim (genAdd false p.1 p.2))

/-- bv.c:863-880 `bv_sub`. -/
def bvSub (l1 l2 : List F) : Option (List F) :=
  let p := sx2 l1 l2
  guard2 l1 l2 (trim (genAdd true p.1 p.2))

/-- bv.c:882-925 `bv_mul`. -/
def bvMul (l1 l2 : List F) : Option (List F) :=
  let (av, bv) := if l1.length < l2.length then (l2, l1) else (l1, l2)
  let absRes := zero :: mult (absList av) (absList bv)
  let neg := xor (av.headD zero) (bv.headD zero)
  let p := sx2 absRes (negate absRes)
  guard2 l1 l2 (trim (iteList neg p.2 p.1))

/-- bv.c:993-1009 `bv_div`. -/
def bvDiv (l1 l2 : List F) : Option (List F) := guard2 l1 l2 (trim (signedDiv l1 l2).1)
/-- bv.c:1011-1027 `bv_mod`. -/
def bvMod (l1 l2 : List F) : Option (List F) := guard2 l1 l2 (trim (signedDiv l1 l2).2)

/-- bv.c:960-990 `bv_ashr`; the error for a negative count is `inl`. -/
def bvAshr (l : List F) (cnt : Int) : Option (Except String (List F)) :=
  if cnt < 0 then some (.error s!"bv_ashr by negative amount ({cnt})")
  else if cnt = 0 then some (.ok l)
  else if cnt ≥ l.length then (if l.isEmpty then none else some (.ok (trim [l.headD zero])))
  else some (.ok (trim (l.take (l.length - cnt.toNat))))

/-- bv.c:1029-1045 `bv_NOT`. -/
def bvNOT (l : List F) : List F := trim (l.map not)
/-- bv.c:1047-1058 `bv_ZX`. -/
def bvZX (l : List F) : List F := trim (trim (zero :: l))

/-- bv.c:1060-1162 `bv_AND`, `bv_OR`, `bv_XOR`, `bv_XNOR`. -/
def bvBitwise (op : F → F → F) (l1 l2 : List F) : Option (List F) :=
  if l1.isEmpty != l2.isEmpty then none else
  let p := sx2 l1 l2
  some (trim (List.zipWith op p.1 p.2))
def bvAND (l1 l2 : List F) := bvBitwise Fml.and l1 l2
def bvOR (l1 l2 : List F) := bvBitwise Fml.or l1 l2
def bvXOR (l1 l2 : List F) := bvBitwise Fml.xor l1 l2
def bvXNOR (l1 l2 : List F) := bvBitwise Fml.xnor l1 l2

/-- bv.c:1164-1234 `bv_less`, `bv_leq`, `bv_greater`, `bv_geq`. -/
def bvLess (l1 l2 : List F) : Option F := guard2 l1 l2 (less l1 l2)
def bvLeq (l1 l2 : List F) : Option F := guard2 l1 l2 (not (less l2 l1))
def bvGreater (l1 l2 : List F) : Option F := guard2 l1 l2 (less l2 l1)
def bvGeq (l1 l2 : List F) : Option F := guard2 l1 l2 (not (less l1 l2))

/-- bv.c:229-280 `bv_eq_fn`, the symbolic comparison (`identical` = FALSE). -/
def bvEq (l1 l2 : List F) : Option F :=
  let (s, t) := if l1.length > l2.length then (l2, l1) else (l1, l2)
  let b1 := s.headD zero
  let k := t.length - s.length
  let r := (t.take k).foldl (fun r b2 => and r (xnor b1 b2)) one
  guard2 l1 l2 ((s.zip (t.drop k)).foldl (fun r p => and r (xnor p.1 p.2)) r)

/-- bv.c:229-280 `bv_eq_fn` with `identical` = TRUE. -/
def bvIdentical (l1 l2 : List F) : Option Bool :=
  let (s, t) := if l1.length > l2.length then (l2, l1) else (l1, l2)
  let b1 := s.headD zero
  let k := t.length - s.length
  guard2 l1 l2 ((t.take k).all (fun b2 => eqb b1 b2) && (s.zip (t.drop k)).all (fun p => eqb p.1 p.2))

/-! ### Conversion from and to integers (arb_prec.c model) -/

/-- bv.c:795-808 `bv_list2int`: value and next power of two. -/
def list2int : List F → Res (List W × List W)
  | [] => .ok (Arbi.fromWord 0#64, Arbi.fromWord 1#64)
  | b :: l => (list2int l).bind fun (rem, pow) =>
    let cur := if eqb b zero then Arbi.fromWord 0#64 else pow
    (Arbi.mul pow (Arbi.fromWord 2#64)).bind fun pow2 => .ok (Arbi.add cur rem, pow2)

/-- bv.c:810-829 `bv2int`. -/
def bv2int (l : List F) : Option (Except String (Res (List W))) :=
  if !isScalar l then some (.error "bv2int of symbolic bitvector")
  else if l.isEmpty then none
  else
    let neg := eqb (l.headD zero) one
    some (.ok ((list2int (absList l)).bind fun (r, _) => .ok (if neg then Arbi.neg r else r)))

/-- bv.c:1528-1537: from the character before the last `1` on, flip every character. -/
def flipBefore (s : List Char) : List Char :=
  let r := s.reverse
  let keep := r.takeWhile (· ≠ '1')
  let rest := r.dropWhile (· ≠ '1')
  (keep ++ rest.take 1 ++ (rest.drop 1).map (fun c => if c = '1' then '0' else '1')).reverse

/-- bv.c:1520-1554 `Aint2bv` and bv.c:831-842 `do_int2bv`; the budget is that of `Arbi_ToString`. -/
def int2bv (fuel : Nat) (x : List W) : Option (Res (List F)) :=
  let isNeg := decide (Arbi.cmp0 x < 0)
  (Arbi.toString fuel (if isNeg then Arbi.neg x else x) 2).map fun r => r.bind fun s =>
    let s := if isNeg then flipBefore s else s
    .ok (trim (trim ((if isNeg then one else zero) :: s.map (fun c => if c = '1' then (one : F) else zero))))

end Voss.Bv
