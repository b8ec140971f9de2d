import Verif.Pre.Range
import Verif.Pre.Ints
/-
Model of the bit-vector library src/vosslib/gen_arithm.fl, with the Booleans of src/vosslib/bool_arithm.fl: lists of
Boolean functions, most significant bit first, of a fixed size (`fbv`, `'+'`) or as long as needed (`dbv`, `''+''`).

`gAND`, `gOR`, `gXOR`, `gXNOR`, `gNOT` are the Boolean functions, `gEQUIV` is `==` (identity), `gEQUAL` is `=`,
`gdepends` is `depends`, and `gIF c gTHEN t gELSE e` is `c => t | e` (bool_arithm.fl:10-32), which is `branch` (C88).  `p` is
the condition that the enclosing conditionals amount to.  A failure is `fail`.

Simplifications: evaluation is lazy, here a function fails when a part of its result does (where the two parts of a
pair are used separately they are separate); sizes are natural numbers.
-/
namespace Voss.Gen
open Voss.Pre Voss.Pre.Fn
variable {o : Order}

/-- Merging of two lists of Booleans by a symbolic conditional: `Gen_map2` (graph.c:1771-1960) with `g_b_ite`
(graph.c:6018-6050).  Lists of different length do not match. -/
def mergeList (c : Fn o) (x y : List (Fn o)) : Out (List (Fn o)) :=
  if x.length = y.length then .ok (List.zipWith (fun a b => (c.and a).or (c.not.and b)) x y) else .fail

/-- The same for pairs. -/
def mergePair (c : Fn o) (x y : List (Fn o) × List (Fn o)) : Out (List (Fn o) × List (Fn o)) :=
  (mergeList c x.1 y.1).bind fun a => (mergeList c x.2 y.2).bind fun b => .ok (a, b)

/-- gen_arithm.fl:16-23 `bv_trim`. -/
def bvTrim : List (Fn o) → List (Fn o)
  | [] => [ff o]
  | [b] => [b]
  | b1 :: b2 :: bs => if b1 = b2 then bvTrim (b2 :: bs) else b1 :: b2 :: bs

/-- gen_arithm.fl:26-31 `ZX`. -/
def zx (l : Nat) (bv : List (Fn o)) : Out (List (Fn o)) :=
  if bv.length > l then .fail else .ok (List.replicate (l - bv.length) (ff o) ++ bv)

/-- gen_arithm.fl:34-39 `SX`; the head of the empty list fails if it is needed. -/
def sx (l : Nat) (bv : List (Fn o)) : Out (List (Fn o)) :=
  if bv.length > l then .fail
  else match bv with
    | [] => if l = 0 then .ok [] else .fail
    | b :: bs => .ok (List.replicate (l - (bs.length + 1)) b ++ b :: bs)

/-- gen_arithm.fl:42-47 `SX2`. -/
def sx2 (e1 e2 : List (Fn o)) : Out (List (Fn o) × List (Fn o)) :=
  let l := max e1.length e2.length
  (sx l e1).bind fun a => (sx l e2).bind fun b => .ok (a, b)

/-- gen_arithm.fl:50-55 `ZX2`. -/
def zx2 (e1 e2 : List (Fn o)) : Out (List (Fn o) × List (Fn o)) :=
  let l := max e1.length e2.length
  (zx l e1).bind fun a => (zx l e2).bind fun b => .ok (a, b)

/-- `explode (sprintf "%0*b" sz i)` for `i < 2**sz` (gen_arithm.fl:61-74; long strings are put together from parts, which
makes the same string). -/
def digits (sz i : Nat) : List Bool := (List.range sz).reverse.map fun k => i.testBit k

/-- gen_arithm.fl:58-77 `int2dbv`. -/
def int2dbv (o : Order) (v : Int) : Out (List (Fn o)) :=
  (Out.ofOption (ubitsNeeded (if v ≥ 0 then v else -1 * v))).bind fun n =>
    let sz := n.toNat + 2
    let vv := if v ≥ 0 then v else 2 ^ sz + v
    .ok (bvTrim ((digits sz vv.toNat).map (const o)))

/-- gen_arithm.fl:81 `int2fbv`. -/
def int2fbv (o : Order) (sz : Nat) (i : Int) : Out (List (Fn o)) := (int2dbv o i).bind (sx sz)

/-- gen_arithm.fl:84-102 `nat2dbv`. -/
def nat2dbv (o : Order) (v : Int) : Out (List (Fn o)) :=
  if v < 0 then .fail
  else (Out.ofOption (ubitsNeeded v)).bind fun n => .ok ((digits n.toNat v.toNat).map (const o))

/-- gen_arithm.fl:106 `nat2fbv`. -/
def nat2fbv (o : Order) (sz : Nat) (i : Int) : Out (List (Fn o)) := (nat2dbv o i).bind (zx sz)

/-- gen_arithm.fl:109 `dbv_is_zero` and 112 `fbv_is_zero`. -/
def isZero (b : List (Fn o)) : Fn o := b.foldr (fun b r => r.and b.not) (tt o)

/-- gen_arithm.fl:115-118 `dbvMUX`. -/
def dbvMUX (p cond : Fn o) (tv ev : List (Fn o)) : Out (List (Fn o)) :=
  (sx2 tv ev).bind fun (tv, ev) =>
    (branch p cond (fun _ => .ok tv) (fun _ => .ok ev) mergeList).bind fun r => .ok (bvTrim r)

/-- gen_arithm.fl:121-124 `fbvMUX`. -/
def fbvMUX (p cond : Fn o) (tv ev : List (Fn o)) : Out (List (Fn o)) :=
  if tv.length ≠ ev.length then .fail else branch p cond (fun _ => .ok tv) (fun _ => .ok ev) mergeList

/-- `=` on lists of Booleans (graph.c `Is_equal`). -/
def eqList : List (Fn o) → List (Fn o) → Fn o
  | a :: as, b :: bs => (a.xnor b).and (eqList as bs)
  | [], [] => tt o
  | _, _ => ff o

/-- gen_arithm.fl:127-130 `dbveq`, `''=''`. -/
def dbveq (av bv : List (Fn o)) : Out (Fn o) := (sx2 av bv).bind fun (av, bv) => .ok (eqList av bv)
/-- gen_arithm.fl:138-141 `fbveq`, `'='`. -/
def fbveq (av bv : List (Fn o)) : Out (Fn o) := if av.length ≠ bv.length then .fail else .ok (eqList av bv)
/-- gen_arithm.fl:149-152 `dbvneq`, `''!=''`, and `'!='` (167), which calls it as well. -/
def dbvneq (av bv : List (Fn o)) : Out (Fn o) := (sx2 av bv).bind fun (av, bv) => .ok (eqList av bv).not
/-- gen_arithm.fl:160-163 `fbvneq`. -/
def fbvneq (av bv : List (Fn o)) : Out (Fn o) := if av.length ≠ bv.length then .fail else .ok (eqList av bv).not

/-- gen_arithm.fl:176-179, `add`: least significant bit first. -/
def addBits : List (Fn o) → List (Fn o) → Fn o → List (Fn o)
  | a :: as, b :: bs, cin => ((a.xor b).xor cin) :: addBits as bs (((a.and b).or (a.and cin)).or (b.and cin))
  | _, _, cin => [cin]

/-- gen_arithm.fl:171-182 `ext_gen_bvadd`. -/
def extGenBvadd (av bv : List (Fn o)) (c : Fn o) : Out (List (Fn o)) :=
  if av.length ≠ bv.length then .fail else .ok (addBits av.reverse bv.reverse c).reverse

/-- `hd` (graph.c). -/
def hd (l : List (Fn o)) : Out (Fn o) := match l with
  | [] => .fail
  | b :: _ => .ok b
/-- `tl`. -/
def tl (l : List (Fn o)) : Out (List (Fn o)) := match l with
  | [] => .fail
  | _ :: bs => .ok bs

/-- gen_arithm.fl:184-190 `get_sign_abs`. -/
def getSignAbs (p : Fn o) (bv : List (Fn o)) : Out (Fn o × List (Fn o)) :=
  (hd bv).bind fun neg =>
  (extGenBvadd (List.replicate bv.length (ff o)) (bv.map Fn.not) (tt o)).bind fun s =>
  (branch p neg (fun _ => tl s) (fun _ => .ok bv) mergeList).bind fun abs => .ok (neg, abs)

/-- gen_arithm.fl:203-205 `bvless`. -/
def bvless : List (Fn o) → List (Fn o) → Fn o
  | a :: as, b :: bs => (b.and a.not).or ((a.xnor b).and (bvless as bs))
  | _, _ => ff o

/-- gen_arithm.fl:210-222 and 232-244. -/
def signedLess (p : Fn o) (av bv : List (Fn o)) : Out (Fn o) :=
  (hd av).bind fun a => (hd bv).bind fun b =>
  branch p a
    (fun p => branch p b (fun _ => .ok (bvless av bv)) (fun _ => .ok (tt o)) mergeBool)
    (fun p => branch p b (fun _ => .ok (ff o)) (fun _ => .ok (bvless av bv)) mergeBool) mergeBool

/-- gen_arithm.fl:208-223 `dbvless`, `''<''`. -/
def dbvless (p : Fn o) (av bv : List (Fn o)) : Out (Fn o) := (sx2 av bv).bind fun (av, bv) => signedLess p av bv
/-- gen_arithm.fl:230-245 `fbvless`, `'<'`. -/
def fbvless (p : Fn o) (av bv : List (Fn o)) : Out (Fn o) :=
  if av.length ≠ bv.length then .fail else signedLess p av bv
/-- gen_arithm.fl:252 `dbvleq`, `''<=''`, and `'<='` (262), which calls it as well. -/
def dbvleq (p : Fn o) (av bv : List (Fn o)) : Out (Fn o) :=
  (dbveq av bv).bind fun e => (dbvless p av bv).bind fun l => .ok (e.or l)
/-- gen_arithm.fl:259 `fbvleq`. -/
def fbvleq (p : Fn o) (av bv : List (Fn o)) : Out (Fn o) :=
  (fbveq av bv).bind fun e => (fbvless p av bv).bind fun l => .ok (e.or l)
/-- gen_arithm.fl:266 `dbvgreater`, `''>''`. -/
def dbvgreater (p : Fn o) (av bv : List (Fn o)) : Out (Fn o) := dbvless p bv av
/-- gen_arithm.fl:273 `fbvgreater`, `'>'`. -/
def fbvgreater (p : Fn o) (av bv : List (Fn o)) : Out (Fn o) := fbvless p bv av
/-- gen_arithm.fl:281 `dbvgeq`, `''>=''`. -/
def dbvgeq (p : Fn o) (av bv : List (Fn o)) : Out (Fn o) := dbvleq p bv av
/-- gen_arithm.fl:288 `fbvgeq`, `'>='`. -/
def fbvgeq (p : Fn o) (av bv : List (Fn o)) : Out (Fn o) := fbvleq p bv av

/-- gen_arithm.fl:295-298 `dbvadd`, `''+''`. -/
def dbvadd (av bv : List (Fn o)) : Out (List (Fn o)) :=
  (sx2 av bv).bind fun (av, bv) => (hd av).bind fun a => (hd bv).bind fun b =>
    (extGenBvadd (a :: av) (b :: bv) (ff o)).bind fun s => (tl s).bind fun t => .ok (bvTrim t)
/-- gen_arithm.fl:305 `fbvadd`, `'+'`. -/
def fbvadd (av bv : List (Fn o)) : Out (List (Fn o)) := (extGenBvadd av bv (ff o)).bind tl
/-- gen_arithm.fl:312 `fbvsub`, `'-'`. -/
def fbvsub (av bv : List (Fn o)) : Out (List (Fn o)) := (extGenBvadd av (bv.map Fn.not) (tt o)).bind tl
/-- gen_arithm.fl:319-322 `dbvsub`, `''-''`. -/
def dbvsub (av bv : List (Fn o)) : Out (List (Fn o)) :=
  (sx2 av bv).bind fun (av, bv) => (hd av).bind fun a => (hd bv).bind fun b =>
    (extGenBvadd (a :: av) ((b :: bv).map Fn.not) (tt o)).bind fun s => (tl s).bind fun t => .ok (bvTrim t)
/-- gen_arithm.fl:329 `dbvnegate`. -/
def dbvnegate (av : List (Fn o)) : Out (List (Fn o)) := (int2dbv o 0).bind fun z => dbvsub z av
/-- gen_arithm.fl:332 `fbvnegate`. -/
def fbvnegate (av : List (Fn o)) : Out (List (Fn o)) := (int2fbv o av.length 0).bind fun z => fbvsub z av

/-- gen_arithm.fl:341-345, `bvmult`. -/
def multD (xv : List (Fn o)) : List (Fn o) → Out (List (Fn o))
  | [] => .ok [ff o]
  | y :: ys => (multD xv ys).bind fun r =>
    dbvadd (ff o :: (xv ++ List.replicate ys.length (ff o)).map (fun x => y.and x)) r

/-- gen_arithm.fl:335-350 `dbvmult`, `''*''`. -/
def dbvmult (p : Fn o) (av bv : List (Fn o)) : Out (List (Fn o)) :=
  let (av, bv) := if av.length < bv.length then (bv, av) else (av, bv)
  (hd av).bind fun na => (branch p na (fun _ => dbvnegate av) (fun _ => .ok av) mergeList).bind fun aav =>
  (hd bv).bind fun nb => (branch p nb (fun _ => dbvnegate bv) (fun _ => .ok bv) mergeList).bind fun abv =>
  (multD aav abv).bind fun ares =>
  branch p (na.xor nb) (fun _ => dbvnegate ares) (fun _ => .ok ares) mergeList

/-- gen_arithm.fl:357-360, `mul`: least significant bit of the constant first. -/
def mulC (n : Nat) : List (Fn o) → List (Fn o) → Out (List (Fn o))
  | a, c :: cs => (tl a).bind fun t => (mulC n (t ++ [ff o]) cs).bind fun r => if c = tt o then fbvadd a r else .ok r
  | _, [] => .ok (List.replicate n (ff o))

/-- gen_arithm.fl:356-365 `fbv_const_mult`. -/
def fbvConstMult (av cv : List (Fn o)) : Out (List (Fn o)) :=
  (hd cv).bind fun c =>
  if c = ff o then mulC av.length av cv.reverse
  else (fbvnegate cv).bind fun cv' => (mulC av.length av cv'.reverse).bind fbvnegate

/-- `lastn`. -/
def lastn (n : Nat) (l : List (Fn o)) : List (Fn o) := l.drop (l.length - n)
/-- `butlastn`. -/
def butlastn (n : Nat) (l : List (Fn o)) : List (Fn o) := l.take (l.length - n)

/-- gen_arithm.fl:377-382, `bvmult`. -/
def multF (sz : Nat) (xv : List (Fn o)) : List (Fn o) → Out (List (Fn o))
  | [] => .ok (List.replicate sz (ff o))
  | y :: ys => (multF sz xv ys).bind fun r =>
    fbvadd ((lastn sz (xv ++ List.replicate ys.length (ff o))).map (fun x => y.and x)) r

/-- gen_arithm.fl:368-387 `fbvmult`, `'*'`. -/
def fbvmult (p : Fn o) (av bv : List (Fn o)) : Out (List (Fn o)) :=
  if depends av = [] then fbvConstMult bv av
  else if depends bv = [] then fbvConstMult av bv
  else if av.length ≠ bv.length then .fail
  else
    (hd av).bind fun na => (branch p na (fun _ => fbvnegate av) (fun _ => .ok av) mergeList).bind fun aav =>
    (hd bv).bind fun nb => (branch p nb (fun _ => fbvnegate bv) (fun _ => .ok bv) mergeList).bind fun abv =>
    (multF av.length aav abv).bind fun ares =>
    branch p (na.xor nb) (fun _ => fbvnegate ares) (fun _ => .ok ares) mergeList

/-- gen_arithm.fl:396-400, `cnt_zeros`; `none` is a negative number. -/
def cntZeros : List (Fn o) → Option Nat
  | [] => some 0
  | b :: bs => (cntZeros bs).bind fun rem => if b = tt o then none else some (1 + rem)
/-- gen_arithm.fl:402-405, `find_first_one`. -/
def findFirstOne : List (Fn o) → Option Nat
  | [] => none
  | b :: bs => if b = tt o then cntZeros bs else findFirstOne bs
/-- gen_arithm.fl:394-408 `constant_power_of_two`. -/
def constPow2 (bv : List (Fn o)) : Option Nat := if depends bv ≠ [] then none else findFirstOne bv

/-- gen_arithm.fl:419-426, `step`. -/
def divStep (p : Fn o) (bv : List (Fn o)) : List (Fn o) → List (Fn o) → List (Fn o) → Out (List (Fn o) × List (Fn o))
  | q, r, [] => .ok (q, r)
  | q, r, n :: ns =>
    (tl r).bind fun r1 => (tl q).bind fun q1 =>
    let r2 := r1 ++ [n]
    (dbvgeq p r2 bv).bind fun c =>
    (branch p c (fun _ => (fbvsub r2 bv).bind fun d => .ok (q1 ++ [tt o], d)) (fun _ => .ok (q1 ++ [ff o], r2))
      mergePair).bind fun (q', r') => divStep p bv q' r' ns

/-- gen_arithm.fl:410-434 `fixed_ext_bvdiv`. -/
def fixedExtDiv (p : Fn o) (av bv : List (Fn o)) : Out (List (Fn o) × List (Fn o)) :=
  let sz := av.length
  if sz ≠ bv.length then .fail
  else match constPow2 bv with
    | some cnt => .ok (List.replicate cnt (ff o) ++ butlastn cnt av, List.replicate (sz - cnt) (ff o) ++ lastn cnt av)
    | none =>
      (divStep p bv (List.replicate sz (ff o)) (List.replicate sz (ff o)) av).bind fun (q, r) =>
      (sx sz (bvTrim q)).bind fun q => (zx sz (bvTrim r)).bind fun r => .ok (q, r)

/-- gen_arithm.fl:437 `fbvdiv`, `'/'`. -/
def fbvdiv (p : Fn o) (nv dv : List (Fn o)) : Out (List (Fn o)) := (fixedExtDiv p nv dv).bind fun r => .ok r.1
/-- gen_arithm.fl:443 `fbvmod`, `'%'`. -/
def fbvmod (p : Fn o) (nv dv : List (Fn o)) : Out (List (Fn o)) := (fixedExtDiv p nv dv).bind fun r => .ok r.2

/-- gen_arithm.fl:453-456, the first part of `ext_bvdiv`, with `get_sign_abs2` (192-201): the sign of the quotient and the
division of the absolute values. -/
def extDiv (p : Fn o) (nv dv : List (Fn o)) : Out (Fn o × List (Fn o) × List (Fn o)) :=
  (getSignAbs p nv).bind fun (ns, na) => (getSignAbs p dv).bind fun (ds, da) =>
  let l := max na.length da.length
  let ea := List.replicate (l - na.length) (ff o) ++ na
  let eb := List.replicate (l - da.length) (ff o) ++ da
  (fixedExtDiv p ea eb).bind fun qr => .ok (ns.xor ds, qr)

/-- gen_arithm.fl:462 `dbvdiv`, `''/''`, with the first part of the pair of 457-458. -/
def dbvdiv (p : Fn o) (nv dv : List (Fn o)) : Out (List (Fn o)) :=
  (extDiv p nv dv).bind fun (s, q, _) =>
  (branch p s (fun _ => dbvnegate q) (fun _ => .ok q) mergeList).bind fun r => .ok (bvTrim r)
/-- gen_arithm.fl:468 `dbvmod`, `''%''`, with the second part of the pair of 458. -/
def dbvmod (p : Fn o) (nv dv : List (Fn o)) : Out (List (Fn o)) :=
  (extDiv p nv dv).bind fun (_, _, r) => .ok (bvTrim r)

/-- gen_arithm.fl:481-484, 510-513, 539-542, `shift`: `step` shifts by one, `zero` is what the count is compared with. -/
def shift (step : List (Fn o) → List (Fn o)) (zero one : List (Fn o)) :
    Nat → Fn o → List (Fn o) → List (Fn o) → Out (List (Fn o))
  | 0, _, _, _ => .ok zero
  | i + 1, p, cur, cnt =>
    (fbveq cnt zero).bind fun c =>
    branch p c (fun _ => .ok cur) (fun p => (fbvsub cnt one).bind fun cnt' => shift step zero one i p (step cur) cnt')
      mergeList

/-- The common part of the shifts. -/
def shiftBy (p : Fn o) (ge : Fn o → List (Fn o) → List (Fn o) → Out (Fn o)) (step : List (Fn o) → List (Fn o))
    (zero av bv : List (Fn o)) : Out (List (Fn o)) :=
  if av.length ≠ bv.length then .fail
  else
    (int2fbv o av.length av.length).bind fun k => (ge p bv k).bind fun c =>
    branch p c (fun _ => .ok zero)
      (fun p => (int2fbv o av.length 1).bind fun one => shift step zero one av.length p av bv) mergeList

/-- gen_arithm.fl:475-487 `fbvashr`, `'|>>'`; the vector that the count is compared with consists of sign bits. -/
def fbvashr (p : Fn o) (av bv : List (Fn o)) : Out (List (Fn o)) :=
  (hd av).bind fun msb => shiftBy p fbvgeq (fun cur => [msb] ++ butlastn 1 cur) (List.replicate av.length msb) av bv
/-- gen_arithm.fl:505-516 `fbvshr`, `'>>'`. -/
def fbvshr (p : Fn o) (av bv : List (Fn o)) : Out (List (Fn o)) :=
  shiftBy p fbvgeq (fun cur => [ff o] ++ butlastn 1 cur) (List.replicate av.length (ff o)) av bv
/-- gen_arithm.fl:534-545 `fbvshl`, `'<<'`. -/
def fbvshl (p : Fn o) (av bv : List (Fn o)) : Out (List (Fn o)) :=
  shiftBy p dbvgeq (fun cur => cur.tail ++ [ff o]) (List.replicate av.length (ff o)) av bv
/-- gen_arithm.fl:494-497 `dbvashr`, `''|>>''`. -/
def dbvashr (p : Fn o) (av bv : List (Fn o)) : Out (List (Fn o)) :=
  (zx2 av bv).bind fun (av, bv) => (fbvashr p av bv).bind fun r => .ok (bvTrim r)
/-- gen_arithm.fl:523-526 `dbvshr`, `''>>''`. -/
def dbvshr (p : Fn o) (av bv : List (Fn o)) : Out (List (Fn o)) :=
  (zx2 av bv).bind fun (av, bv) => (fbvshr p av bv).bind fun r => .ok (bvTrim r)
/-- gen_arithm.fl:552-555 `dbvshl`, `''<<''`. -/
def dbvshl (p : Fn o) (av bv : List (Fn o)) : Out (List (Fn o)) :=
  (sx2 av bv).bind fun (av, bv) => (fbvshl p av bv).bind fun r => .ok (bvTrim r)

/-- gen_arithm.fl:568-569, `b2i`. -/
def b2i : Int → List (Fn o) → Int
  | cur, [] => cur
  | cur, b :: bs => b2i (2 * cur + (if b = tt o then 1 else 0)) bs

/-- gen_arithm.fl:562-573 `bv2int`, `dbv2int`, `fbv2int`; the condition is constant here. -/
def bv2int (bv : List (Fn o)) : Out Int :=
  if depends bv ≠ [] then .fail
  else (hd bv).bind fun s =>
    if s = tt o then (dbvnegate bv).bind fun abs => .ok (-b2i 0 abs) else .ok (b2i 0 bv)

/-- gen_arithm.fl:582-586 `gen_bitwise`, for lists of the same length. -/
def genBitwise (fn : Fn o → Fn o → Fn o) (av bv : List (Fn o)) : List (Fn o) := List.zipWith fn av bv

/-- gen_arithm.fl:589-592 `dbvgAND`, 599-602 `dbvgOR`, 609-612 `dbvgXOR`. -/
def dbvBitwise (fn : Fn o → Fn o → Fn o) (av bv : List (Fn o)) : Out (List (Fn o)) :=
  (sx2 av bv).bind fun (av, bv) => .ok (bvTrim (genBitwise fn av bv))
/-- gen_arithm.fl:623-627 `fbvgAND`, 634-638 `fbvgOR`, 645-649 `fbvgXOR`. -/
def fbvBitwise (fn : Fn o → Fn o → Fn o) (av bv : List (Fn o)) : Out (List (Fn o)) :=
  if av.length ≠ bv.length then .fail else .ok (genBitwise fn av bv)
/-- gen_arithm.fl:619 `dbvgNOT`. -/
def dbvNot (av : List (Fn o)) : List (Fn o) := bvTrim (av.map Fn.not)
/-- gen_arithm.fl:656 `fbvgNOT`. -/
def fbvNot (av : List (Fn o)) : List (Fn o) := av.map Fn.not

/-- gen_arithm.fl:663-666 `abs`. -/
def fabs (p : Fn o) (v : List (Fn o)) : Out (List (Fn o)) :=
  (int2fbv o v.length 0).bind fun zero => (fbvgeq p v zero).bind fun c =>
  branch p c (fun _ => .ok v) (fun _ => fbvsub zero v) mergeList

end Voss.Gen
