import Verif.Gen.Model
/-
Model of the bit-vector library for numbers without sign, src/vosslib/gen_u_arithm.fl, with the Booleans of
src/vosslib/bool_u_arithm.fl (10-30, the same as those of bool_arithm.fl).

Functions with the same text as in gen_arithm.fl are those of `Voss.Gen` (Verif/Gen/Model.lean): `bv_trim` (16-23)
`bvTrim`, `ZX` (26-31) `zx`, `ZX2` (35-40) `zx2`, `dbv_is_zero` and `fbv_is_zero` (78, 81) `isZero`, `fbvMUX` (90-93),
`fbveq` (107-110), `fbvneq` (129-132), `ext_gen_bvadd` (140-151) `extGenBvadd`, `bvless` (153-155), `fbvadd` (231),
`fbvsub` (238), the loops of the products (270-275, 285-291) `mulC` and `multF`, `constant_power_of_two` (300-314)
`constPow2`, the loop of the shifts (`shift`), the bitwise functions of fixed size (510-543) `fbvBitwise` and `fbvNot`.

Simplifications: those of Verif/Gen/Model.lean.
-/
namespace Voss.Ugen
open Voss.Pre Voss.Pre.Fn Voss.Gen
variable {o : Order}

/-- gen_u_arithm.fl:43-46 `bits_needed`, which fails where `log2` does. -/
def bitsNeeded (n : Int) : Option Int := (log2 n).map fun r => if 2 ^ r.toNat ≤ n then r + 1 else r

/-- gen_u_arithm.fl:49-67 `int2dbv`. -/
def int2dbv (o : Order) (v : Int) : Out (List (Fn o)) :=
  if v < 0 then .fail
  else (Out.ofOption (bitsNeeded v)).bind fun n => .ok (bvTrim ((digits (n.toNat + 1) v.toNat).map (const o)))

/-- The number of digits of a number in binary. -/
def width (i : Nat) : Nat := if i = 0 then 1 else i.log2 + 1

/-- gen_u_arithm.fl:71-75 `int2fbv`; `sprintf "%0*b"` writes at least `sz` digits. -/
def int2fbv (o : Order) (sz : Nat) (i : Int) : Out (List (Fn o)) :=
  if i < 0 then .fail else .ok ((digits (max sz (width i.toNat)) i.toNat).map (const o))

/-- gen_u_arithm.fl:84-87 `dbvMUX`. -/
def dbvMUX (p cond : Fn o) (tv ev : List (Fn o)) : Out (List (Fn o)) :=
  (zx2 tv ev).bind fun (tv, ev) =>
    (branch p cond (fun _ => .ok tv) (fun _ => .ok ev) mergeList).bind fun r => .ok (bvTrim r)

/-- gen_u_arithm.fl:96-99 `dbveq`, `''=''`. -/
def dbveq (av bv : List (Fn o)) : Out (Fn o) := (zx2 av bv).bind fun (av, bv) => .ok (eqList av bv)
/-- gen_u_arithm.fl:118-121 `dbvneq`, `''!=''`, and `'!='` (136), which calls it as well. -/
def dbvneq (av bv : List (Fn o)) : Out (Fn o) := (zx2 av bv).bind fun (av, bv) => .ok (eqList av bv).not

/-- gen_u_arithm.fl:158-161 `dbvless`, `''<''`. -/
def dbvless (av bv : List (Fn o)) : Out (Fn o) := (zx2 av bv).bind fun (av, bv) => .ok (bvless av bv)
/-- gen_u_arithm.fl:168-171 `fbvless`, `'<'`. -/
def fbvless (av bv : List (Fn o)) : Out (Fn o) := if av.length ≠ bv.length then .fail else .ok (bvless av bv)
/-- gen_u_arithm.fl:178 `dbvleq`, `''<=''`, and `'<='` (188), which calls it as well. -/
def dbvleq (av bv : List (Fn o)) : Out (Fn o) :=
  (dbveq av bv).bind fun e => (dbvless av bv).bind fun l => .ok (e.or l)
/-- gen_u_arithm.fl:185 `fbvleq`. -/
def fbvleq (av bv : List (Fn o)) : Out (Fn o) :=
  (fbveq av bv).bind fun e => (fbvless av bv).bind fun l => .ok (e.or l)
/-- gen_u_arithm.fl:192 `dbvgreater`. -/
def dbvgreater (av bv : List (Fn o)) : Out (Fn o) := dbvless bv av
/-- gen_u_arithm.fl:195 `''>''`: the arguments are dropped, and the result is a function. -/
def dynGreater (_ _ : List (Fn o)) : List (Fn o) → List (Fn o) → Out (Fn o) := dbvgreater
/-- gen_u_arithm.fl:199 `fbvgreater`, `'>'`. -/
def fbvgreater (av bv : List (Fn o)) : Out (Fn o) := fbvless bv av
/-- gen_u_arithm.fl:207 `dbvgeq`, `''>=''`. -/
def dbvgeq (av bv : List (Fn o)) : Out (Fn o) := dbvleq bv av
/-- gen_u_arithm.fl:214 `fbvgeq`, `'>='`. -/
def fbvgeq (av bv : List (Fn o)) : Out (Fn o) := fbvleq bv av

/-- gen_u_arithm.fl:221-224 `dbvadd`, `''+''`. -/
def dbvadd (av bv : List (Fn o)) : Out (List (Fn o)) :=
  (zx2 av bv).bind fun (av, bv) => (hd av).bind fun a => (hd bv).bind fun b =>
    (extGenBvadd (a :: av) (b :: bv) (ff o)).bind fun s => (tl s).bind fun t => .ok (bvTrim t)
/-- gen_u_arithm.fl:245-248 `dbvsub`, `''-''`. -/
def dbvsub (av bv : List (Fn o)) : Out (List (Fn o)) :=
  (zx2 av bv).bind fun (av, bv) => (hd av).bind fun a => (hd bv).bind fun b =>
    (extGenBvadd (a :: av) ((b :: bv).map Fn.not) (tt o)).bind fun s => (tl s).bind fun t => .ok (bvTrim t)

/-- gen_u_arithm.fl:257-261, `bvmult`. -/
def multD (xv : List (Fn o)) : List (Fn o) → Out (List (Fn o))
  | [] => .ok [ff o]
  | y :: ys => (multD xv ys).bind fun r =>
    dbvadd (ff o :: (xv ++ List.replicate ys.length (ff o)).map (fun x => y.and x)) r

/-- gen_u_arithm.fl:255-264 `dbvmult`, `''*''`. -/
def dbvmult (av bv : List (Fn o)) : Out (List (Fn o)) :=
  let (av, bv) := if av.length < bv.length then (bv, av) else (av, bv)
  multD av bv

/-- gen_u_arithm.fl:270-277 `fbv_const_mult`. -/
def fbvConstMult (av cv : List (Fn o)) : Out (List (Fn o)) := mulC av.length av cv.reverse

/-- gen_u_arithm.fl:280-293 `fbvmult`, `'*'`. -/
def fbvmult (av bv : List (Fn o)) : Out (List (Fn o)) :=
  if depends av = [] then fbvConstMult bv av
  else if depends bv = [] then fbvConstMult av bv
  else if av.length ≠ bv.length then .fail
  else multF av.length av bv

/-- gen_u_arithm.fl:325-333, `step`; the names `Q` and `R` are exchanged twice. -/
def divStep (p : Fn o) (bv : List (Fn o)) : List (Fn o) → List (Fn o) → List (Fn o) → Out (List (Fn o) × List (Fn o))
  | q, r, [] => .ok (q, r)
  | q, r, n :: ns =>
    (tl r).bind fun r1 => (tl q).bind fun q1 =>
    let r2 := r1 ++ [n]
    (dbvgeq r2 bv).bind fun c =>
    (branch p c (fun _ => (fbvsub r2 bv).bind fun d => .ok (q1 ++ [tt o], d)) (fun _ => .ok (q1 ++ [ff o], r2))
      mergePair).bind fun (q', r') => divStep p bv q' r' ns

/-- gen_u_arithm.fl:316-340 `fixed_ext_bvdiv`. -/
def fixedExtDiv (p : Fn o) (av bv : List (Fn o)) : Out (List (Fn o) × List (Fn o)) :=
  let sz := av.length
  if sz ≠ bv.length then .fail
  else match constPow2 bv with
    | some cnt => .ok (List.replicate cnt (ff o) ++ butlastn cnt av, List.replicate (sz - cnt) (ff o) ++ lastn cnt av)
    | none =>
      (divStep p bv (List.replicate sz (ff o)) (List.replicate sz (ff o)) av).bind fun (q, r) =>
      (zx sz (bvTrim q)).bind fun q => (zx sz (bvTrim r)).bind fun r => .ok (q, r)

/-- gen_u_arithm.fl:343 `fbvdiv`, `'/'`. -/
def fbvdiv (p : Fn o) (nv dv : List (Fn o)) : Out (List (Fn o)) := (fixedExtDiv p nv dv).bind fun r => .ok r.1
/-- gen_u_arithm.fl:349 `fbvmod`, `'%'`. -/
def fbvmod (p : Fn o) (nv dv : List (Fn o)) : Out (List (Fn o)) := (fixedExtDiv p nv dv).bind fun r => .ok r.2

/-- gen_u_arithm.fl:359-363 `ext_bvdiv`. -/
def extDiv (p : Fn o) (nv dv : List (Fn o)) : Out (List (Fn o) × List (Fn o)) :=
  (zx2 nv dv).bind fun (nv, dv) => (fixedExtDiv p nv dv).bind fun (q, r) => .ok (bvTrim q, bvTrim r)
/-- gen_u_arithm.fl:366 `dbvdiv`, `''/''`. -/
def dbvdiv (p : Fn o) (nv dv : List (Fn o)) : Out (List (Fn o)) := (extDiv p nv dv).bind fun r => .ok r.1
/-- gen_u_arithm.fl:372 `dbvmod`, `''%''`. -/
def dbvmod (p : Fn o) (nv dv : List (Fn o)) : Out (List (Fn o)) := (extDiv p nv dv).bind fun r => .ok r.2

/-- The common part of the shifts (gen_u_arithm.fl:380-392, 409-420, 436-447). -/
def shiftBy (p : Fn o) (step : List (Fn o) → List (Fn o)) (zero av bv : List (Fn o)) : Out (List (Fn o)) :=
  if av.length ≠ bv.length then .fail
  else
    (int2fbv o av.length av.length).bind fun k => (fbvgeq bv k).bind fun c =>
    branch p c (fun _ => .ok zero)
      (fun p => (int2fbv o av.length 1).bind fun one => shift step zero one av.length p av bv) mergeList

/-- gen_u_arithm.fl:379-392 `fbvashr`, `'|>>'`; the vector that the count is compared with consists of sign bits. -/
def fbvashr (p : Fn o) (av bv : List (Fn o)) : Out (List (Fn o)) :=
  (hd av).bind fun msb => shiftBy p (fun cur => [msb] ++ butlastn 1 cur) (List.replicate av.length msb) av bv
/-- gen_u_arithm.fl:408-420 `fbvshr`, `'>>'`. -/
def fbvshr (p : Fn o) (av bv : List (Fn o)) : Out (List (Fn o)) :=
  shiftBy p (fun cur => [ff o] ++ butlastn 1 cur) (List.replicate av.length (ff o)) av bv
/-- gen_u_arithm.fl:436-447 `fbvshl`, `'<<'`. -/
def fbvshl (p : Fn o) (av bv : List (Fn o)) : Out (List (Fn o)) :=
  shiftBy p (fun cur => cur.tail ++ [ff o]) (List.replicate av.length (ff o)) av bv
/-- gen_u_arithm.fl:398-401 `dbvashr`, `''|>>''`. -/
def dbvashr (p : Fn o) (av bv : List (Fn o)) : Out (List (Fn o)) :=
  (zx2 av bv).bind fun (av, bv) => (fbvashr p av bv).bind fun r => .ok (bvTrim r)
/-- gen_u_arithm.fl:426-429 `dbvshr`, `''>>''`. -/
def dbvshr (p : Fn o) (av bv : List (Fn o)) : Out (List (Fn o)) :=
  (zx2 av bv).bind fun (av, bv) => (fbvshr p av bv).bind fun r => .ok (bvTrim r)
/-- gen_u_arithm.fl:454-457 `dbvshl`, `''<<''`. -/
def dbvshl (p : Fn o) (av bv : List (Fn o)) : Out (List (Fn o)) :=
  (zx2 av bv).bind fun (av, bv) => (fbvshl p av bv).bind fun r => .ok (bvTrim r)

/-- new_bdd.c:1474-1493 `bv2num`: the digits read from the left; a digit that is not constant fails. -/
def bv2num : Int → List (Fn o) → Out Int
  | cur, [] => .ok cur
  | cur, b :: bs => if b = tt o then bv2num (2 * cur + 1) bs else if b = ff o then bv2num (2 * cur) bs else .fail

/-- gen_u_arithm.fl:464 `dbv2int` and 467 `fbv2int`. -/
def bv2int (bv : List (Fn o)) : Out Int := bv2num 0 bv

/-- gen_u_arithm.fl:476-479 `dbvgAND`, 486-489 `dbvgOR`, 496-499 `dbvgXOR`. -/
def dbvBitwise (fn : Fn o → Fn o → Fn o) (av bv : List (Fn o)) : Out (List (Fn o)) :=
  (zx2 av bv).bind fun (av, bv) => .ok (bvTrim (genBitwise fn av bv))

end Voss.Ugen
