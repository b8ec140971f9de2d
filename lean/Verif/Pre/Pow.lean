import Verif.Pre.Range
/-
Model of src/bin/fl/preamble.fl:731-762 (`bv_pow`, `bv_shl`, `bv_shr`, `bv_ashr`, `bev_pow`) and 811-834 (`bv_gcd`,
`bv_reduce`).  The recursive functions get a bound for the depth of the calls.
-/
namespace Voss.Pre
variable {o : Order}
open Fn

/-- preamble.fl:731-734 `bv_pow`. -/
def bvPow : Nat → Fn o → List (Fn o) → List (Fn o) → Out (List (Fn o))
  | 0, _, _, _ => .more
  | k + 1, p, base, n =>
    (Out.ofOption (Bv.bvLeq n [ff o])).bind fun c =>
      branch p c (fun _ => .ok [ff o, tt o])
        (fun p => (Out.ofOption (Bv.bvSub n [ff o, tt o])).bind fun m =>
          (bvPow k p base m).bind fun r => Out.ofOption (Bv.bvMul base r)) mergeBv

/-- preamble.fl:737-739 `bv_shl`. -/
def bvShl (k : Nat) (p : Fn o) (n amount : List (Fn o)) : Out (List (Fn o)) :=
  (bvPow k p [ff o, tt o, ff o] amount).bind fun d => Out.ofOption (Bv.bvMul n d)

/-- preamble.fl:742-744 `bv_shr`. -/
def bvShr (k : Nat) (p : Fn o) (n amount : List (Fn o)) : Out (List (Fn o)) :=
  (bvPow k p [ff o, tt o, ff o] amount).bind fun d => Out.ofOption (Bv.bvDiv (Bv.bvZX n) d)

/-- preamble.fl:747-749 `bv_ashr_bvbv`. -/
def bvAshrBv (k : Nat) (p : Fn o) (n amount : List (Fn o)) : Out (List (Fn o)) :=
  (bvPow k p [ff o, tt o, ff o] amount).bind fun d => Out.ofOption (Bv.bvDiv n d)

/-- preamble.fl:811-814 `bv_gcd`. -/
def bvGcd : Nat → Fn o → List (Fn o) → List (Fn o) → Out (List (Fn o))
  | 0, _, _, _ => .more
  | k + 1, p, a, b =>
    (Out.ofOption (Bv.bvEq b [ff o])).bind fun c =>
      branch p c (fun _ => .ok a)
        (fun p => (Out.ofOption (Bv.bvMod a b)).bind fun m => bvGcd k p b m) mergeBv

/-- The lowest `w` binary digits of a number, the highest one first. -/
def digitsOf : Nat → Nat → List Bool
  | 0, _ => []
  | w + 1, n => decide (n / 2 ^ w % 2 = 1) :: digitsOf w n

/-- `int2bv` of any integer (the builtin is the subject of C12). -/
def intBv (o : Order) (z : Int) : List (Fn o) :=
  if 0 ≤ z then Bv.trim ((false :: digitsOf (z.toNat.log2 + 1) z.toNat).map (const o))
  else Bv.trim ((true :: (digitsOf ((-z - 1).toNat.log2 + 1) (-z - 1).toNat).map (!·)).map (const o))

/-- preamble.fl:820-834 `bv_reduce`. -/
def bvReduce (k : Nat) (bv : List (Fn o)) : Out (List (Fn o)) :=
  (Out.ofOption (Bv.bvEq bv [ff o])).bind fun z =>
    if z ≠ ff o then .fail
    else
      let vs := depends bv
      let cond0 := vs.foldr (fun v r => (var o v).not.and r) (tt o)
      (Out.ofOption (param cond0)).bind fun sub0 =>
        (Out.ofOption (param cond0.not)).bind fun subrem =>
          let bv0 := Bv.list2bv (bv.map (subst sub0))
          let bvrem := Bv.list2bv (bv.map (subst subrem))
          (bvGcd k (tt o) bv0 bvrem).bind fun cd =>
            (bvMin k (tt o) cd).bind fun g => Out.ofOption (Bv.bvDiv bv (intBv o g))

/-- preamble.fl:758-761 `bev_pow`, with `bevTHEN` (44-47), which needs both of its branches whatever the condition
is; the operations on expressions are any functions.  `none`: the calls go deeper than allowed. -/
def bevPow {B C : Type} (geq : B → B → C) (ifthen : C → B → B → B) (mul sub : B → B → B) (int : Int → B) :
    Nat → B → B → Option B
  | 0, _, _ => none
  | k + 1, base, n =>
    (bevPow geq ifthen mul sub int k base (sub n (int 1))).map fun e =>
      ifthen (geq n (int 0)) (int 1) (mul base e)

end Voss.Pre
