import Verif.Pre.Param
import Verif.Bv.Spec
/-
Model of src/bin/fl/preamble.fl:785-808 (`bv_max`, `bv_min`) and 1913-1971 (`mutex`, `bv_range`), and of
conditionals whose condition is symbolic (graph.c:4198-4256).
-/
namespace Voss.Pre
variable {o : Order}
open Fn

/-- What an evaluation does: it gives a value, it fails, or it needs more steps than were allowed. -/
inductive Out (α : Type) where
  | ok (a : α)
  | fail
  | more
deriving DecidableEq, Repr

def Out.bind {α β : Type} (x : Out α) (f : α → Out β) : Out β :=
  match x with
  | .ok a => f a
  | .fail => .fail
  | .more => .more

/-- A builtin that fails is a failure. -/
def Out.ofOption {α : Type} : Option α → Out α
  | some a => .ok a
  | none => .fail

/-- graph.c:4198-4256, the conditional `c => t | e`, evaluated when the conditions of the enclosing conditionals
amount to `p` (`cur_eval_cond`).  Each branch is evaluated with the condition that it runs under. -/
def branch {α : Type} (p c : Fn o) (t e : Fn o → Out α) (merge : Fn o → α → α → Out α) : Out α :=
  if c = tt o then t p
  else if c = ff o then e p
  else if p.and c = ff o then e (p.and c.not)
  else if p.and c.not = ff o then t (p.and c)
  else (t (p.and c)).bind fun x => (e (p.and c.not)).bind fun y => merge c x y

/-- graph.c:6018-6050 `g_b_ite`: integers are merged only if they are the same. -/
def mergeInt (_ : Fn o) (x y : Int) : Out Int := if x = y then .ok x else .fail
/-- graph.c:6036-6049, Boolean values. -/
def mergeBool (c : Fn o) (x y : Fn o) : Out (Fn o) := .ok ((c.and x).or (c.not.and y))
/-- bv.c:371-388 `bv_gmap2_fn`: bit-vectors are extended to the same length first. -/
def mergeBv (c : Fn o) (x y : List (Fn o)) : Out (List (Fn o)) := .ok (Bv.iteList c x y)

/-- preamble.fl:755 `bv_neg` (of bit-vectors). -/
def bvNeg (bv : List (Fn o)) : Option (List (Fn o)) := Bv.bvAdd (Bv.bvNOT bv) [ff o, tt o]

/-- preamble.fl:789-793, `try` in `bv_max`; `g` makes the substitutions of the earlier steps. -/
def tryMax (g : Fn o → Fn o) : List (Fn o) → Option (List Bool)
  | [] => some []
  | b :: bs =>
    if g b = ff o then (tryMax g bs).map (false :: ·)
    else (param (g b)).bind fun sub => (tryMax (fun f => subst sub (g f)) bs).map (true :: ·)

/-- preamble.fl:801-805, `try` in `bv_min`. -/
def tryMin (g : Fn o → Fn o) : List (Fn o) → Option (List Bool)
  | [] => some []
  | b :: bs =>
    if g b = tt o then (tryMin g bs).map (true :: ·)
    else (param (g b).not).bind fun sub => (tryMin (fun f => subst sub (g f)) bs).map (false :: ·)

mutual
/-- preamble.fl:787-796 `bv_max`; the digits are read with `sscanf "%b"` (C63).  The number bounds the depth of
the calls. -/
def bvMax : Nat → Fn o → List (Fn o) → Out Int
  | 0, _, _ => .more
  | k + 1, p, bv =>
    (Out.ofOption (Bv.bvLess bv [ff o])).bind fun c =>
      branch p c (fun p => (Out.ofOption (bvNeg bv)).bind fun n => (bvMin k p n).bind fun m => .ok (-1 * m))
        (fun _ => (Out.ofOption (tryMax id bv)).bind fun ds => .ok (Bv.uv ds)) mergeInt
/-- preamble.fl:799-808 `bv_min`. -/
def bvMin : Nat → Fn o → List (Fn o) → Out Int
  | 0, _, _ => .more
  | k + 1, p, bv =>
    (Out.ofOption (Bv.bvLess bv [ff o])).bind fun c =>
      branch p c (fun p => (Out.ofOption (bvNeg bv)).bind fun n => (bvMax k p n).bind fun m => .ok (-1 * m))
        (fun _ => (Out.ofOption (tryMin id bv)).bind fun ds => .ok (Bv.uv ds)) mergeInt
end

/-- preamble.fl:1923-1930 `find_max` of `bv_range`. -/
def findMax (g : Fn o → Fn o) : List (Fn o) → Option Int
  | [] => some 0
  | b :: bs =>
    if g b = ff o then findMax g bs
    else (param (g b)).bind fun sub =>
      (findMax (fun f => subst sub (g f)) bs).map fun m => 2 ^ bs.length + m

/-- preamble.fl:1931-1938 `find_min` of `bv_range`. -/
def findMin (g : Fn o → Fn o) : List (Fn o) → Option Int
  | [] => some 0
  | b :: bs =>
    if g b = tt o then (findMin g bs).map fun m => 2 ^ bs.length + m
    else (param (g b).not).bind fun sub => findMin (fun f => subst sub (g f)) bs

/-- preamble.fl:1944-1947 and 1963-1966: the bit-vector where it is negative, negated. -/
def negPart (neg : Fn o) (bv : List (Fn o)) : Option (List (Fn o)) :=
  (param neg).bind fun sub => Bv.bvMul [tt o] (Bv.list2bv (bv.map (subst sub)))

/-- preamble.fl:1951-1953 and 1958-1960: the bit-vector where it is not negative. -/
def posPart (neg : Fn o) (bv : List (Fn o)) : Option (List (Fn o)) :=
  (param neg.not).map fun sub => Bv.list2bv (bv.map (subst sub))

/-- preamble.fl:1922-1971 `bv_range`. -/
def bvRange (bv : List (Fn o)) : Option (Int × Int) :=
  (Bv.bvLess bv [ff o]).bind fun neg =>
    (Bv.bvGeq bv [ff o]).bind fun pos =>
      let lo := if neg ≠ ff o then ((negPart neg bv).bind (findMax id)).map (-1 * ·)
        else (posPart neg bv).bind (findMin id)
      let hi := if pos ≠ ff o then (posPart neg bv).bind (findMax id)
        else ((negPart neg bv).bind (findMin id)).map (-1 * ·)
      lo.bind fun l => hi.map fun h => (l, h)

/-- preamble.fl:1915-1918 `mutex`. -/
def mutex (p : Fn o) (v : List (Fn o)) : Out (Fn o) :=
  (Out.ofOption (Bv.bvLeq v [ff o])).bind fun c =>
    branch p c (fun _ => .ok (ff o))
      (fun _ => (Out.ofOption (Bv.bvMul [tt o] v)).bind fun n => (Out.ofOption (Bv.bvAND v n)).bind fun a =>
        Out.ofOption (Bv.bvEq v a)) mergeBool

end Voss.Pre
