import Verif.Arbi.StrModel
/-
Model of the fl integer builtins, src/bin/fl/int_ops.c.  Graph-node bookkeeping (argument fetching,
reference counts) is left out; a builtin maps integer values to a result.
-/
namespace Voss.Arbi

/-- Result of a builtin: a value, a raised fl exception, or undefined behaviour of the C code. -/
inductive Out (α : Type) where
  | ok (a : α)
  | fail (msg : String)
  | ub
deriving DecidableEq, Repr

def Res.out {α : Type} : Res α → Out α
  | .ok a => .ok a
  | .null => .ub  -- a null result would be stored in the redex and dereferenced later
  | .ub => .ub

/-- int_ops.c:74-84 `iPLUS`. -/
def iPLUS (x y : List W) : Out (List W) := .ok (add x y)
/-- int_ops.c:86-95 `iUNARY_MINUS`. -/
def iUNARY_MINUS (x : List W) : Out (List W) := .ok (sub (fromWord 0#64) x)
/-- int_ops.c:97-107 `iMINUS`. -/
def iMINUS (x y : List W) : Out (List W) := .ok (sub x y)
/-- int_ops.c:109-119 `iTIMES`. -/
def iTIMES (x y : List W) : Out (List W) := (mul x y).out
/-- int_ops.c:121-135 `iDIVIDE`; the budget is that of `divmod`. -/
def iDIVIDE (fuel : Nat) (x y : List W) : Option (Out (List W)) :=
  if cmp y (fromWord 0#64) = 0 then some (.fail "Division by zero") else (div fuel x y).map Res.out
/-- int_ops.c:137-151 `iMOD`. -/
def iMOD (fuel : Nat) (x y : List W) : Option (Out (List W)) :=
  if cmp y (fromWord 0#64) = 0 then some (.fail "Mod of zero") else (mod fuel x y).map Res.out
/-- int_ops.c:153-163 `iGCD`. -/
def iGCD (fuel : Nat) (x y : List W) : Option (Out (List W)) := (gcd fuel x y).map Res.out
/-- int_ops.c:165-174 `iNOT`. -/
def iNOT (x : List W) : Out (List W) := .ok (bvNot x)
/-- int_ops.c:176-186 `iAND`. -/
def iAND (x y : List W) : Out (List W) := .ok (bvAnd x y)
/-- int_ops.c:188-198 `iOR`. -/
def iOR (x y : List W) : Out (List W) := .ok (bvOr x y)
/-- int_ops.c:200-210 `iXOR`. -/
def iXOR (x y : List W) : Out (List W) := .ok (bvXor x y)
/-- int_ops.c:212-227 `iLESS`. -/
def iLESS (x y : List W) : Bool := cmp x y == -1
/-- int_ops.c:229-244 `iLEQ`. -/
def iLEQ (x y : List W) : Bool := cmp x y == -1 || cmp x y == 0
/-- int_ops.c:246-261 `iGREATER`. -/
def iGREATER (x y : List W) : Bool := cmp x y == 1
/-- int_ops.c:263-278 `iGEQ`. -/
def iGEQ (x y : List W) : Bool := cmp x y == 1 || cmp x y == 0

/-- The value of the `int` expression `1 << n` (n in 0..31) passed to `Arbi_FromInt(long)`:
`1 << 31` is `INT_MIN` with the usual two's complement compilers. -/
def shlInt (n : Nat) : Int := ((1#32) <<< n).toInt
/-- `random() & ((1 << n) - 1)` with `random()` in 0..2^31-1. -/
def maskRandom (n : Nat) (r : BitVec 31) : Nat := r.toNat % 2^n

/-- int_ops.c:52-71 `do_random2`: the loop takes 31 bits at a time, `ws` is the `int` value `1 << 31`.
`rs` are the values returned by `random()`, one per call; an exhausted supply reads as 0. -/
def random2Loop : Nat → List (BitVec 31) → List W → Nat → Res (List W)
  | 0, _, _, _ => .ub
  | fuel+1, rs, res, bits =>
    let r := rs.headD 0#31
    if bits > 31 then
      match mul res (fromWord (BitVec.ofInt 64 (shlInt 31))) with
      | .ok p => random2Loop fuel rs.tail (add p (fromWord (BitVec.ofNat 64 (maskRandom 31 r)))) (bits - 31)
      | _ => .ub
    else
      match mul res (fromWord (BitVec.ofInt 64 (shlInt bits))) with
      | .ok p => .ok (add p (fromWord (BitVec.ofNat 64 (maskRandom bits r))))
      | _ => .ub

def random2 (rs : List (BitVec 31)) (bits : Nat) : Res (List W) :=
  random2Loop (bits + 1) rs (fromWord 0#64) bits

end Voss.Arbi
