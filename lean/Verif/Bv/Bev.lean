import Verif.Bv.Model
/-
Model of src/bin/fl/bev.c: two's complement bit-vectors of and-inverter expressions (`bexpr`), most significant bit
first, and of the functions of the preamble on them.

The text of bev.c is that of bv.c with `BE_And` for `B_And` and so on, so the functions on lists that differ in nothing
else are those of `Verif.Bv.Model` at the instance below:

  `trim` trim_bev 38-51, `sx2` 237-259, `zx2` 261-279, `addRec` add_rec 301-318, `genAdd` gen_add 320-328,
  `isZeroList` is_zero_list 330-339, `negate` negate_bev_list 341-347, `decrement` decrement_bev_list 349-355,
  `iteList` ite_bev_list 357-371, `mult` mult_bev_list 381-402, `lessRec` less_rec 404-416,
  `less` less_than_bev_list 418-428, `isScalar` is_scalar_list 463-474, `constPow2` constant_power_of_two 476-497,
  `fixedDiv` fixed_ext_bevdiv 499-607, `list2int` bev_list2int 685-698.

`Aig` is the interface to bexpr.c.  Simplification: `and` is a function of its arguments.  In bexpr.c the handle returned
depends on what has been built before and on the limits of the SAT solver; its meaning does not (C24).
-/
namespace Voss.Bv
open Voss.Arbi (W Res)

/-- And-inverter expressions as bit-vectors use them (bexpr.c).  The laws are C24 and the first lines of `be_and`
(bexpr.c:1542-1550); `==` on handles tells nothing about different handles. -/
class Aig (F : Type) (Env : outParam Type) where
  dec : DecidableEq F
  den : F → Env → Bool
  /-- `BE_One`. -/
  one : F
  /-- `BE_NOT`: the tag of the pointer is flipped. -/
  not : F → F
  /-- `be_and`. -/
  and : F → F → F
  /-- `RC_add_redundant_terms`. -/
  red : Bool
  den_one : ∀ ρ, den one ρ = true
  den_not : ∀ a ρ, den (not a) ρ = !den a ρ
  den_and : ∀ a b ρ, den (and a b) ρ = (den a ρ && den b ρ)
  not_not : ∀ a, not (not a) = a
  one_ne : one ≠ not one
  false_and : ∀ a, and (not one) a = not one
  and_false : ∀ a, and a (not one) = not one
  one_and : ∀ a, and one a = a
  and_one : ∀ a, and a one = a

section
variable {F Env : Type} [Aig F Env]

/-- `BE_Or` (bexpr.c:221-225). -/
def beOr (a b : F) : F := Aig.not (Aig.and (Aig.not a) (Aig.not b))
/-- `BE_Xor` (bexpr.c:227-231). -/
def beXor (a b : F) : F := beOr (Aig.and (Aig.not a) b) (Aig.and a (Aig.not b))
/-- `BE_Xnor` (bexpr.c:233-237). -/
def beXnor (a b : F) : F := beOr (Aig.and (Aig.not a) (Aig.not b)) (Aig.and a b)
/-- `BE_Ite` (bexpr.c:211-219). -/
def beIte (c t e : F) : F :=
  let res := beOr (Aig.and c t) (Aig.and (Aig.not c) e)
  if Aig.red F then beOr res (Aig.and t e) else res

theorem den_beOr (a b : F) (ρ : Env) : Aig.den (beOr a b) ρ = (Aig.den a ρ || Aig.den b ρ) := by
  simp [beOr, Aig.den_not, Aig.den_and]

end

instance (priority := low) aigFml {F Env : Type} [Aig F Env] : Fml F Env where
  den := Aig.den
  zero := Aig.not Aig.one
  one := Aig.one
  not := Aig.not
  and := Aig.and
  or := beOr
  xor := beXor
  xnor := beXnor
  ite := beIte
  eqb a b := @decide (a = b) (Aig.dec a b)
  den_zero ρ := by rw [Aig.den_not, Aig.den_one]; rfl
  den_one := Aig.den_one
  den_not := Aig.den_not
  den_and := Aig.den_and
  den_or := den_beOr
  den_xor a b ρ := by
    unfold beXor
    rw [den_beOr, Aig.den_and, Aig.den_and, Aig.den_not, Aig.den_not]
    cases Aig.den a ρ <;> cases Aig.den b ρ <;> rfl
  den_xnor a b ρ := by
    unfold beXnor
    rw [den_beOr, Aig.den_and, Aig.den_and, Aig.den_not, Aig.den_not]
    cases Aig.den a ρ <;> cases Aig.den b ρ <;> rfl
  den_ite c a b ρ := by
    unfold beIte
    dsimp only
    split
    · rw [den_beOr, den_beOr, Aig.den_and, Aig.den_and, Aig.den_and, Aig.den_not]
      cases Aig.den c ρ <;> cases Aig.den a ρ <;> cases Aig.den b ρ <;> rfl
    · rw [den_beOr, Aig.den_and, Aig.den_and, Aig.den_not]
      cases Aig.den c ρ <;> cases Aig.den a ρ <;> cases Aig.den b ρ <;> rfl
  eqb_refl a := by simp
  eqb_sound a b h ρ := by rw [@of_decide_eq_true _ (Aig.dec a b) h]

variable {F Env : Type} [Aig F Env]
open Fml

/-! ### Builtins.  `none` is undefined behaviour (head of the empty list). -/

/-- bev.c:614-624 `list2bev`, with `get_bev_rec` (53-66). -/
def list2bev (l : List F) : List F := trim l

/-- bev.c:373-379 `abs_bev_list`. -/
def bevAbsList (l : List F) : List F := trim (iteList (l.headD zero) (negate l) l)

/-- bev.c:764-781 `bev_add`. -/
def bevAdd (l1 l2 : List F) : Option (List F) :=
  let p := sx2 l1 l2
  guard2 l1 l2 (trim (genAdd false p.1 p.2))

/-- bev.c:783-800 `bev_sub`. -/
def bevSub (l1 l2 : List F) : Option (List F) :=
  let p := sx2 l1 l2
  guard2 l1 l2 (trim (genAdd true p.1 p.2))

/-- bev.c:802-838 `bev_mul`. -/
def bevMul (l1 l2 : List F) : Option (List F) :=
  let (av, bv) := if l1.length < l2.length then (l2, l1) else (l1, l2)
  let absRes := zero :: mult (bevAbsList av) (bevAbsList bv)
  let neg := xor (av.headD zero) (bv.headD zero)
  let p := sx2 absRes (negate absRes)
  guard2 l1 l2 (trim (iteList neg p.2 p.1))

/-- bev.c:840-857 `signed_bevdiv`: `dv` divided by `nv`. -/
def signedBevdiv (dv nv : List F) : List F × List F :=
  let negD := dv.headD zero
  let negN := nv.headD zero
  let p := zx2 (bevAbsList dv) (bevAbsList nv)
  let qr := fixedDiv p.1 p.2
  let exact := isZeroList qr.2
  let same := xnor negD negN
  let q0 := iteList same qr.1 (negate qr.1)
  let q := iteList (or exact same) q0 (decrement q0)
  let r0 := iteList same qr.2 (genAdd true qr.2 p.2)
  let r := iteList exact qr.2 (iteList negD (negate r0) r0)
  (q, r)

/-- bev.c:887-903 `bev_div`. -/
def bevDiv (l1 l2 : List F) : Option (List F) := guard2 l1 l2 (trim (signedBevdiv l1 l2).1)
/-- bev.c:905-921 `bev_mod`. -/
def bevMod (l1 l2 : List F) : Option (List F) := guard2 l1 l2 (trim (signedBevdiv l1 l2).2)

/-- bev.c:859-885 `bev_ashr`; the error for a negative count is `inl`.  There is no case for a count of at least the
length: the loop does nothing then.  The count is read by `GET_INT`, here as it is. -/
def bevAshr (l : List F) (cnt : Int) : Option (Except String (List F)) :=
  if cnt < 0 then some (.error s!"bev_ashr by negative amount ({cnt})")
  else if cnt = 0 then some (.ok l)
  else some (.ok (trim (l.take (l.length - cnt.toNat))))

/-- bev.c:923-939 `bev_NOT`. -/
def bevNOT (l : List F) : List F := trim (l.map not)
/-- bev.c:941-952 `bev_ZX`. -/
def bevZX (l : List F) : List F := trim (trim (zero :: l))

/-- bev.c:954-1056 `bev_AND`, `bev_OR`, `bev_XOR`, `bev_XNOR`. -/
def bevBitwise (op : F → F → F) (l1 l2 : List F) : Option (List F) :=
  if l1.isEmpty != l2.isEmpty then none else
  let p := sx2 l1 l2
  some (trim (List.zipWith op p.1 p.2))
def bevAND (l1 l2 : List F) := bevBitwise Fml.and l1 l2
def bevOR (l1 l2 : List F) := bevBitwise Fml.or l1 l2
def bevXOR (l1 l2 : List F) := bevBitwise Fml.xor l1 l2
def bevXNOR (l1 l2 : List F) := bevBitwise Fml.xnor l1 l2

/-- bev.c:1058-1074 `bev_less`. -/
def bevLess (l1 l2 : List F) : Option F := guard2 l1 l2 (less l1 l2)
/-- bev.c:1076-1092 `bev_leq`. -/
def bevLeq (l1 l2 : List F) : Option F := guard2 l1 l2 (not (less l2 l1))
/-- bev.c:1094-1110 `bev_greater`. -/
def bevGreater (l1 l2 : List F) : Option F := guard2 l1 l2 (less l2 l1)
/-- bev.c:1112-1128 `bev_geq`. -/
def bevGeq (l1 l2 : List F) : Option F := guard2 l1 l2 (not (less l1 l2))

/-- bev.c:430-461 `bev_eq_list` and 1130-1146 `bev_eq`. -/
def bevEq (l1 l2 : List F) : Option F :=
  let (s, t) := if l1.length > l2.length then (l2, l1) else (l1, l2)
  let b1 := s.headD zero
  let k := t.length - s.length
  let r := (t.take k).foldl (fun r b2 => and r (xnor b1 b2)) one
  guard2 l1 l2 ((s.zip (t.drop k)).foldl (fun r p => and r (xnor p.1 p.2)) r)

/-- bev.c:1148-1164 `bev_neq`. -/
def bevNeq (l1 l2 : List F) : Option F := (bevEq l1 l2).map not

/-- bev.c:174-192 `bev_eq_fn`: `=` and `==` on bit-vectors, which give a `bool`. -/
def bevEqFn (l1 l2 : List F) : Option Bool :=
  if l1.isEmpty != l2.isEmpty then none else
  let p := sx2 l1 l2
  some ((p.1.zip p.2).all fun q => eqb q.1 q.2)

/-- bev.c:700-719 `bev2int`. -/
def bev2int (l : List F) : Option (Except String (Res (List W))) :=
  if !isScalar l then some (.error "bev2int of symbolic bitvector")
  else if l.isEmpty then none
  else
    let neg := eqb (l.headD zero) one
    some (.ok ((list2int (bevAbsList l)).bind fun (r, _) => .ok (if neg then Arbi.neg r else r)))

/-- bev.c:721-762 `int2bev`; the budget is that of `Arbi_ToString`. -/
def int2bev (fuel : Nat) (x : List W) : Option (Res (List F)) :=
  let isNeg := decide (Arbi.cmp0 x < 0)
  (Arbi.toString fuel (if isNeg then Arbi.neg x else x) 2).map fun r => r.bind fun s =>
    let s := if isNeg then flipBefore s else s
    .ok (trim ((if isNeg then one else zero) :: s.map (fun c => if c = '1' then (one : F) else zero)))

/-! ### Functions of the preamble.  `int2bev 0` and `int2bev 1` are written as the lists they give (`c95_constants`). -/

def bev0 : List F := [zero]
def bev1 : List F := [zero, one]

/-- preamble.fl:44-47 `bevTHEN`, the conditional `IF c THEN t ELSE e`. -/
def bevTHEN (c : F) (t e : List F) : Option (List F) := do
  let cb := list2bev [c]
  bevOR (← bevAND cb t) (← bevAND (bevNOT cb) e)

/-- preamble.fl:74 `bev_unary_minus`. -/
def bevUnaryMinus (l : List F) : Option (List F) := bevSub bev0 l

/-- preamble.fl:781 `bev_neg`. -/
def bevNeg (l : List F) : Option (List F) := bevAdd (bevNOT l) bev1

/-- preamble.fl:1608-1612 `bevabs`. -/
def bevabs (l : List F) : Option (List F) := do
  let isNeg := list2bev [← bevLess l bev0]
  let neg ← bevSub bev0 l
  bevOR (← bevAND isNeg neg) (← bevAND (bevNOT isNeg) l)

/-- preamble.fl:2331-2332 `bexpr2bdd_bev`: `conv` is `base_bexpr2bdd sub`. -/
def bexpr2bddBev {G GEnv : Type} [Fml G GEnv] (conv : F → G) (l : List F) : List G := list2bv (l.map conv)

end Voss.Bv
