import Verif.Sim.Ops
import Verif.Bv.Spec
/-
Specification side for circuit primitives: what a dual-rail value stands for, and the intended word
operation of each primitive in terms of numbers.
-/
namespace Voss.Sim
open Voss.Bv (uv tc)

/-- A dual-rail Boolean pair admits a Boolean value: `h` for 1, `l` for 0. -/
def Admits (d : DR Bool) (b : Bool) : Prop := (if b then d.h else d.l) = true

/-- A word of pairs admits a Boolean word. -/
def AdmitsW (ds : List (DR Bool)) (w : List Bool) : Prop := List.Forall₂ Admits ds w

/-- The pair that stands for a known Boolean value, or for the unknown value. -/
def enc (b : Bool) : DR Bool := ⟨b, !b⟩
def encT : Option Bool → DR Bool
  | some b => enc b
  | none => ⟨true, true⟩

/-- One value is at most as defined as the other: it admits everything the other admits. -/
def Weaker (d e : DR Bool) : Prop := ∀ b, Admits e b → Admits d b
def WeakerW (ds es : List (DR Bool)) : Prop := List.Forall₂ Weaker ds es

/-- A pair of handles under an assignment of the variables. -/
def DR.at {F Env : Type} (den : F → Env → Bool) (ρ : Env) (d : DR F) : DR Bool := ⟨den d.h ρ, den d.l ρ⟩

/-- The handle operations on plain Booleans. -/
def boolOps : Ops Bool := ⟨false, true, Bool.not, Bool.and, Bool.or⟩

/-- The operations compute the Boolean connectives exactly. -/
structure Exact {F Env : Type} (o : Ops F) (den : F → Env → Bool) : Prop where
  zero : ∀ ρ, den o.zero ρ = false
  one : ∀ ρ, den o.one ρ = true
  not : ∀ a ρ, den (o.not a) ρ = !den a ρ
  and : ∀ a b ρ, den (o.and a b) ρ = (den a ρ && den b ρ)
  or : ∀ a b ρ, den (o.or a b) ρ = (den a ρ || den b ρ)

/-- The low `n` bits of a number, most significant first. -/
def natBits (n v : Nat) : List Bool := (List.range n).reverse.map fun i => v.testBit i

/-- The low `n` bits of an integer in two's complement, most significant first. -/
def intBits (n : Nat) (v : Int) : List Bool := (List.range n).reverse.map fun i => Arbi.ibit v i

/-- Line `k` of a memory of `lines` lines of `dsz` bits; line 0 is the least significant one. -/
def line (lines dsz k : Nat) (mem : List Bool) : List Bool := (mem.drop ((lines - 1 - k) * dsz)).take dsz

/-- Inertial delay of one bit.  With output 0: it rises if the input was 1 for the last `Mr` samples, it
may rise if it was 1 for the last `mr` samples, otherwise it stays; likewise for falling. -/
def inertial (mr Mr mf Mf : Nat) (cur : Bool) (hist : List Bool) : Option Bool :=
  if cur then
    if (hist.take Mf).all (· = false) then some false
    else if (hist.take mf).all (· = false) then none else some true
  else
    if (hist.take Mr).all (· = true) then some true
    else if (hist.take mr).all (· = true) then none else some false

/-- The intended word operation of a primitive with `size` output bits on an input word.
An output bit `none` is unknown. -/
def wordOp (p : Prim) (size : Nat) (w : List Bool) : List (Option Bool) :=
  let a := w.take size
  let b := (w.drop size).take size
  match p with
  | .unknown => List.replicate size none
  | .const v => (intBits size (Arbi.val v)).map some
  | .wire => a.map some
  | .latLeq => List.zipWith (fun x y => some (x == y)) a b
  | .and => List.zipWith (fun x y => some (x && y)) a b
  | .or => List.zipWith (fun x y => some (x || y)) a b
  | .not => a.map fun x => some (!x)
  | .idelay mr Mr mf Mf => (List.range size).map fun i =>
      inertial mr Mr mf Mf (w.getD i false) ((List.range (w.length / size - 1)).map fun k => w.getD ((1 + k) * size + i) false)
  | .eq n => [some (uv (w.take n) == uv ((w.drop n).take n))]
  | .gr n => [some (decide (uv (w.take n) > uv ((w.drop n).take n)))]
  | .add => (natBits size (uv a + uv b)).map some
  | .sub => (intBits size ((uv a : Int) - uv b)).map some
  | .mul => (natBits size (uv a * uv b)).map some
  | .div => (if uv b = 0 then List.replicate size true else natBits size (uv a / uv b)).map some
  | .mod => (if uv b = 0 then a else natBits size (uv a % uv b)).map some
  | .shl => (natBits size (uv a * 2^(uv b))).map some
  | .shr => (natBits size (uv a / 2^(uv b))).map some
  | .ashr => (intBits size (tc a / 2^(uv b))).map some
  | .ite _ => (if w.headD false then (w.drop 1).take size else (w.drop (1 + size)).take size).map some
  | .sx n => (intBits size (tc (w.take n))).map some
  | .zx n => (natBits size (uv (w.take n))).map some
  | .slice idxs => idxs.map fun i => some (w.getD i false)
  | .updSlice idxs => (List.range size).map fun i =>
      match (idxs.zip (w.drop size)).reverse.find? (fun q => q.1 == i) with
      | some q => some q.2
      | none => some (w.getD i false)
  | .memRead asz lines dsz =>
      let addr := uv (w.take asz)
      if addr < lines then (line lines dsz addr (w.drop asz)).map some else List.replicate dsz none
  | .memWrite asz lines dsz =>
      let addr := uv (w.take asz)
      (List.range lines).reverse.flatMap fun k =>
        (if k = addr then (w.drop asz).take dsz else line lines dsz k (w.drop (asz + dsz))).map some

/-- Parameters for which the primitive is meant to work: what the circuit compiler supplies. -/
def Prim.WF (size : Nat) : Prim → Prop
  | .const v => Arbi.Norm v ∧ size < 2^31
  | .idelay mr Mr mf Mf => 0 < size ∧ 1 ≤ mr ∧ mr ≤ Mr ∧ 1 ≤ mf ∧ mf ≤ Mf
  | .shl | .shr | .ashr => size < 2^31
  | .sx n => 0 < n
  | .slice idxs => idxs.length = size
  | .updSlice idxs => ∀ i ∈ idxs, i < size
  | .memRead asz lines dsz => dsz = size ∧ lines ≤ 2^asz
  | .memWrite asz lines dsz => lines * dsz = size ∧ lines ≤ 2^asz
  | _ => True

/-- Sizes for which the shifts are meant to be exact. -/
def Prim.SizeOK (size : Nat) : Prim → Prop
  | .shl => size ≤ 32
  | .shr | .ashr => size ≤ 31
  | _ => True

/-- A Boolean word is a possible result: it agrees with the known bits. -/
def Possible (t : Option Bool) (b : Bool) : Prop := t = none ∨ t = some b

end Voss.Sim
