import Verif.Comp.Model
import Verif.Ste.Spec
/-
Specification side for the circuit compiler: the width of a word expression and its possible values,
stated with numbers and words only.
-/
namespace Voss.Comp
open Voss.Sim (natBits intBits line inertial Possible)
open Voss.Bv (uv tc)

/-- Bit `i` of a word, bit 0 being the least significant (last) one. -/
def bitAt (w : List Bool) (i : Int) : Bool := w.reverse.getD i.toNat false

/-- The word with bit `i` replaced. -/
def setBit (w : List Bool) (i : Int) (b : Bool) : List Bool := (w.reverse.set i.toNat b).reverse

mutual
/-- The expression is properly sized, with width `n`; `wd` gives the widths of the named vectors. -/
def Sized (wd : String → Nat) : WExpr → Nat → Prop
  | .x sz, n => n = sz
  | .const sz _, n => n = sz
  | .var sz base, n => n = sz ∧ wd (vecName base sz) = sz
  | .evar sz name, n => n = sz ∧ wd name = sz
  | .bin _ l r, n => Sized wd l n ∧ Sized wd r n
  | .rel _ l r, n => n = 1 ∧ ∃ m, Sized wd l m ∧ Sized wd r m
  | .not e, n => Sized wd e n
  | .pred _ e, n => n = 1 ∧ Sized wd e 1
  | .sx sz e, n => n = sz ∧ ∃ m, 0 < m ∧ Sized wd e m
  | .zx sz e, n => n = sz ∧ ∃ m, Sized wd e m
  | .ite c t e, n => Sized wd c 1 ∧ Sized wd t n ∧ Sized wd e n
  | .slice idxs e, n => n = idxs.length ∧ ∃ m, Sized wd e m ∧ ∀ i ∈ idxs, 0 ≤ i ∧ i < m
  | .upd base idxs new, n => Sized wd base n ∧ Sized wd new idxs.length ∧ ∀ i ∈ idxs, 0 ≤ i ∧ i < n
  | .cat parts, n => SizedAll wd parts n
  | .memRead asz lines dsz mem addr, n => n = dsz ∧ 0 < asz ∧ Sized wd mem (lines * dsz) ∧ Sized wd addr asz
  | .memWrite asz lines dsz mem addr data, n =>
    n = lines * dsz ∧ 0 < asz ∧ Sized wd mem (lines * dsz) ∧ Sized wd addr asz ∧ Sized wd data dsz
  | .idelay sz mr Mr mf Mf cur hist, n =>
    n = sz ∧ 0 < sz ∧ max (max mr Mr) (max mf Mf) ≤ hist.length ∧ Sized wd cur sz ∧ SizedEach wd hist sz
/-- The parts have widths that sum to `n`. -/
def SizedAll (wd : String → Nat) : List WExpr → Nat → Prop
  | [], n => n = 0
  | e :: es, n => ∃ a b, n = a + b ∧ Sized wd e a ∧ SizedAll wd es b
/-- Every one of the words has width `n`. -/
def SizedEach (wd : String → Nat) : List WExpr → Nat → Prop
  | [], _ => True
  | e :: es, n => Sized wd e n ∧ SizedEach wd es n
end

/-- The operators on words `a` and `b` of the same width. -/
def Bin.value (op : Bin) (a b : List Bool) : List Bool :=
  match op with
  | .and => List.zipWith Bool.and a b
  | .or => List.zipWith Bool.or a b
  | .add => natBits a.length (uv a + uv b)
  | .sub => intBits a.length ((uv a : Int) - uv b)
  | .mul => natBits a.length (uv a * uv b)
  | .div => if uv b = 0 then List.replicate a.length true else natBits a.length (uv a / uv b)
  | .mod => if uv b = 0 then a else natBits a.length (uv a % uv b)
  | .shl => natBits a.length (uv a * 2 ^ uv b)
  | .shr => natBits a.length (uv a / 2 ^ uv b)
  | .ashr => intBits a.length (tc a / 2 ^ uv b)
  | .latLeq => List.zipWith (fun x y => x == y) a b

def Rel.value (op : Rel) (a b : List Bool) : Bool :=
  match op with
  | .eq => uv a == uv b
  | .gr => decide (uv a > uv b)

mutual
/-- `w` is a possible value of the expression when the vectors have the values `val`.  An unknown (`x`), a
memory read beyond the last line and a delay between its bounds may have any value, independently at each
occurrence. -/
def Means (val : String → List Bool) : WExpr → List Bool → Prop
  | .x sz, w => w.length = sz
  | .const sz v, w => w = intBits sz (Arbi.val v)
  | .var sz base, w => w = val (vecName base sz)
  | .evar _ name, w => w = val name
  | .bin op l r, w => ∃ a b, Means val l a ∧ Means val r b ∧ w = op.value a b
  | .rel op l r, w => ∃ a b, Means val l a ∧ Means val r b ∧ w = [op.value a b]
  | .not e, w => ∃ a, Means val e a ∧ w = a.map Bool.not
  | .pred _ e, w => Means val e w
  | .sx sz e, w => ∃ a, Means val e a ∧ w = intBits sz (tc a)
  | .zx sz e, w => ∃ a, Means val e a ∧ w = natBits sz (uv a)
  | .ite c t e, w => ∃ x a b, Means val c x ∧ Means val t a ∧ Means val e b ∧ w = if x = [true] then a else b
  | .slice idxs e, w => ∃ a, Means val e a ∧ w = idxs.map (bitAt a)
  | .upd base idxs new, w => ∃ a b, Means val base a ∧ Means val new b ∧
      w = (idxs.zip b).foldl (fun w q => setBit w q.1 q.2) a
  | .cat parts, w => ∃ ws, MeansAll val parts ws ∧ w = ws.flatten
  | .memRead _ lines dsz mem addr, w => ∃ m a, Means val mem m ∧ Means val addr a ∧ w.length = dsz ∧
      (uv a < lines → w = line lines dsz (uv a) m)
  | .memWrite _ lines dsz mem addr data, w => ∃ m a d, Means val mem m ∧ Means val addr a ∧ Means val data d ∧
      w = (List.range lines).reverse.flatMap fun k => if k = uv a then d else line lines dsz k m
  | .idelay sz mr Mr mf Mf cur hist, w => ∃ c hs, Means val cur c ∧ MeansAll val hist hs ∧
      List.Forall₂ Possible ((List.range sz).map fun i => inertial mr Mr mf Mf (c.getD i false) (hs.map (·.getD i false))) w
/-- The words are possible values of the expressions. -/
def MeansAll (val : String → List Bool) : List WExpr → List (List Bool) → Prop
  | [], ws => ws = []
  | e :: es, ws => ∃ w vs, ws = w :: vs ∧ Means val e w ∧ MeansAll val es vs
end

mutual
/-- The width of the expression is that of a memory read whose addresses and data differ in width. -/
def ReadWidth : WExpr → Prop
  | .bin _ l _ => ReadWidth l
  | .not e => ReadWidth e
  | .ite _ t _ => ReadWidth t
  | .upd base _ _ => ReadWidth base
  | .cat parts => ReadWidths parts
  | .memRead asz _ dsz _ _ => asz ≠ dsz
  | .memWrite _ _ _ mem _ _ => ReadWidth mem
  | _ => False
def ReadWidths : List WExpr → Prop
  | [] => False
  | e :: es => ReadWidth e ∨ ReadWidths es
end

mutual
/-- No such memory read occurs where the width of an operand is needed to compile the expression. -/
def Fine : WExpr → Prop
  | .x _ | .const _ _ | .var _ _ | .evar _ _ => True
  | .bin _ l r => Fine l ∧ Fine r
  | .rel _ l r => ¬ReadWidth l ∧ Fine l ∧ Fine r
  | .not e => Fine e
  | .pred _ e => Fine e
  | .sx _ e => ¬ReadWidth e ∧ Fine e
  | .zx _ e => ¬ReadWidth e ∧ Fine e
  | .ite c t e => Fine c ∧ Fine t ∧ Fine e
  | .slice _ e => ¬ReadWidth e ∧ Fine e
  | .upd base _ new => ¬ReadWidth base ∧ ¬ReadWidth new ∧ Fine base ∧ Fine new
  | .cat parts => ¬ReadWidths parts ∧ FineAll parts
  | .memRead _ _ _ mem addr => Fine mem ∧ Fine addr
  | .memWrite _ _ _ mem addr data => Fine mem ∧ Fine addr ∧ Fine data
  | .idelay _ _ _ _ _ cur hist => ¬ReadWidth cur ∧ ¬ReadWidths hist ∧ Fine cur ∧ FineAll hist
def FineAll : List WExpr → Prop
  | [] => True
  | e :: es => Fine e ∧ FineAll es
end

/-- The expression is a named predicate. -/
def IsPred : WExpr → Prop
  | .pred _ _ => True
  | _ => False

mutual
/-- Expressions that can be assigned to: vectors, slices and concatenations of them. -/
def Assignable : WExpr → Prop
  | .var _ _ | .evar _ _ => True
  | .slice _ e => Assignable e
  | .cat parts => AssignableAll parts
  | _ => False
def AssignableAll : List WExpr → Prop
  | [] => True
  | e :: es => Assignable e ∧ AssignableAll es
end

/-- The update function holds of a behaviour `σ` (a value of each node at each time): at each time the left
side has a possible value of the right side, at that time or, with a delay, one time unit earlier. -/
def Update.Holds (look : String → List Nat) (u : Update) (σ : Int → Nat → Bool) : Prop :=
  ∀ t, ∃ w, Means (fun s => (look s).map (σ (if u.delay then t + 1 else t))) u.lhs w ∧ Means (fun s => (look s).map (σ t)) u.rhs w

/-- Left and right side are properly sized, with the same width; the sides avoid the faults recorded as
refutations. -/
def Update.OK (look : String → List Nat) (u : Update) : Prop :=
  (∃ n, Sized (fun s => (look s).length) u.lhs n ∧ Sized (fun s => (look s).length) u.rhs n) ∧ Fine u.rhs ∧
    (u.delay = true → ¬IsPred u.rhs)

/-- The numbers of a component are such that its primitive is right (C35): no lattice comparison, shifts of at
most 31 bits, memories that the address covers, delay bounds in order. -/
def Side (k : Ste.Comp) : Prop :=
  k.prim ≠ .latLeq ∧ k.prim.SizeOK k.size ∧
  match k.prim with
  | .const v => Arbi.Norm v ∧ k.size < 2^31
  | .shl | .shr | .ashr => k.size < 2^31
  | .memRead asz lines _ | .memWrite asz lines _ => lines ≤ 2^asz
  | .idelay mr Mr mf Mf => 1 ≤ mr ∧ mr ≤ Mr ∧ 1 ≤ mf ∧ mf ≤ Mf
  | _ => True

end Voss.Comp
