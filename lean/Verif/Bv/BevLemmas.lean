import Verif.Bv.Bev
import Verif.Bv.Props
/-
Helper lemmas for bit-vectors of expressions: functions computed with constants fold to constants, so `bev2int` computes
what `bv2int` computes on constants.
-/
namespace Voss.Bv
open Fml
open Voss.Arbi (W Res val Norm ibit)

/-- A map of handles that respects the constants, the operations used and `==`. -/
structure Hom {G GE F E : Type} [Fml G GE] [Fml F E] (φ : G → F) : Prop where
  zero : φ zero = zero
  one : φ one = one
  not : ∀ a, φ (not a) = not (φ a)
  and : ∀ a b, φ (and a b) = and (φ a) (φ b)
  or : ∀ a b, φ (or a b) = or (φ a) (φ b)
  xor : ∀ a b, φ (xor a b) = xor (φ a) (φ b)
  eqb : ∀ a b, eqb (φ a) (φ b) = eqb a b

section
variable {G GE F E : Type} [Fml G GE] [Fml F E] {φ : G → F} (h : Hom φ)
include h

theorem Hom.headD (l : List G) : (l.map φ).headD Fml.zero = φ (l.headD Fml.zero) := by
  cases l
  · exact h.zero.symm
  · rfl

theorem Hom.trim : ∀ l : List G, Bv.trim (l.map φ) = (Bv.trim l).map φ
  | [] => rfl
  | [_] => rfl
  | a :: b :: l => by
    have ih := Hom.trim (b :: l)
    simp only [List.map_cons] at ih ⊢
    unfold Bv.trim
    rw [h.eqb]
    split
    · exact ih
    · rfl

theorem Hom.sxTo (n : Nat) (l : List G) : Bv.sxTo n (l.map φ) = (Bv.sxTo n l).map φ := by
  unfold Bv.sxTo
  rw [h.headD, List.length_map, List.map_append, List.map_replicate]

theorem Hom.addRec (neg : Bool) : ∀ l1 l2 : List G,
    Bv.addRec neg (l1.map φ) (l2.map φ) = ((Bv.addRec neg l1 l2).1.map φ, φ (Bv.addRec neg l1 l2).2)
  | [], l2 => by cases neg <;> simp [Bv.addRec, h.one, h.zero]
  | a :: l1, [] => by cases neg <;> simp [Bv.addRec, h.one, h.zero]
  | a :: l1, b :: l2 => by
    simp only [List.map_cons, Bv.addRec, Hom.addRec neg l1 l2]
    cases neg <;> simp [h.not, h.and, h.or, h.xor]

theorem Hom.genAdd (neg : Bool) (l1 l2 : List G) : Bv.genAdd neg (l1.map φ) (l2.map φ) = (Bv.genAdd neg l1 l2).map φ := by
  unfold Bv.genAdd
  rw [h.headD, h.headD, ← List.map_cons, ← List.map_cons, h.addRec, h.trim]

theorem Hom.negate (l : List G) : Bv.negate (l.map φ) = (Bv.negate l).map φ := by
  unfold Bv.negate sx2
  dsimp only
  have hz : [(Fml.zero : F)] = [(Fml.zero : G)].map φ := by simp [h.zero]
  rw [hz, List.length_map, List.length_map, h.sxTo, h.sxTo, h.genAdd, h.trim]

theorem Hom.iteList (c : G) (l1 l2 : List G) :
    Bv.iteList (φ c) (l1.map φ) (l2.map φ) = (Bv.iteList c l1 l2).map φ := by
  unfold Bv.iteList sx2
  dsimp only
  rw [List.length_map, List.length_map, h.sxTo, h.sxTo, ← h.trim, List.map_zipWith, List.zipWith_map]
  simp only [h.not, h.and, h.or]

theorem Hom.absList (l : List G) : Bv.absList (l.map φ) = (Bv.absList l).map φ := by
  unfold Bv.absList
  rw [h.headD, h.negate, h.iteList]

theorem Hom.list2int : ∀ l : List G, Bv.list2int (l.map φ) = Bv.list2int l
  | [] => rfl
  | b :: l => by
    simp only [List.map_cons, Bv.list2int, Hom.list2int l]
    rw [← h.zero, h.eqb]

theorem Hom.isScalar (l : List G) : Bv.isScalar (l.map φ) = Bv.isScalar l := by
  unfold Bv.isScalar isSymbolic
  rw [List.all_map]
  congr 1
  funext f
  simp only [Function.comp_apply]
  rw [← h.one, ← h.zero, h.eqb, h.eqb]

theorem Hom.bv2int (l : List G) : Bv.bv2int (l.map φ) = Bv.bv2int l := by
  unfold Bv.bv2int
  have hi : (l.map φ).isEmpty = l.isEmpty := by cases l <;> rfl
  rw [h.isScalar, hi, h.headD, h.absList, h.list2int, ← h.one, h.eqb]

end

variable {F Env : Type} [Aig F Env]

theorem eqb_aig (a b : F) : eqb a b = true ↔ a = b := by
  change @decide (a = b) (Aig.dec a b) = true ↔ a = b
  exact @decide_eq_true_iff _ (Aig.dec a b)

/-- The constants among the expressions. -/
def ofBool (b : Bool) : F := if b then one else zero

theorem not_one' : (not (one : F)) = zero := rfl
theorem not_zero' : (not (zero : F)) = one := Aig.not_not _

theorem hom_ofBool : Hom (G := Bool) (ofBool : Bool → F) where
  zero := rfl
  one := rfl
  not a := by
    cases a
    · exact (not_zero' (F := F)).symm
    · rfl
  and a b := by
    cases a
    · exact (Aig.false_and (F := F) _).symm
    · exact (Aig.one_and (F := F) _).symm
  or a b := by
    change ofBool (a || b) = beOr (ofBool a) (ofBool b)
    have z : (ofBool false : F) = Aig.not Aig.one := rfl
    have o : (ofBool true : F) = Aig.one := rfl
    cases a <;> cases b <;> simp [beOr, z, o, Aig.not_not, Aig.one_and, Aig.false_and]
  xor a b := by
    change ofBool (a ^^ b) = beXor (ofBool a) (ofBool b)
    have z : (ofBool false : F) = Aig.not Aig.one := rfl
    have o : (ofBool true : F) = Aig.one := rfl
    cases a <;> cases b <;> simp [beXor, beOr, z, o, Aig.not_not, Aig.one_and, Aig.false_and]
  eqb a b := by
    have hne : (one : F) ≠ zero := Aig.one_ne (F := F)
    rw [Bool.eq_iff_iff, eqb_aig]
    cases a <;> cases b <;> simp [ofBool, hne, hne.symm, Fml.eqb]

theorem scalar_ofBool : ∀ l : List F, isScalar l = true → ∃ bl : List Bool, l = bl.map ofBool
  | [], _ => ⟨[], rfl⟩
  | f :: l, h => by
    simp only [isScalar, List.all_cons, Bool.and_eq_true] at h
    obtain ⟨bl, rfl⟩ := scalar_ofBool l h.2
    have hf := h.1
    simp only [isSymbolic, Bool.not_and, Bool.not_not, Bool.or_eq_true, eqb_aig] at hf
    rcases hf with rfl | rfl
    · exact ⟨true :: bl, rfl⟩
    · exact ⟨false :: bl, rfl⟩

theorem bevAbsList_eq (l : List F) : bevAbsList l = absList l := trim_trim _

theorem signedBevdiv_eq (a b : List F) : signedBevdiv a b = signedDiv a b := by
  unfold signedBevdiv signedDiv
  rw [bevAbsList_eq, bevAbsList_eq]

theorem bevMul_eq (a b : List F) : bevMul a b = bvMul a b := by
  simp only [bevMul, bvMul, bevAbsList_eq]

theorem int2bev_eq (fuel : Nat) (x : List W) : int2bev (F := F) fuel x = int2bv fuel x := by
  unfold int2bev int2bv
  simp only [trim_trim]

theorem bev2int_scalar (l : List F) (h : isScalar l = true) : bev2int l = bv2int l := by
  unfold bev2int bv2int
  rw [h, bevAbsList_eq]
  rfl

theorem sxTo_den (n : Nat) (l : List F) (h : l ≠ []) (ρ : Env) : sv (sxTo n l) ρ = sv l ρ := sv_sxTo n l h ρ

theorem zip_all_eqb : ∀ l1 l2 : List F, l1.length = l2.length → ((l1.zip l2).all (fun q => eqb q.1 q.2) = true ↔ l1 = l2)
  | [], [], _ => by simp
  | a :: l1, b :: l2, h => by
    simp only [List.zip_cons_cons, List.all_cons, Bool.and_eq_true, eqb_aig, List.cons.injEq,
      zip_all_eqb l1 l2 (by simpa using h)]

theorem bev_bitwise_spec (op : F → F → F) (bop : Bool → Bool → Bool)
    (hop : ∀ a b (ρ : Env), den (op a b) ρ = bop (den a ρ) (den b ρ)) (l1 l2 : List F) (h1 : l1 ≠ []) (h2 : l2 ≠ []) :
    ∃ r, bevBitwise op l1 l2 = some r ∧ r ≠ [] ∧ Trimmed r ∧
      ∀ (ρ : Env) (i : Nat), ibit (sv r ρ) i = bop (ibit (sv l1 ρ) i) (ibit (sv l2 ρ) i) := by
  obtain ⟨r, e, t, v⟩ := bitwise_spec op bop hop l1 l2 h1 h2
  refine ⟨r, e, ?_, t, v⟩
  rintro rfl
  unfold bvBitwise at e
  split at e
  · simp at e
  · simp only [Option.some.injEq] at e
    refine trim_ne_nil _ ?_ e
    intro hz
    have := congrArg List.length hz
    have hp : 0 < l1.length := List.length_pos_iff.mpr h1
    simp only [List.length_zipWith, sx2, sxTo_length, List.length_nil] at this
    omega

end Voss.Bv
