import Verif.Type.PrintParse
/-
C60: forward declarations.  C61: printed types.
-/
namespace Voss.TC

/-- C60: a definition is accepted for a forward declaration exactly when its type is the declared one, up to the
names of type variables. -/
theorem c60_forward (s : Stars) (declType actual : Ty) (hd : ∀ v ∈ declType.vars, v ∉ actual.vars) :
    forwardOk s declType actual = true ↔ Instance declType actual ∧ Instance actual declType := by
  rw [forwardOk_iff s declType actual hd, canon_eq_iff]

/-- C61: the text of a type does not depend on what was printed before, nor on the names of its variables. -/
theorem c61_text_stable {ar : String → Nat} (s s' : Stars) {t t' : Ty} (w : t.WF ar) (w' : t'.WF ar)
    (h : Instance t t' ∧ Instance t' t) : ∃ l, typeText s t = some l ∧ typeText s' t' = some l :=
  ⟨_, typeText_eq s t w, by rw [typeText_eq s' t' w', (canon_eq_iff t t').2 h]⟩

/-- C61 (no tuple has a tuple or a function as its first component): types with the same text are the same, up
to the names of type variables. -/
theorem c61_text_partial {ar : String → Nat} (s s' : Stars) {t t' : Ty} (w : t.WF ar) (w' : t'.WF ar)
    (g : t.Legible) (g' : t'.Legible) (h : typeText s t = typeText s' t') : Instance t t' ∧ Instance t' t := by
  rw [typeText_eq s t w, typeText_eq s' t' w'] at h
  exact (canon_eq_iff t t').1 (pr_inj (wf_rename _ t w) (wf_rename _ t' w') (legible_rename _ t g)
    (legible_rename _ t' g') (Option.some.inj h))

/-! Examples. -/

def star0 : Stars := ⟨fun v => some v, 7⟩

/-- `*->(**#{*} opt)` and the same with other variables. -/
def exTy (a b : Nat) : Ty :=
  .con .arrow (.cons (.var a) (.cons (.con .tuple (.cons (.var b) (.cons (.con (.concrete "opt") (.cons (.var a) .nil)) .nil))) .nil))

example : forwardOk star0 (exTy 0 1) (exTy 5 3) = true := by decide +kernel
example : forwardOk star0 (exTy 0 1) (exTy 5 5) = false := by decide +kernel
example : ∀ v ∈ (exTy 0 1).vars, v ∉ (exTy 5 3).vars := by decide +kernel

example : typeText star0 (exTy 4 2) =
    some [.stars 1, .arrow, .stars 2, .hash, .lcurl, .stars 1, .rcurl, .word "opt"] := by decide +kernel

example : (exTy 4 2).WF (fun x => if x = "opt" then 1 else 0) ∧ (exTy 4 2).Legible := by
  simp [exTy, Ty.WF, Tys.WF, Tys.length, Op.arity, Ty.Legible, Tys.Legible, Tys.headChain, Ty.chain, builtin]

/-- `((int ref) list)->({string,bool} tbl)`. -/
example : typeText star0 (.con .arrow (.cons (.con .list (.cons (.con .ref (.cons (.base .int) .nil)) .nil))
      (.cons (.con .tbl (.cons (.base .string) (.cons (.base .bool) .nil))) .nil))) =
    some [.lpar, .lpar, .word "int", .ref, .rpar, .list, .rpar, .arrow, .lpar, .lcurl, .word "string", .commaSp, .word "bool",
      .rcurl, .word "tbl", .rpar] := by decide +kernel

/-! Violations. -/

def tup (a b : Ty) : Ty := .con .tuple (.cons a (.cons b .nil))

theorem not_instance_of_closed {t t' : Ty} (h : ∀ ρ, t.sub ρ = t) (hn : t ≠ t') : ¬ Instance t t' := by
  rintro ⟨ρ, e⟩
  rw [h] at e
  exact hn e.symm

/-- C61: `(int#int)#int` and `int#(int#int)` have the same text. -/
theorem c61_text_violated_tuple :
    typeText star0 (tup (tup (.base .int) (.base .int)) (.base .int)) =
      typeText star0 (tup (.base .int) (tup (.base .int) (.base .int))) ∧
    ¬ Instance (tup (tup (.base .int) (.base .int)) (.base .int)) (tup (.base .int) (tup (.base .int) (.base .int))) := by
  refine ⟨by decide +kernel, not_instance_of_closed (fun _ => rfl) (by decide +kernel)⟩

/-- C61: `(bool->int)#int` and `bool->(int#int)` have the same text. -/
theorem c61_text_violated_arrow :
    typeText star0 (tup (.arrow (.base .bool) (.base .int)) (.base .int)) =
      typeText star0 (.arrow (.base .bool) (tup (.base .int) (.base .int))) ∧
    ¬ Instance (tup (.arrow (.base .bool) (.base .int)) (.base .int)) (.arrow (.base .bool) (tup (.base .int) (.base .int))) := by
  refine ⟨by decide +kernel, not_instance_of_closed (fun _ => rfl) (by decide +kernel)⟩

/-- C61: `lettype foo = A ((int#int)#int)` and `lettype foo = A (int#(int#int))` have the same signature, so that
`read_foo` accepts a file that was written for the other type. -/
theorem c61_signature_violated :
    signature star0 0 "foo" [("A", .cons (tup (tup (.base .int) (.base .int)) (.base .int)) .nil)] =
      signature star0 0 "foo" [("A", .cons (tup (.base .int) (tup (.base .int) (.base .int))) .nil)] ∧
    (signature star0 0 "foo" [("A", .cons (tup (tup (.base .int) (.base .int)) (.base .int)) .nil)]).isSome := by
  decide +kernel

/-- C61: the signature of `foo` in `lettype bar = B int; lettype foo = A bar` and in
`lettype bar = B string; lettype foo = A bar` is the same: an integer that was written is read as a string. -/
theorem c61_signature_violated_nested :
    signature star0 0 "bar" [("B", .cons (.base .int) .nil)] ≠ signature star0 0 "bar" [("B", .cons (.base .string) .nil)] ∧
    ∀ A ∈ ["int", "string"],
      (match run Decls.start [.lettype [⟨"bar", [], [("B", .cons (.name A) .nil)]⟩],
          .lettype [⟨"foo", [], [("A", .cons (.name "bar") .nil)]⟩]] with
       | .ok ([some [b], some [f]], _) =>
          b.args.erase = .cons (.base (if A = "int" then .int else .string)) .nil ∧
          signature star0 0 "foo" [(f.name, f.args.erase)] =
            some [[.word "A", .word "bar", .arrow, .word "string", .hash, .stars 1], [.word "foo"]]
       | _ => False) := by
  refine ⟨by decide +kernel, fun A hA => ?_⟩
  simp only [List.mem_cons, List.not_mem_nil, or_false] at hA
  rcases hA with rfl | rfl <;> exact ⟨by decide +kernel, by decide +kernel⟩

end Voss.TC
