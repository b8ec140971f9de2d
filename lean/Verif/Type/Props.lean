import Verif.Type.Mono
/-
Properties of the type checker.
-/
namespace Voss.TC

/-! ### C57: principal types -/

/-- C57: type-check a closed expression in an empty store whose next new variable is `n0`; the variables `G`
of the types of defined names and the variables `H` of type assertions are older, and no variable is both.  If
there is a result, its instances are the types of the expression, its variables are new and the store is as
before.  If a type error is reported, the expression has no type.  No null pointer is followed. -/
theorem c57_principal {ar : String → Nat} {G H : Nat → Prop} {e : Tm} {n0 : Nat} (hok : e.OK ar G H [])
    (hH : ∀ v, H v → v < n0 ∧ ¬ G v) (hG : ∀ v, G v → v < n0) (hd : e.occs.Nodup) (n : Nat) (tr : List Nat) :
    match typeCheck n ⟨fun _ => none, n0, tr, []⟩ e with
    | .ok (t, s) => (∀ τ, Types e τ ↔ Instance t τ) ∧ t.WF ar ∧ n0 ≤ s.next ∧ (t.All fun v => n0 ≤ v ∧ v < s.next)
        ∧ s = ⟨fun _ => none, s.next, tr, []⟩
    | .fail => ∀ τ, ¬ Types e τ
    | .ub => False
    | .out => True := by
  have hm : ∀ {n m}, n ≤ m → RLe (typeCheck n ⟨fun _ => none, n0, tr, []⟩ e) (typeCheck m ⟨fun _ => none, n0, tr, []⟩ e) :=
    fun h => typeCheck_mono h _ e
  rcases typeCheck_out (tr := tr) hok hH hG hd with ⟨r, hev, h⟩ | ⟨hev, h⟩
  · split
    · next t s heq =>
      have hd := hev.det hm (n := n) (by rw [heq]; simp)
      rw [heq] at hd
      cases hd
      obtain ⟨h1, h2, m, h3, h4, h5⟩ := h
      simp only at h5
      subst h5
      exact ⟨h1, h2, h3, h4, rfl⟩
    · next heq => have hd := hev.det hm (n := n) (by rw [heq]; simp); rw [heq] at hd; cases hd
    · next heq => have hd := hev.det hm (n := n) (by rw [heq]; simp); rw [heq] at hd; cases hd
    · trivial
  · split
    · next heq => have hd := hev.det hm (n := n) (by rw [heq]; simp); rw [heq] at hd; cases hd
    · exact h
    · next heq => have hd := hev.det hm (n := n) (by rw [heq]; simp); rw [heq] at hd; cases hd
    · trivial

/-- C57: type checking ends. -/
theorem c57_ends {ar : String → Nat} {G H : Nat → Prop} {e : Tm} {n0 : Nat} (hok : e.OK ar G H [])
    (hH : ∀ v, H v → v < n0 ∧ ¬ G v) (hG : ∀ v, G v → v < n0) (hd : e.occs.Nodup) (tr : List Nat) :
    ∃ N, ∀ n, N ≤ n → match typeCheck n ⟨fun _ => none, n0, tr, []⟩ e with | .out => False | _ => True := by
  rcases typeCheck_out (tr := tr) hok hH hG hd with ⟨r, ⟨N, hN⟩, _⟩ | ⟨⟨N, hN⟩, _⟩
  · exact ⟨N, fun n hn => by simp only at hN; rw [hN n hn]; trivial⟩
  · exact ⟨N, fun n hn => by simp only at hN; rw [hN n hn]; trivial⟩

/-! ### Cases -/

/-- The type that is found, `some none` for a type error. -/
def tyOf (r : Res (Ty × St)) : Option (Option Ty) :=
  match r with
  | .ok (t, _) => some (some t)
  | .fail => some none
  | _ => none

def ubOf {α : Type} : Res α → Bool
  | .ub => true
  | _ => false

/-- A start store: the variables 0 to 9 are those of defined names, 10 to 19 those of assertions. -/
def s0 : St := ⟨fun _ => none, 20, [], []⟩
def isG (v : Nat) : Prop := v < 10
def isH (v : Nat) : Prop := 10 ≤ v ∧ v < 20
def noConcrete : String → Nat := fun _ => 0

abbrev tInt : Ty := .base .int
abbrev tStr : Ty := .base .string
abbrev tVoid : Ty := .base .void
abbrev tRef (t : Ty) : Ty := .con .ref (.cons t .nil)
abbrev tPair (a b : Ty) : Ty := .con .tuple (.cons a (.cons b .nil))

/-- `\f. \g. \x. f x (g x)`. -/
def exS : Tm := .lam "f" (.lam "g" (.lam "x" (.app (.app (.var "f") (.var "x")) (.app (.var "g") (.var "x")))))
/-- `\x. (hd [x, 1])::*a`, where `hd` is defined. -/
def exHint : Tm := .lam "x" (.hint (.app (.const (.arrow (.list (.var 0)) (.var 0))) (.cons (.var "x") (.cons (.lit .int) .nil))) (.var 10))
/-- `\x. x x`. -/
def exSelf : Tm := .lam "x" (.app (.var "x") (.var "x"))

example : exHint.OK noConcrete isG isH [] := by
  simp [exHint, Tm.OK, Ty.WF, Tys.WF, Ty.All, Tys.All, Tys.length, Op.arity, isG, isH]
example : (∀ v, isH v → v < s0.next ∧ ¬ isG v) ∧ ∀ v, isG v → v < s0.next := by
  refine ⟨fun v h => ?_, fun v h => ?_⟩ <;> simp [isG, isH, s0] at * <;> omega
example : tyOf (typeCheck 30 s0 exS)
    = some (some (.arrow (.arrow (.var 26) (.arrow (.var 27) (.var 28))) (.arrow (.arrow (.var 26) (.var 27)) (.arrow (.var 26) (.var 28))))) := by
  decide +kernel
example : tyOf (typeCheck 30 s0 exHint) = some (some (.arrow tInt tInt)) := by decide +kernel
example : tyOf (typeCheck 30 s0 exSelf) = some none := by decide +kernel

/-! ### What the types do not rule out -/

/-- Cells are polymorphic: `let r = ref [];` has type `(* list) ref`, and then both `r := [1]` and
`\s. hd (deref r) = (s::string)` pass, so a number is taken for a string. -/
theorem c57_cells :
    tyOf (typeCheck 30 s0 (.app (.const (.arrow (.var 0) (tRef (.var 0)))) .nil)) = some (some (tRef (.list (.var 22))))
    ∧ tyOf (typeCheck 30 ⟨fun _ => none, 23, [], []⟩
        (.app (.app (.const (.arrow (tRef (.var 0)) (.arrow (.var 0) tVoid))) (.const (tRef (.list (.var 22))))) (.cons (.lit .int) .nil)))
      = some (some tVoid)
    ∧ tyOf (typeCheck 30 ⟨fun _ => none, 23, [], []⟩
        (.hint (.app (.const (.arrow (.list (.var 0)) (.var 0)))
          (.app (.const (.arrow (tRef (.var 0)) (.var 0))) (.const (tRef (.list (.var 22)))))) tStr))
      = some (some tStr) := by decide +kernel

/-- Types are compared by name.  After `lettype t = A int; let v = A 1; lettype t = A string; let f (A s) = s;` the
expression `f v` has type `string`: the old `v` has type `t`, the new `f` has type `t -> string`. -/
theorem c57_redefined_type :
    tyOf (typeCheck 30 s0 (.app (.const (.arrow (.con (.concrete "t") .nil) tStr)) (.const (.con (.concrete "t") .nil))))
      = some (some tStr) := by decide +kernel

/-- The name `tbl` alone stands for a type of tables without arguments, and `unify` runs over the arguments of
the other type: `\t::({int,string}tbl). t::tbl` follows a null pointer.  (`c57_principal` requires well-formed
assertions.) -/
theorem c57_tbl :
    ubOf (typeCheck 30 s0 (.lam "t" (.hint (.hint (.var "t") (.con .tbl (.cons tInt (.cons tStr .nil)))) (.con .tbl .nil)))) = true := by
  decide +kernel

end Voss.TC
