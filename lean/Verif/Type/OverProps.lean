import Verif.Type.OverLemmas
import Verif.Type.Props
/-
Properties of overloading.
-/
namespace Voss.TC

/-! ### C58: overloaded names -/

/-- C58: the type checker counts the ways to choose alternatives so that the expression has a type.  If there is
none the expression is refused.  If there is one it is taken, and the type shown is the principal type of the
expression with these alternatives.  Otherwise every overloaded name becomes an argument.  The types of
defined names are as before.  The alternatives are assumed to be instances of the type of the name (`Tm.Alts`). -/
theorem c58_resolution_partial {ar : String → Nat} {G H : Nat → Prop} {alts : Nat → List Ty} {e : Tm} {n0 : Nat} (hok : e.OK ar G H [])
    (hH : ∀ v, H v → v < n0 ∧ ¬ G v) (hG : ∀ v, G v → v < n0) (hd : e.occs.Nodup) (ha : e.Alts ar G alts) (n : Nat) (tr : List Nat) :
    match typeCheckO n alts ⟨fun _ => none, n0, tr, []⟩ e with
    | .ok (.one repl t, s) => Works alts e (chosen repl) ∧ (∀ c, Works alts e c → ∀ v ∈ e.occs, c v = chosen repl v)
        ∧ (∀ τ, Types (e.pick alts (chosen repl)) τ ↔ Instance t τ)
        ∧ t.WF ar ∧ t.All (fun v => n0 ≤ v ∧ v < s.next) ∧ n0 ≤ s.next ∧ s = ⟨fun _ => none, s.next, tr, []⟩
    | .ok (.many args t, s) => (∃ c c', Works alts e c ∧ Works alts e c' ∧ ∃ v ∈ e.occs, c v ≠ c' v)
        ∧ args = e.occs ∧ (∀ τ, Instance t τ ↔ ∃ η τ', HasType η [] e τ' ∧ τ = arrows (args.map η) τ')
        ∧ t.WF ar ∧ t.All (fun v => n0 ≤ v ∧ v < s.next) ∧ n0 ≤ s.next ∧ s = ⟨fun _ => none, s.next, tr, []⟩
    | .fail => ∀ c, ¬ Works alts e c
    | .ub => False
    | .out => True := by
  have hm : ∀ {n m}, n ≤ m → RLe (typeCheckO n alts ⟨fun _ => none, n0, tr, []⟩ e) (typeCheckO m alts ⟨fun _ => none, n0, tr, []⟩ e) :=
    fun h => typeCheckO_mono h _ e
  rcases typeCheckO_out (tr := tr) hok hH hG hd ha with ⟨r, hev, h⟩ | ⟨hev, h⟩
  · split
    · next repl t s heq =>
      have hd := hev.det hm (n := n) (by rw [heq]; simp)
      rw [heq] at hd
      cases hd
      obtain ⟨h1, h2, h3, h4, h5, h6, h7⟩ := h
      exact ⟨h3, h5, h4, h6, h7, h1, h2⟩
    · next args t s heq =>
      have hd := hev.det hm (n := n) (by rw [heq]; simp)
      rw [heq] at hd
      cases hd
      obtain ⟨h1, h2, h3, h4, h5, h6, h7⟩ := h
      exact ⟨h3, h4, h5, h6, h7, h1, h2⟩
    · next heq => have hd := hev.det hm (n := n) (by rw [heq]; simp); rw [heq] at hd; cases hd
    · next heq => have hd := hev.det hm (n := n) (by rw [heq]; simp); rw [heq] at hd; cases hd
    · trivial
  · split
    · next heq => have hd := hev.det hm (n := n) (by rw [heq]; simp); rw [heq] at hd; cases hd
    · next heq => have hd := hev.det hm (n := n) (by rw [heq]; simp); rw [heq] at hd; cases hd
    · exact h
    · next heq => have hd := hev.det hm (n := n) (by rw [heq]; simp); rw [heq] at hd; cases hd
    · trivial

/-- C58: the resolution ends. -/
theorem c58_ends {ar : String → Nat} {G H : Nat → Prop} {alts : Nat → List Ty} {e : Tm} {n0 : Nat} (hok : e.OK ar G H [])
    (hH : ∀ v, H v → v < n0 ∧ ¬ G v) (hG : ∀ v, G v → v < n0) (hd : e.occs.Nodup) (ha : e.Alts ar G alts) (tr : List Nat) :
    ∃ N, ∀ n, N ≤ n → match typeCheckO n alts ⟨fun _ => none, n0, tr, []⟩ e with | .out => False | _ => True := by
  rcases typeCheckO_out (tr := tr) hok hH hG hd ha with ⟨r, ⟨N, hN⟩, _⟩ | ⟨⟨N, hN⟩, _⟩
  · exact ⟨N, fun n hn => by simp only at hN; rw [hN n hn]; trivial⟩
  · exact ⟨N, fun n hn => by simp only at hN; rw [hN n hn]; trivial⟩

/-- C58: when the alternatives have no type variables, the type given to the name fits all of them. -/
theorem c58_common_partial {ar : String → Nat} {as : List Ty} (h : ∀ a ∈ as, a.WF ar ∧ a.All fun _ => False) (next : Nat) :
    ∀ a ∈ as, Instance (commonType next as).1 a := by
  have hv : ∀ {t : Ty}, t.All (fun _ => False) → t.vars = [] := by
    have : (∀ t : Ty, t.All (fun _ => False) → t.vars = []) ∧ ∀ t : Tys, t.All (fun _ => False) → t.vars = [] := by
      refine ⟨fun t => ?_, fun t => ?_⟩
      · refine Ty.rec (motive_1 := fun t => t.All (fun _ => False) → t.vars = []) (motive_2 := fun t => t.All (fun _ => False) → t.vars = []) ?_ ?_ ?_ ?_ t
        · intro v h; exact h.elim
        · intro o ts ih h; exact ih h
        · intro _; rfl
        · intro t ts i1 i2 h; simp only [Tys.vars, i1 h.1, i2 h.2, List.append_nil]
      · refine Tys.rec (motive_1 := fun t => t.All (fun _ => False) → t.vars = []) (motive_2 := fun t => t.All (fun _ => False) → t.vars = []) ?_ ?_ ?_ ?_ t
        · intro v h; exact h.elim
        · intro o ts ih h; exact ih h
        · intro _; rfl
        · intro t ts i1 i2 h; simp only [Tys.vars, i1 h.1, i2 h.2, List.append_nil]
    exact fun {t} h => this.1 t h
  cases as with
  | nil => simp
  | cons b bs =>
    obtain ⟨h1, h2⟩ := h b (by simp)
    exact (foldl_gen (ar := ar) (b :: bs) b next h1 (fun a ha => ⟨(h a ha).1, hv (h a ha).2⟩) (by rw [hv h2]; simp) (by rw [hv h2]; simp)).2.1

/-! ### Cases -/

/-- What `TypeCheck` found: the choice or the arguments, and the type. -/
inductive OverRes where
  | one (repl : List (Nat × Nat)) (t : Ty)
  | many (args : List Nat) (t : Ty)
  | error
  | other
  deriving DecidableEq
def overOf (r : Res (Over × St)) : OverRes :=
  match r with
  | .ok (.one repl t, _) => .one repl t
  | .ok (.many args t, _) => .many args t
  | .fail => .error
  | _ => .other

abbrev tBool : Ty := .base .bool

/-- `+` on integers and on Booleans; the numbers of its uses are 1 and 2. -/
def plusAlts (v : Nat) : List Ty :=
  if v = 1 ∨ v = 2 then [.arrow tInt (.arrow tInt tInt), .arrow tBool (.arrow tBool tBool)] else []
/-- Its type. -/
def plusTy : Ty := (commonType 3 (plusAlts 1)).1

/-- `\x. x + 1`, with an overloaded `+`. -/
def exPlus : Tm := .lam "x" (.app (.app (.ov 1 plusTy) (.var "x")) (.lit .int))
/-- `\x. \y. (x + y) + x`. -/
def exPlus2 : Tm := .lam "x" (.lam "y" (.app (.app (.ov 1 plusTy) (.app (.app (.ov 2 plusTy) (.var "x")) (.var "y"))) (.var "x")))
/-- `\x. x + "a"`. -/
def exPlus3 : Tm := .lam "x" (.app (.app (.ov 1 plusTy) (.var "x")) (.lit .string))

example : plusTy = .arrow (.var 5) (.arrow (.var 4) (.var 3)) := by decide +kernel
example : exPlus2.OK noConcrete isG isH [] ∧ exPlus2.occs.Nodup ∧ exPlus2.Alts noConcrete isG plusAlts := by
  have hi : ∀ a b c : Ty, Instance plusTy (.arrow a (.arrow b c)) := fun a b c =>
    ⟨fun v => if v = 5 then a else if v = 4 then b else c, by simp [show plusTy = .arrow (.var 5) (.arrow (.var 4) (.var 3)) by decide +kernel, Ty.sub, Tys.sub]⟩
  have hp : plusTy.WF noConcrete ∧ plusTy.All isG := by
    simp [show plusTy = .arrow (.var 5) (.arrow (.var 4) (.var 3)) by decide +kernel, Ty.WF, Tys.WF, Ty.All, Tys.All, Tys.length, Op.arity, isG]
  refine ⟨?_, ?_, ?_⟩
  · simp only [exPlus2, Tm.OK]
    simp [hp, isG]
  · simp [exPlus2, Tm.occs]
  · simp only [exPlus2, Tm.Alts]
    simp [plusAlts, hi, Ty.WF, Tys.WF, Ty.All, Tys.All, Tys.length, Op.arity]
example : overOf (typeCheckO 30 plusAlts s0 exPlus) = .one [(1, 0)] (.arrow tInt tInt) := by decide +kernel
example : overOf (typeCheckO 30 plusAlts s0 exPlus2)
    = .many [2, 1] (.arrow (.arrow (.var 28) (.arrow (.var 29) (.var 30)))
        (.arrow (.arrow (.var 29) (.arrow (.var 31) (.var 28))) (.arrow (.var 29) (.arrow (.var 31) (.var 30))))) := by decide +kernel
example : overOf (typeCheckO 30 plusAlts s0 exPlus3) = .error := by decide +kernel

/-! ### What goes wrong -/

/-- The alternatives `* -> *` and `int -> string`. -/
def badAlts (v : Nat) : List Ty := if v = 1 then [.arrow (.var 0) (.var 0), .arrow tInt tStr] else []
/-- `(f 1)::string`. -/
def exBad : Tm := .hint (.app (.ov 1 (commonType 2 (badAlts 1)).1) (.lit .int)) tStr

/-- The type given to a name with the alternatives `* -> *` and `int -> string` is `* -> *`, and `(f 1)::string` is
refused although the second alternative fits. -/
theorem c58_common_violated : (commonType 2 (badAlts 1)).1 = .arrow (.var 0) (.var 0)
    ∧ overOf (typeCheckO 30 badAlts s0 exBad) = .error ∧ Works badAlts exBad fun _ => 1 := by
  refine ⟨by decide +kernel, by decide +kernel, by simp [exBad, Tm.occs, badAlts], tStr, .var, ?_⟩
  have e : exBad.pick badAlts (fun _ => 1) = .hint (.app (.const (.arrow tInt tStr)) (.lit .int)) tStr := rfl
  rw [e]
  exact .hint (t := tStr) (.app (α := tInt) (.const ⟨.var, rfl⟩) .lit)

/-- Alternatives added later to an open overloading do not change its type (`AddToOpenOverloadDef` symbol.c:886-912):
after `open_overload f {f_int}`, with `f_int : int -> int`, and the addition of `f_str : string -> string`, `f "a"` is
refused. -/
theorem c58_open_violated :
    let alts := fun v => if v = 1 then [Ty.arrow tInt tInt, .arrow tStr tStr] else []
    let e := Tm.app (.ov 1 (commonType 2 [.arrow tInt tInt]).1) (.lit .string)
    overOf (typeCheckO 30 alts s0 e) = .error ∧ Works alts e fun _ => 1 := by
  refine ⟨by decide +kernel, by simp [Tm.occs], tStr, .var, ?_⟩
  exact .app (α := tStr) (.const ⟨.var, rfl⟩) .lit

/-- An alternative given with a type, as in `overload f {id::int->int}`, makes the function itself less general:
`id "a"` has a type before and is refused after. -/
theorem c58_choice_specialises :
    let id := Tm.app (.const (.arrow (.var 0) (.var 0))) (.lit .string)
    let after := match findChoice 30 s0 (.arrow tInt tInt) (.arrow (.var 0) (.var 0)) with | .ok (true, s) => some s | _ => none
    tyOf (typeCheck 30 s0 id) = some (some tStr) ∧ after.map (fun s => tyOf (typeCheck 30 s id)) = some (some none) := by decide +kernel

end Voss.TC
