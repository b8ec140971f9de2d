import Verif.Type.DeclTake
import Verif.Type.DeclArity
import Mathlib.Data.List.Nodup
/-
C59: type declarations.
-/
namespace Voss.TC

theorem start_inv (ar : String → Nat) : DInv ar Decls.start :=
  ⟨fun _ => rfl, fun _ _ h => by cases h⟩

theorem start_und (ar : String → Nat) (x : String) : Und ar x Decls.start :=
  ⟨start_inv ar, (fun _ _ _ _ _ h => by cases h), (fun _ _ h => by cases h)⟩

/-- What the statements of a session defined, or `none` if it crashed. -/
def outcome (ss : List Stmt) : Option (List (Option (List Ctor))) :=
  match run Decls.start ss with
  | .ok (os, _) => some os
  | _ => none

/-- C59 (the session has no abbreviations, type names are not those of built-in types, and are used with
their number of arguments): the session does not crash, and the constructors of every group of declarations
that is accepted have the types with which they were declared. -/
theorem c59_types_partial {ar : String → Nat} (hA : Arity ar) (gs : List (List TypeDef))
    (hc : ∀ g ∈ gs, ∀ t ∈ g, t.Conf ar) :
    ∃ os, outcome (gs.map .lettype) = some os ∧ os.length = gs.length ∧
      ∀ (i : Nat) g cs, gs[i]? = some g → os[i]? = some (some cs) → cs.map Ctor.types = declared g := by
  obtain ⟨os, d', e, _, l, h, _⟩ := run_ok hA gs Decls.start hc (start_inv ar)
  exact ⟨os, by simp only [outcome, e], l, h⟩

/-- C59 (as above, and no name is declared twice): a declared type is new. -/
theorem c59_new_partial {ar : String → Nat} (hA : Arity ar) (gs : List (List TypeDef))
    (hc : ∀ g ∈ gs, ∀ t ∈ g, t.Conf ar) (hn : (gs.flatMap fun g => g.map TypeDef.name).Nodup)
    {os : List (Option (List Ctor))} (ho : outcome (gs.map .lettype) = some os) {i j : Nat} (hij : i < j)
    {cs cs' : List Ctor} (hi : os[i]? = some (some cs)) (hj : os[j]? = some (some cs'))
    {c c' : Ctor} (hcm : c ∈ cs) (hcm' : c' ∈ cs') :
    c.res.erase ≠ c'.res.erase ∧ ∀ o ts, c.res.erase = .con o ts → ∃ x, o = .concrete x := by
  obtain ⟨os', e, l, h⟩ := c59_types_partial hA gs hc
  rw [ho] at e
  cases e
  have li : i < gs.length := l ▸ (List.getElem?_eq_some_iff.1 hi).1
  have lj : j < gs.length := l ▸ (List.getElem?_eq_some_iff.1 hj).1
  have gi : gs[i]? = some gs[i] := List.getElem?_eq_getElem li
  have gj : gs[j]? = some gs[j] := List.getElem?_eq_getElem lj
  have key : ∀ (g : List TypeDef) (cs : List Ctor) (c : Ctor), cs.map Ctor.types = declared g → c ∈ cs → ∃ t ∈ g, c.res.erase = t.ty := by
    intro g cs c e hm
    have : Ctor.types c ∈ declared g := e ▸ List.mem_map.2 ⟨c, hm, rfl⟩
    simp only [declared, List.mem_flatMap, List.mem_map] at this
    obtain ⟨t, ht, q, _, hq⟩ := this
    exact ⟨t, ht, (congrArg (fun p => p.2.2) hq).symm⟩
  obtain ⟨t, ht, et⟩ := key _ _ _ (h i _ cs gi hi) hcm
  obtain ⟨t', ht', et'⟩ := key _ _ _ (h j _ cs' gj hj) hcm'
  refine ⟨fun hh => ?_, fun o ts hh => ⟨t.name, ?_⟩⟩
  · rw [et, et'] at hh
    have hne : t.name = t'.name := by
      have := (Ty.con.inj hh).1
      exact Op.concrete.inj this
    have hp := (List.nodup_flatMap.1 hn).2
    have := List.pairwise_iff_getElem.1 hp i j li lj hij
    exact this (List.mem_map.2 ⟨t, ht, rfl⟩) (List.mem_map.2 ⟨t', ht', hne.symm⟩)
  · rw [et] at hh
    exact (Ty.con.inj hh).1.symm

/-- C59 (the same): declarations in order are accepted, also when types without parameters refer to each
other. -/
theorem c59_accepted_partial {ar : String → Nat} (hA : Arity ar) (gs : List (List TypeDef))
    (hc : ∀ g ∈ gs, ∀ t ∈ g, t.Conf ar) (ho : OrderedS ar [] gs) :
    ∃ os, outcome (gs.map .lettype) = some os ∧ ∀ o ∈ os, o.isSome := by
  obtain ⟨os, d', e, _, l, _, h⟩ := run_ok hA gs Decls.start hc (start_inv ar)
  exact ⟨os, by simp only [outcome, e], h [] ho (fun _ h => by cases h)⟩

/-- C59 (the same): a group in which the type of an argument of a constructor is, or is built with `->`, `#`,
`list` or `ref` from, a type without parameters that is not declared, is rejected. -/
theorem c59_undeclared_partial {ar : String → Nat} (hA : Arity ar) {x : String} (hx : ar x = 0)
    (hb : builtin x = none) (ht : x ≠ "tbl") (gs : List (List TypeDef))
    (hc : ∀ g ∈ gs, ∀ t ∈ g, t.Conf ar ∧ t.name ≠ x) :
    ∃ os, outcome (gs.map .lettype) = some os ∧
      ∀ (i : Nat) g, gs[i]? = some g → (∃ t ∈ g, ∃ c ∈ t.ctors, x ∈ c.2.outer) → os[i]? = some none := by
  obtain ⟨os, d', e, _, h⟩ := run_und hA hx hb ht gs Decls.start hc (start_und ar x)
  exact ⟨os, by simp only [outcome, e], h⟩

/-- C59 (for a type declared first in the session): a declaration that uses the name of a type with parameters
with another number of arguments is rejected. -/
theorem c59_arity_partial (t : TypeDef) (hp : t.params ≠ []) (hb : builtin t.name = none) (ht : t.name ≠ "tbl")
    (gs : List (List TypeDef)) {os : List (Option (List Ctor))} (ho : outcome (([t] :: gs).map .lettype) = some os)
    (i : Nat) (g : List TypeDef) (hg : gs[i]? = some g)
    (hm : ∃ u ∈ g, ∃ c ∈ u.ctors, c.2.misuses t.name t.params.length) : os[i + 1]? = some none := by
  unfold outcome at ho
  split at ho
  · next e =>
    cases ho
    simp only [List.map_cons, run] at e
    split at e
    · next e1 =>
      split at e
      · next e2 =>
        cases e
        exact run_has gs _ _ _ (declare_has hp hb ht e1) e2 i g hg hm
      all_goals cases e
    all_goals cases e
  · cases ho

/-- `lettype *a opt = NONE | SOME *a; lettype t = A opt andlettype u = B int`. -/
example : outcome [.lettype [⟨"opt", [0], [("NONE", .nil), ("SOME", .cons (.var 0) .nil)]⟩],
    .lettype [⟨"t", [], [("A", .cons (.name "opt") .nil)]⟩, ⟨"u", [], [("B", .cons (.name "int") .nil)]⟩]] =
    some [some [⟨"NONE", .nil, .dec "opt" (.cons (.var 0) .nil) 0⟩,
                ⟨"SOME", .cons (.var 0) .nil, .dec "opt" (.cons (.var 0) .nil) 0⟩], none] := by decide +kernel

example : (Syns.cons (.name "opt") .nil).misuses "opt" 1 := by simp [Syns.misuses, Syn.misuses]

/-- C59 (all type variables in the types of the arguments of the constructor occur in its result type): what
pattern matching takes out of a value has the types of the expressions from which the value was built.  `k`
is the function that the destructor of the constructor applies to the constructor's name and arguments. -/
theorem c59_take_apart_partial (c : Ctor) (b : Nat) (hv : ∀ v ∈ c.args.erase.vars, v ∈ c.res.erase.vars)
    {η : Nat → Ty} {Γ : List (String × Ty)} {k : Tm} {es : List Tm} (hl : es.length = c.args.length) {β : Ty}
    (h : HasType η Γ (.app (.app (.const (destructorType c.args.erase c.res.erase b)) k)
      (apps (.const (arrowsTo c.args c.res).erase) es)) β) :
    ∃ τs, HasTypes η Γ es τs ∧ HasType η Γ k (.arrow (τs.after (.base .string)) β) := by
  obtain ⟨τs, h1, h2⟩ := take_apart c b hv hl h
  exact ⟨τs, h1, by rw [← proper_after]; exact h2⟩

/-! A session with recursive types, with and without parameters. -/

/-- `lettype *a opt = NONE | SOME *a; lettype expr = NUM int | LET binds andlettype binds = BINDS ((string#expr) list) ({binds} opt)`. -/
def exSession : List (List TypeDef) :=
  [[⟨"opt", [0], [("NONE", .nil), ("SOME", .cons (.var 0) .nil)]⟩],
   [⟨"expr", [], [("NUM", .cons (.name "int") .nil), ("LET", .cons (.name "binds") .nil)]⟩,
    ⟨"binds", [], [("BINDS", .cons (.op .list (.cons (.op .tuple (.cons (.name "string") (.cons (.name "expr") .nil))) .nil))
      (.cons (.app (.cons (.name "binds") .nil) "opt") .nil))]⟩]]

def exAr (x : String) : Nat := if x = "opt" then 1 else if x = "tbl" then 2 else 0

theorem exAr_ok : Arity exAr := by
  refine ⟨fun x h => ?_, by decide⟩
  have h1 : x ≠ "opt" := by rintro rfl; simp [builtin] at h
  have h2 : x ≠ "tbl" := by rintro rfl; simp [builtin] at h
  simp [exAr, h1, h2]

theorem exSession_conf : ∀ g ∈ exSession, ∀ t ∈ g, t.Conf exAr := by
  intro g hg t ht
  simp only [exSession, List.mem_cons, List.not_mem_nil, or_false] at hg
  rcases hg with rfl | rfl <;> simp only [List.mem_cons, List.not_mem_nil, or_false] at ht
  · subst ht
    exact ⟨by decide, by decide, by simp [Syns.Conf, Syn.Conf]⟩
  · rcases ht with rfl | rfl
    · exact ⟨by decide, by decide, by simp [Syns.Conf, Syn.Conf, exAr]⟩
    · exact ⟨by decide, by decide, by simp [Syns.Conf, Syn.Conf, Syns.length, exAr]⟩

theorem exSession_ordered : OrderedS exAr [] exSession := by
  simp [OrderedS, Ordered, exSession, TypeDef.names, Syns.names, Syn.names, exAr, builtin]

example : ∃ os, outcome (exSession.map .lettype) = some os ∧ ∀ o ∈ os, o.isSome :=
  c59_accepted_partial exAr_ok exSession exSession_conf exSession_ordered

example : outcome (exSession.map .lettype) =
    some [some [⟨"NONE", .nil, .dec "opt" (.cons (.var 0) .nil) 0⟩,
                ⟨"SOME", .cons (.var 0) .nil, .dec "opt" (.cons (.var 0) .nil) 0⟩],
          some [⟨"NUM", .cons (.con .int .nil) .nil, .dec "expr" .nil 1⟩,
                ⟨"LET", .cons (.dec "binds" .nil 2) .nil, .dec "expr" .nil 1⟩,
                ⟨"BINDS", .cons (.con .list (.cons (.con .tuple (.cons (.con .string .nil) (.cons (.dec "expr" .nil 1) .nil))) .nil))
                  (.cons (.dec "opt" (.cons (.dec "binds" .nil 2) .nil) 3) .nil), .dec "binds" .nil 2⟩]] := by
  decide +kernel

example : (exSession.flatMap fun g => g.map TypeDef.name).Nodup := by decide +kernel

/-- `lettype t = A nosuch`: rejected. -/
example : outcome [.lettype [⟨"t", [], [("A", .cons (.name "nosuch") .nil)]⟩]] = some [none] := by decide +kernel

example : ∃ os, outcome ([[(⟨"t", [], [("A", .cons (.name "nosuch") .nil)]⟩ : TypeDef)]].map .lettype) = some os ∧
    ∀ (i : Nat) g, [[(⟨"t", [], [("A", .cons (.name "nosuch") .nil)]⟩ : TypeDef)]][i]? = some g →
      (∃ t ∈ g, ∃ c ∈ t.ctors, "nosuch" ∈ c.2.outer) → os[i]? = some none := by
  refine c59_undeclared_partial exAr_ok (x := "nosuch") (by decide) (by decide) (by decide) _ ?_
  intro g hg t ht
  simp only [List.mem_singleton] at hg
  subst hg
  simp only [List.mem_singleton] at ht
  subst ht
  exact ⟨⟨by decide, by decide, by simp [Syns.Conf, Syn.Conf, exAr]⟩, by decide⟩

/-- `SOME 1` is taken apart: the hypotheses of `c59_take_apart_partial`. -/
example : let c : Ctor := ⟨"SOME", .cons (.var 0) .nil, .dec "opt" (.cons (.var 0) .nil) 0⟩
    (∀ v ∈ c.args.erase.vars, v ∈ c.res.erase.vars) ∧
      HasType (fun v => .var v) [] (.app (.app (.const (destructorType c.args.erase c.res.erase 1))
        (.const (.arrow (.con .tuple (.cons (.var 0) (.cons (.var 1) .nil))) (.var 1))))
        (apps (.const (arrowsTo c.args c.res).erase) [.lit .int])) (.base .int) := by
  refine ⟨by decide +kernel, .app (α := .con (.concrete "opt") (.cons (.base .int) .nil))
    (.app (α := .arrow (.con .tuple (.cons (.base .string) (.cons (.base .int) .nil))) (.base .int)) (.const ?_) (.const ?_))
    (.app (α := .base .int) (.const ?_) .lit)⟩
  · exact ⟨fun _ => .base .int, by decide +kernel⟩
  · exact ⟨fun v => if v = 0 then .base .string else .base .int, by decide +kernel⟩
  · exact ⟨fun _ => .base .int, by decide +kernel⟩

/-! Violations. -/

/-- The expression that takes the argument out of a value built with the one-argument constructor `c` from the
integer `1`, by the destructor of `c'`. -/
def takeOut (c c' : Ctor) : Tm :=
  .app (.app (.const (destructorType c'.args.erase c'.res.erase 1))
    (.const (.arrow (.con .tuple (.cons (.var 0) (.cons (.var 1) .nil))) (.var 1))))
    (.app (.const (arrowsTo c.args c.res).erase) (.lit .int))

/-- C59: a type that is declared again is not new, `lettype foo = A int; lettype foo = A string`: an integer
put into a value with the old constructor comes out as a string. -/
theorem c59_new_violated_again :
    ∃ c c' : Ctor, outcome [.lettype [⟨"foo", [], [("A", .cons (.name "int") .nil)]⟩],
        .lettype [⟨"foo", [], [("A", .cons (.name "string") .nil)]⟩]] = some [some [c], some [c']] ∧
      c.name = c'.name ∧ c.args.erase = .cons (.base .int) .nil ∧ Types (takeOut c c') (.base .string) := by
  refine ⟨⟨"A", .cons (.con .int .nil) .nil, .dec "foo" .nil 0⟩, ⟨"A", .cons (.con .string .nil) .nil, .dec "foo" .nil 0⟩,
    by decide +kernel, rfl, rfl, fun v => .var v, .app (α := .base (.concrete "foo"))
      (.app (α := .arrow (.con .tuple (.cons (.base .string) (.cons (.base .string) .nil))) (.base .string))
        (.const ?_) (.const ?_))
      (.app (α := .base .int) (.const ?_) .lit)⟩
  · exact ⟨fun _ => .base .string, by decide +kernel⟩
  · exact ⟨fun _ => .base .string, by decide +kernel⟩
  · exact ⟨fun _ => .base .int, by decide +kernel⟩

/-- C59: a type declared with the name of a built-in type, or of an abbreviation, is not new:
`lettype int = A string` gives `A :: string->int`, and `type_abbrev t = bool; lettype t = A string` gives
`A :: string->bool`. -/
theorem c59_new_violated_name :
    outcome [.lettype [⟨"int", [], [("A", .cons (.name "string") .nil)]⟩]] =
        some [some [⟨"A", .cons (.con .string .nil) .nil, .con .int .nil⟩]] ∧
      outcome [.abbrev "t" (.name "bool"), .lettype [⟨"t", [], [("A", .cons (.name "string") .nil)]⟩]] =
        some [some [], some [⟨"A", .cons (.con .string .nil) .nil, .con .bool .nil⟩]] := by
  decide +kernel

/-- C59: `lettype t = A *a` is accepted, and then an integer put into a value comes out with every type. -/
theorem c59_take_apart_violated :
    ∃ c : Ctor, outcome [.lettype [⟨"t", [], [("A", .cons (.var 0) .nil)]⟩]] = some [some [c]] ∧
      ∀ τ, Types (takeOut c c) τ := by
  refine ⟨⟨"A", .cons (.var 0) .nil, .dec "t" .nil 0⟩, by decide +kernel, fun τ => ⟨fun v => .var v,
    .app (α := .base (.concrete "t"))
      (.app (α := .arrow (.con .tuple (.cons (.base .string) (.cons τ .nil))) τ) (.const ?_) (.const ?_))
      (.app (α := .base .int) (.const ?_) .lit)⟩⟩
  · exact ⟨fun _ => τ, rfl⟩
  · exact ⟨fun v => if v = 0 then .base .string else τ, rfl⟩
  · exact ⟨fun _ => .base .int, by decide +kernel⟩

/-- C59: the parameters of a type that is used without them before it is declared are dropped,
`lettype t = A u andlettype *a u = B *a` gives `B :: *a->u`. -/
theorem c59_types_violated :
    outcome [.lettype [⟨"t", [], [("A", .cons (.name "u") .nil)]⟩, ⟨"u", [0], [("B", .cons (.var 0) .nil)]⟩]] =
      some [some [⟨"A", .cons (.dec "u" .nil 1) .nil, .dec "t" .nil 0⟩,
                  ⟨"B", .cons (.var 0) .nil, .dec "u" .nil 1⟩]] := by
  decide +kernel

/-- `lettype *a t = A ({*a} u) andlettype *a u = B ({*a} t) | C`. -/
def exMutual : Stmt :=
  .lettype [⟨"t", [0], [("A", .cons (.app (.cons (.var 0) .nil) "u") .nil)]⟩,
            ⟨"u", [0], [("B", .cons (.app (.cons (.var 0) .nil) "t") .nil), ("C", .nil)]⟩]

/-- C59: types with parameters that refer to each other are rejected, and accepted when declared a second
time. -/
theorem c59_accepted_violated :
    ∃ cs, outcome [exMutual, exMutual] = some [none, some cs] := by
  refine ⟨[⟨"A", .cons (.dec "u" (.cons (.var 0) .nil) 5) .nil, .dec "t" (.cons (.var 0) .nil) 4⟩,
    ⟨"B", .cons (.dec "t" (.cons (.var 0) .nil) 7) .nil, .dec "u" (.cons (.var 0) .nil) 6⟩,
    ⟨"C", .nil, .dec "u" (.cons (.var 0) .nil) 6⟩], by decide +kernel⟩

/-- C59: an undeclared type is accepted as an argument of a declared one, and an undeclared type with
parameters is accepted in a second declaration. -/
theorem c59_undeclared_violated :
    (∃ cs cs', outcome [.lettype [⟨"opt", [0], [("SOME", .cons (.var 0) .nil)]⟩],
      .lettype [⟨"t", [], [("A", .cons (.app (.cons (.name "nosuch") .nil) "opt") .nil)]⟩]] = some [some cs, some cs']) ∧
    (∃ cs, outcome [.lettype [⟨"t", [], [("A", .cons (.app (.cons (.name "int") .nil) "nosuch") .nil)]⟩],
      .lettype [⟨"t", [], [("A", .cons (.app (.cons (.name "int") .nil) "nosuch") .nil)]⟩]] = some [none, some cs]) := by
  refine ⟨⟨[⟨"SOME", .cons (.var 0) .nil, .dec "opt" (.cons (.var 0) .nil) 0⟩],
      [⟨"A", .cons (.dec "opt" (.cons (.dec "nosuch" .nil 2) .nil) 3) .nil, .dec "t" .nil 1⟩], by decide +kernel⟩,
    ⟨[⟨"A", .cons (.dec "nosuch" (.cons (.con .int .nil) .nil) 2) .nil, .dec "t" .nil 0⟩], by decide +kernel⟩⟩

/-- C59: `lettype t = A tbl` crashes. -/
theorem c59_crash_violated : outcome [.lettype [⟨"t", [], [("A", .cons (.name "tbl") .nil)]⟩]] = none := by
  decide +kernel

end Voss.TC
