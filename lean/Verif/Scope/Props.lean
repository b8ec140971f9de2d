import Verif.Scope.CtorLemmas

/-!
# C98: a name means what the scopes of the session make it mean

A session is any sequence of definitions, overloads, forward declarations, type declarations,
exports, `begin_abstype` and `end_abstype`.  The scopes of the user guide are in `Spec.lean`; what a
name means in them is compared with what the program finds for the name.
-/

namespace Voss.Scope

open Spec (Fine)

/-- For every session in which types are declared outside of abstract types (and that is `Fine`
otherwise: no name is exported twice, or before the definition of its declaration; no list of an
`end_abstype` has a name that is not defined, or of which the newest definition is hidden in a scope
inside) the program finds for every name what it means in the scopes.

Missing for the full property: the sessions that are not `Fine`, for which it is false, see
below. -/
theorem c98_scope_partial (h : List Op) (hf : Fine h) (n : Name) :
    (run h).find n = (Spec.run h).meaning n := by
  obtain ⟨g, segs, H, hi⟩ := run_inv start_inv h hf
  exact hi.meaning n

/-- Abstract types inside abstract types, shadowing of a name from outside, a forward declaration,
an export and a type outside: a session with all of these is `Fine`. -/
def session : List Op :=
  [.types ["NIL", "CONS"] ["write_list"], .define "f", .define "f", .opens, .define "f", .forward "g",
   .define "aux", .opens, .define "aux", .define "h", .exp "h", .define "k", .closes ["k"],
   .define "g", .closes ["g"], .define "it", .opens, .define "g", .closes []]

example : Fine session := by decide +kernel
example : (run session).find "f" = some 5 := by decide +kernel
example : (run session).find "g" = some 7 := by decide +kernel
example : (run session).find "aux" = none := by decide +kernel
example : (run session).find "k" = none := by decide +kernel
example : (run session).find "h" = some 10 := by decide +kernel
example : (run session).find "NIL" = some 1 := by decide +kernel

/-- For every session, also those that are not `Fine`: what is found for a name is a definition that
is marked when garbage is collected, and no two names find the same definition. -/
theorem c98_live (h : List Op) (n : Name) (i : Nat) (hi : (run h).find n = some i) :
    (run h).kept i = true ∧ ∀ m, (run h).find m = some i → m = n := by
  have hl : Live (run h) := live_run live_start h
  obtain ⟨r, hr, hri, hrn, hrv⟩ := hl.live n i hi
  refine ⟨?_, fun m hm => ?_⟩
  · simp only [St.kept, List.any_eq_true, Bool.and_eq_true, beq_iff_eq]
    exact ⟨r, hr, hri, hrv⟩
  · obtain ⟨q, hq, hqi, hqn, _⟩ := hl.live m i hm
    have := id_unique hl.nodup hr hq (hri.trans hqi.symm)
    rw [← hqn, ← hrn, this]

example : (run session).find "g" = some 7 ∧ (run session).kept 7 = true := by decide +kernel
example : (run session).kept 11 = false := by decide +kernel
example : (run [.opens, .define "f", .opens, .define "f", .define "g", .closes ["g"],
  .closes ["f"]]).find "f" = some 2 := by decide +kernel

/-- The full statement is false: a constructor of a type that is declared inside an abstract type is
found after its end although it is not in the list, whatever the session before, whatever other
functions are defined inside, and whatever the list.  (The guide's type of theorems, of which only
`is_taut` is exported, is of this form: everyone can make a theorem with `THM`.) -/
theorem c98_constructor_violated (h : List Op) (hf : Fine h) (n : Name) (ds es ks : List Name)
    (hn : (Spec.run h).meaning n = none) (hd : n ∉ ds) (he : n ∉ es) (hks : n ∉ ks)
    (hk : ∀ k ∈ ks, (Spec.run h).meaning k ≠ none ∨ k ∈ ds ∨ k ∈ es) :
    let h' := h ++ [.opens] ++ ds.map .define ++ [.types [n] []] ++ es.map .define ++ [.closes ks]
    (Spec.run h').meaning n = none ∧ (run h').find n ≠ none := by
  obtain ⟨g, segs, H, hi⟩ := run_inv start_inv h hf
  change Inv (run h) (Spec.run h) g segs H at hi
  have hm : ∀ m, (run h).find m = (Spec.run h).meaning m := fun m => hi.meaning m
  intro h'
  constructor
  · have hu := unknown_begin hi hn
    simp only [h', Spec.run, List.foldl_append, List.foldl_cons, List.foldl_nil]
    refine unknown_close ?_ ks hks ?_
    · refine (spec_defines es _ n n).1 ?_
      exact unknown_add ((spec_defines ds _ n n).1 hu) n
    · intro k hkk
      refine (spec_defines es _ n k).2 ?_
      rcases hk k hkk with hk | hk | hk
      · left
        refine meaning_add _ n k (Or.inl ?_)
        refine (spec_defines ds _ n k).2 (Or.inl ?_)
        exact hk
      · left
        refine meaning_add _ n k (Or.inl ?_)
        exact (spec_defines ds _ n k).2 (Or.inr hk)
      · exact Or.inr hk
  · obtain ⟨mark, ho⟩ := opened_begin h
    simp only [h', run, List.foldl_append, List.foldl_cons, List.foldl_nil, foldl_define]
    refine marked_end (mark := mark) ?_ ks ?_
    · refine marked_defines es ?_ he
      exact marked_ctor (opened_defines ds ho) n
    · intro k hkk
      refine find_defines es _ k ?_
      rcases hk k hkk with hk | hk | hk
      · left
        refine find_ctor _ n k ?_
        refine find_defines ds _ k (Or.inl ?_)
        show (run h).find k ≠ none
        rw [hm]
        exact hk
      · left
        refine find_ctor _ n k ?_
        exact find_defines ds _ k (Or.inr hk)
      · exact Or.inr hk

/-- The guide's example (02_fl.pre_tex, Abstract Types). -/
example :
    let h : List Op := [.define "e"]
    let h' := h ++ [.opens] ++ ["empty_state", "add_to_state", "lookup", "expr2bool"].map .define
      ++ [.types ["THM"] []] ++ ["Ptheorem", "is_taut"].map .define ++ [.closes ["is_taut"]]
    Fine h ∧ (run h').find "THM" = some 6 ∧ (Spec.run h').meaning "THM" = none
      ∧ (run h').find "expr2bool" = none ∧ (run h').find "is_taut" = some 8
      ∧ (run h').isCtor "THM" = true := by
  decide +kernel

/-- A definition that was hidden by an inner `end_abstype` comes back at the end of the outer one. -/
theorem c98_nested_violated :
    ∃ h : List Op, (run h).find "f" ≠ (Spec.run h).meaning "f" ∧ (Spec.run h).meaning "f" = some 1
      ∧ (run h).find "f" = some 2 :=
  ⟨[.opens, .define "f", .opens, .define "f", .define "g", .closes ["g"], .closes ["f"]],
    by decide +kernel⟩

/-- An `end_abstype` that is refused because of a name that is not defined has ended the abstract type
nevertheless: the next one, with a right list, hides nothing. -/
theorem c98_refused_violated :
    ∃ h : List Op, (Spec.run h).meaning "h" = none ∧ (run h).find "h" = some 1 :=
  ⟨[.opens, .define "h", .define "f", .closes ["f", "x"], .closes ["f"]], by decide +kernel⟩

/-- After a refused `end_abstype` the level of the definitions is wrong, and a later one takes away a
function that was defined before all abstract types. -/
theorem c98_level_violated :
    ∃ h : List Op, (Spec.run h).meaning "f" = some 1 ∧ (run h).find "f" = none :=
  ⟨[.define "f", .opens, .opens, .closes ["x"], .define "f", .closes []],  by decide +kernel⟩

/-- An abstract type that does not mention a name changes what the name means: an old definition
comes back. -/
theorem c98_stale_violated :
    ∃ h : List Op, (run h).find "C" = (Spec.run h).meaning "C"
      ∧ (run (h ++ [.opens, .closes []])).find "C" = some 1
      ∧ (Spec.run (h ++ [.opens, .closes []])).meaning "C" = some 3 :=
  ⟨[.define "C", .opens, .define "C", .closes ["C"], .types ["C"] []], by decide +kernel⟩

/-- A function that is exported, and then defined again and put into the list: the older definition
is found. -/
theorem c98_export_violated :
    ∃ h : List Op, (Spec.run h).meaning "f" = some 2 ∧ (run h).find "f" = some 1 :=
  ⟨[.opens, .define "f", .exp "f", .define "f", .closes ["f"]], by decide +kernel⟩

/-- A function that is declared forward, exported, and then defined is not exported. -/
theorem c98_forward_violated :
    ∃ h : List Op, (Spec.run h).meaning "f" = some 1 ∧ (run h).find "f" = none :=
  ⟨[.opens, .forward "f", .exp "f", .define "f", .closes []], by decide +kernel⟩

/-- A function inside an abstract type that has the name of a constructor from outside: after the
abstract type the name means the constructor again, but it can no longer be used in patterns. -/
theorem c98_pattern_violated :
    ∃ h : List Op, Fine h ∧ (run h).find "C" = some 1 ∧ (run h).isCtor "C" = false
      ∧ (run (h.take 1)).find "C" = some 1 ∧ (run (h.take 1)).isCtor "C" = true :=
  ⟨[.types ["C"] [], .opens, .define "C", .closes []], by decide +kernel⟩

end Voss.Scope
