import Verif.Vset.Model

/-! Model of `vec_assoc` and `vec_rev_assoc` (vector_names.fl:114-151).  The functions on names are those of `Names`.
`none` is a failure; which message it has is left out (vector_names.fl:126-127 and 147-148 pass on other messages than "failed to
find element", which `assoc` does not give for strings). -/

namespace Voss.Vset

section
variable {N S : Type} [DecidableEq N] [DecidableEq S] (o : Names N S)

/-- `map (\v. assoc v l)`. -/
def assocAll (l : List (N × N)) : List N → Option (List N)
  | [] => some []
  | v :: vs => do
    let a ← l.lookup v
    let r ← assocAll l vs
    pure (a :: r)

/-- vector_names.fl:124-142 `vec_assoc`.  `get_signatures` (114-121) is `parts`.  `zip` is evaluated as far as `assoc` looks at
it, so that lists of different lengths matter only if nothing is found before the shorter one ends, which is a failure
either way. -/
def vecAssoc (vec : N) (vsub : List (N × N)) : Option (List N) :=
  match vsub.lookup vec with
  | some v => some [v]
  | none => do
    let pots ← (parts o (vsub.map Prod.fst)).lookup (o.sig vec)
    let potRes ← assocAll vsub pots
    let expFrom ← expandAll o pots
    let expTo ← expandAll o potRes
    let res ← assocAll (expFrom.zip expTo) (← o.expand vec)
    o.merge res

/-- vector_names.fl:146-151 `vec_rev_assoc`. -/
def vecRevAssoc (vec : N) (vsub : List (N × N)) : Option (List N) :=
  match (vsub.find? fun x => decide (x.2 = vec)) with
  | some x => some [x.1]
  | none => vecAssoc o vec (vsub.map fun x => (x.2, x.1))

end

end Voss.Vset
