import Verif.Lst.Model
/-
Model of `qsort` of fl: `g_cmp`, `fl_qsort` (list_ops.c:207-253).

The library function `qsort` is a parameter: for each number of elements a tree of comparisons of elements
(identified by their positions in the argument), with the order of the result at the leaves.
-/
namespace Voss.Lst

/-- What the library's `qsort` does: compare two elements and go on depending on the result (-1, 0 or 1), or
stop with the elements in some order. -/
inductive Strat where
  | done (out : List Nat)
  | ask (i j : Nat) (k : Int → Strat)

section
variable {α F : Type}

/-- Evaluating an application of a comparison function: its value, `none` if it fails, and the
comparison function of the last call of `qsort` made on the way, if there was one. -/
structure Eff (F : Type) where
  val : Except String Int
  inner : Option F

/-- The static variables `comparison_fun` and `qsort_env`; the latter is `true` while it belongs to the call
considered, whose frame is alive. -/
structure QState (F : Type) where
  fn : F
  own : Bool

/-- The sign of an integer: `Arbi_cmp(res, ai_zero)`. -/
def sgn (z : Int) : Int := if z < 0 then -1 else if z = 0 then 0 else 1

/-- The library's sort with `g_cmp`, list_ops.c:208-220.  `comparison_fun` is read at each comparison; `longjmp` with
an environment of a call that has returned is undefined. -/
def runSort (app : F → α → α → Eff F) (l : List α) : Strat → QState F → Res (List α) × QState F
  | .done out, q => (.ok (out.filterMap (fun i => l[i]?)), q)
  | .ask i j k, q =>
    match l[i]?, l[j]? with
    | some a, some b =>
      let r := app q.fn a b
      let q' : QState F := match r.inner with
        | some g => ⟨g, false⟩
        | none => q
      match r.val with
      | .error m => (if q'.own then .fail m else .ub, q')
      | .ok z => runSort app l (k (sgn z)) q'
    | _, _ => (.ub, q)

/-- `fl_qsort` list_ops.c:222-253. -/
def flQsort (alg : Nat → Strat) (app : F → α → α → Eff F) (f : F) (l : List α) : Res (List α) :=
  (runSort app l (alg l.length) ⟨f, true⟩).1

end
end Voss.Lst
