/-
Model of the cache of compiled regular expressions: `compile_regexp` voss_strings.c:2330-2372, with the arrays at
voss_strings.c:31-33 and their initialisation at 92-94.
-/
namespace Voss.Txt

/-- A line of the cache: the pattern (`none`: `NULL`), the time of its last use, the compiled pattern. -/
structure Line (ρ : Type) where
  pat : Option (List Char)
  time : Nat
  code : ρ

/-- Outcome: a compiled pattern, an illegal pattern, or undefined behaviour; with the cache. -/
inductive Comp (ρ : Type) where
  | ok (r : ρ) (c : List (Line ρ))
  | illegal (c : List (Line ρ))
  | ub

variable {ρ : Type}

/-- The loop of `compile_regexp` voss_strings.c:2336-2353 from line `i`: either the line that has the pattern, or the
oldest line and a hole (-1 if there is none). -/
def scan (pat : List Char) : List (Line ρ) → Nat → Nat → Int → Int → Nat ⊕ (Int × Int)
  | [], _, _, oldestIdx, hole => .inr (oldestIdx, hole)
  | l :: ls, i, oldest, oldestIdx, hole =>
    match l.pat with
    | some p =>
      if p = pat then .inl i
      else if oldest = 0 ∨ l.time < oldest then scan pat ls (i + 1) l.time i hole
      else scan pat ls (i + 1) oldest oldestIdx hole
    | none => scan pat ls (i + 1) oldest oldestIdx i

/-- `compile_regexp` voss_strings.c:2330-2372.  `regcomp` is the function of the C library (`none`: an illegal pattern),
`now` the time.  An index that is not in the arrays is undefined behaviour. -/
def compileRegexp (regcomp : List Char → Option ρ) (now : Nat) (cache : List (Line ρ)) (pat : List Char) : Comp ρ :=
  match scan pat cache 0 0 (-1) (-1) with
  | .inl i =>
    match cache[i]? with
    | none => .ub
    | some l => .ok l.code (cache.set i { l with time := now })
  | .inr (oldestIdx, hole) =>
    let idx := if hole = -1 then hole else oldestIdx
    if idx < 0 ∨ cache.length ≤ idx then .ub
    else match regcomp pat, cache[idx.toNat]? with
      | some r, _ => .ok r (cache.set idx.toNat ⟨some pat, now, r⟩)
      | none, some l => .illegal (cache.set idx.toNat { l with pat := none, time := now })
      | none, none => .ub

/-- voss_strings.c:92-94, with whatever is in the static arrays. -/
def emptyCache (junk : ρ) : List (Line ρ) := List.replicate 10 ⟨none, 0, junk⟩

end Voss.Txt
