import Verif.Slist.Lemmas
/-
C99: the functions on symbolic lists (src/vosslib/symbolic_lists.fl) do, for every assignment of the variables, what the
functions of the same name do on the list for that assignment.

`p` is the condition of the enclosing conditionals; it is satisfiable (graph.c:4218-4235 does not evaluate a branch for
which it is not), and only the assignments that satisfy it matter.
-/
namespace Voss.Slist
open Voss.Pre

variable {o : Order} {V W A B : Type}

section
variable {m : Fn o → V → V → Out V} {G : V → Prop} {d : V → Env → A}

/-- C99: a conditional with a symbolic condition between two symbolic lists, of any lengths, is the one list where the
condition holds and the other where it does not; so symbolic lists can be elements of symbolic lists. -/
theorem c99_conditional (hm : Means m G d) :
    Means (merge m) (IsList G) (den d) ∧ (Total m G → Total (merge m) (IsList G)) := by
  refine ⟨⟨fun c x y z hx hy h => (merge_yields hm c hx hy).ok h, fun c x y h => ?_⟩, fun ht c x y hx hy => ?_⟩
  · exact merge_stops hm.stops c x y h
  · obtain ⟨z, hz, _⟩ := (merge_yields hm c hx hy).exists ht
    exact ⟨z, hz⟩

/-- C99, `s_NIL`, `s_CONS` and their discriminators. -/
theorem c99_cons (e : V) (l : SList o V) (he : G e) (hl : IsList G l) :
    IsList G (sNil o V) ∧ IsList G (sCons e l) ∧ (∀ η, den d (sNil o V) η = []) ∧
    (∀ η, den d (sCons e l) η = d e η :: den d l η) ∧
    ∀ x : SList o V, IsList G x → ∃ n c, isNil x = .ok n ∧ isCons x = .ok c ∧
      ∀ η, (n.ev η = true ↔ den d x η = []) ∧ (c.ev η = true ↔ den d x η ≠ []) := by
  refine ⟨nil_isList, cons_isList he hl, den_nil, den_cons e l, fun x hx => ?_⟩
  cases x with
  | none => exact absurd rfl hx.1
  | node leaf hd tl =>
    have key : ∀ η, leaf.ev η = true ↔ den d (.node leaf hd tl) η = [] := fun η => by
      cases hl : leaf.ev η
      · obtain ⟨e, rfl, _⟩ := goes_on hx (p := Fn.tt o) (p' := leaf.not) ⟨η, by simp [hl]⟩ (by simp)
        simp [den, hl]
      · simp [den, hl]
    exact ⟨leaf, leaf.not, rfl, rfl, fun η => ⟨key η, by rw [Ne, ← key]; simp⟩⟩

/-- C99, `s_append`, when the second argument is evaluated. -/
theorem c99_append_partial (hm : Means m G d) (p : Fn o) (hp : ∃ η, p.ev η = true) (x y : SList o V) (hx : IsList G x)
    (hy : IsList G y) :
    Computes (append m p x y) (Total m G) (fun z => IsList G z ∧
      ∀ η, p.ev η = true → den d z η = den d x η ++ den d y η) ∧
    appendArg m p x (.value y) = (append m p x y).bind fun z => .ok (z, .value y) :=
  ⟨Yields.iff.1 (append_yields hm y hy x p hx hp), appendArg_value m y x p⟩

/-- C99, `s_rev`. -/
theorem c99_rev (hm : Means m G d) (p : Fn o) (hp : ∃ η, p.ev η = true) (x : SList o V) (hx : IsList G x) :
    Computes (rev m p x) (Total m G) fun z => IsList G z ∧
      ∀ η, p.ev η = true → den d z η = (den d x η).reverse :=
  Yields.iff.1 (rev_yields hm x p hx hp)

/-- C99, `s_length`: a bit-vector, which has the length as its value; it never fails. -/
theorem c99_length (p : Fn o) (hp : ∃ η, p.ev η = true) (x : SList o V) (hx : IsList G x) :
    ∃ z, length p x = .ok z ∧ z ≠ [] ∧ ∀ η, p.ev η = true → Bv.sv z η = (den d x η).length :=
  (length_yields x p hx hp).exists trivial

/-- C99, `s_last`: the last element; it fails if the list may be empty (or its elements cannot be merged). -/
theorem c99_last (hm : Means m G d) (p : Fn o) (hp : ∃ η, p.ev η = true) (x : SList o V) (hx : IsList G x) :
    Computes (last m p x) (Total m G ∧ ∀ η, p.ev η = true → den d x η ≠ []) (fun z => G z ∧
      ∀ η, p.ev η = true → (den d x η).getLast? = some (d z η)) ∧
    Computes (butlast m p x) (Total m G ∧ ∀ η, p.ev η = true → den d x η ≠ []) (fun z => IsList G z ∧
      ∀ η, p.ev η = true → den d x η ≠ [] ∧ den d z η = (den d x η).dropLast) :=
  ⟨Yields.iff.1 (last_yields hm x p hx hp), Yields.iff.1 (butlast_yields hm x p hx hp)⟩

/-- C99, `s_el`: the element with the given number, counted from 1; it fails if the number may be less than 1 or greater
than the length (or the elements cannot be merged). -/
theorem c99_el (hm : Means m G d) (p : Fn o) (hp : ∃ η, p.ev η = true) (idx : List (Fn o)) (hi : idx ≠ [])
    (x : SList o V) (hx : IsList G x) :
    Computes (el m p idx x)
      (Total m G ∧ ∀ η, p.ev η = true → 1 ≤ Bv.sv idx η ∧ Bv.sv idx η ≤ (den d x η).length)
      fun z => G z ∧ ∀ η, p.ev η = true → 1 ≤ Bv.sv idx η ∧
        (den d x η)[(Bv.sv idx η - 1).toNat]? = some (d z η) :=
  Yields.iff.1 (el_yields hm x p idx hi hx hp)

/-- C99, `s_filter`; `pred` computes the predicate `f` under every condition. -/
theorem c99_filter (hm : Means m G d) (p : Fn o) (hp : ∃ η, p.ev η = true) {pred : Fn o → V → Out (Fn o)}
    {f : A → Bool} {T : Prop}
    (hf : ∀ p v, (∃ η, p.ev η = true) → G v → Computes (pred p v) T fun k => ∀ η, p.ev η = true → k.ev η = f (d v η))
    (x : SList o V) (hx : IsList G x) :
    Computes (filter m pred p x) (Total m G ∧ T) fun z => IsList G z ∧
      ∀ η, p.ev η = true → den d z η = (den d x η).filter f :=
  Yields.iff.1 (filter_yields hm (fun p v h g => Yields.iff.2 (hf p v h g)) x p hx hp)

/-- C99, conversions: from lists, and to lists if no variables occur in the symbolic list. -/
theorem c99_convert (vs : V → List String) (x : SList o V) (hx : IsList G x) (l : List V) (hl : ∀ v ∈ l, G v) :
    IsList G (list2slist o l) ∧ (∀ η, den d (list2slist o l) η = l.map fun v => d v η) ∧
    (vars vs x = [] → ∃ r, slist2list vs x = .ok r ∧ ∀ η, den d x η = r.map fun v => d v η) ∧
    (vars vs x ≠ [] → slist2list vs x = .fail) := by
  obtain ⟨h1, h2⟩ := list2slist_spec (d := d) (o := o) l hl
  refine ⟨h1, h2, fun h => ?_, fun h => by rw [slist2list, if_pos h]⟩
  obtain ⟨i1, i2⟩ := list2_spec (d := d) x hx
  obtain ⟨r, hr⟩ := i2 (scalar_of_vars vs x h)
  exact ⟨r, by rw [slist2list, if_neg (by simp [h]), hr], i1 r hr⟩

/-- C99, from a list and back; the elements are the same, not only equal. -/
theorem c99_round_trip (vs : V → List String) (l : List V) (hl : ∀ v ∈ l, vs v = []) :
    slist2list vs (list2slist o l) = .ok l := by
  have tt_vars : (Fn.tt o).1.vars = [] := rfl
  have ff_vars : (Fn.ff o).1.vars = [] := rfl
  have h : ∀ l : List V, (∀ v ∈ l, vs v = []) → vars vs (list2slist o l) = [] ∧ list2 (list2slist o l) = .ok l := by
    intro l
    induction l with
    | nil => exact fun _ => ⟨by simp [list2slist, sNil, vars, tt_vars], by simp [list2slist, sNil, list2]⟩
    | cons e l ih =>
      intro h
      obtain ⟨i1, i2⟩ := ih fun v hv => h v (by simp [hv])
      refine ⟨by simp [list2slist, sCons, vars, ff_vars, i1, h e], ?_⟩
      have hne : Fn.ff o ≠ Fn.tt o := by
        intro h
        have := congrArg (fun g => g.ev (fun _ => true)) h
        simp at this
      simp [list2slist, sCons, list2, hne, i2, Out.bind]
  obtain ⟨h1, h2⟩ := h l hl
  rw [slist2list, if_neg (by simp [h1]), h2]

/-- C99, `slist2guarded_list`: for every assignment, the elements of which the condition holds, in order, are the
list. -/
theorem c99_guarded (vs : V → List String) (x : SList o V) (hx : IsList G x) :
    ∃ l, slist2guardedList vs x = .ok l ∧ ∀ η, den d x η = (l.filter fun q => q.1.ev η).map fun q => d q.2 η := by
  unfold slist2guardedList
  by_cases h : vars vs x = []
  · rw [if_pos h]
    obtain ⟨i1, i2⟩ := list2_spec (d := d) x hx
    obtain ⟨r, hr⟩ := i2 (scalar_of_vars vs x h)
    refine ⟨r.map fun e => (Fn.tt o, e), by rw [slist2list, if_neg (by simp [h]), hr]; rfl, fun η => ?_⟩
    rw [i1 r hr η, List.filter_map, List.map_map]
    have : r.filter ((fun q : Fn o × V => q.1.ev η) ∘ fun e => (Fn.tt o, e)) = r :=
      List.filter_eq_self.2 fun a _ => by simp
    rw [this]
    rfl
  · rw [if_neg h]
    obtain ⟨l, l1, _, l3⟩ := exp_spec (d := d) x hx (Fn.tt o)
    exact ⟨l, l1, fun η => l3 η (by simp)⟩

/-- C99, `s_accumulate`, for lists of a length that does not depend on variables (nor on the elements, which may). -/
theorem c99_accumulate_partial (hm : Means m G d) (p : Fn o) (hp : ∃ η, p.ev η = true)
    {fn : Fn o → V → V → Out V} {f : A → A → A} {T : Prop}
    (hf : ∀ p v w, (∃ η, p.ev η = true) → G v → G w → Computes (fn p v w) T fun z => G z ∧
      ∀ η, p.ev η = true → d z η = f (d v η) (d w η))
    (x : SList o V) (hx : IsList G x) (hs : Scalar x) (z : V) (hz : accumulate m fn p x = .ok z) :
    G z ∧ ∀ η, p.ev η = true → ∃ e, (den d x η).getLast? = some e ∧ d z η = (den d x η).dropLast.foldr f e := by
  unfold accumulate at hz
  cases hb : butlast m p x with
  | fail => rw [hb] at hz; cases hz
  | more => rw [hb] at hz; cases hz
  | ok b =>
    rw [hb] at hz
    simp only [Out.bind] at hz
    obtain ⟨b1, b2⟩ := (butlast_yields hm x p hx hp).ok hb
    cases hr : itlistArg m fn p b (.expr fun p => last m p x) with
    | fail => rw [hr] at hz; cases hz
    | more => rw [hr] at hz; cases hz
    | ok r =>
      rw [hr] at hz
      simp only [Out.ok.injEq] at hz
      subst hz
      obtain ⟨e, e1, e2⟩ := itlistArg_scalar m fn _ b p (butlast_scalar m x p hs hb) hr
      obtain ⟨g1, g2⟩ := (last_yields hm x p hx hp).ok e1
      obtain ⟨k1, k2⟩ := (itlist_yields hm (fun p v w h g g' => Yields.iff.2 (hf p v w h g g')) e g1 b p b1 hp).ok e2
      refine ⟨k1, fun η hη => ⟨d e η, g2 η hη, ?_⟩⟩
      rw [k2 η hη, (b2 η hη).2]

end

/-- C99, `s_map`; `fn` computes the function `f` under every condition. -/
theorem c99_map {m : Fn o → W → W → Out W} {G : V → Prop} {d : V → Env → A} {G' : W → Prop} {d' : W → Env → B}
    (hm : Means m G' d') (p : Fn o) (hp : ∃ η, p.ev η = true) {fn : Fn o → V → Out W} {f : A → B} {T : Prop}
    (hf : ∀ p v, (∃ η, p.ev η = true) → G v → Computes (fn p v) T fun w => G' w ∧
      ∀ η, p.ev η = true → d' w η = f (d v η))
    (x : SList o V) (hx : IsList G x) :
    Computes (map m fn p x) (Total m G' ∧ T) fun z => IsList G' z ∧
      ∀ η, p.ev η = true → den d' z η = (den d x η).map f :=
  Yields.iff.1 (map_yields hm (fun p v h g => Yields.iff.2 (hf p v h g)) x p hx hp)

/-- C99, `s_itlist`, when the last argument is evaluated. -/
theorem c99_fold_partial {m : Fn o → W → W → Out W} {G : V → Prop} {d : V → Env → A} {G' : W → Prop}
    {d' : W → Env → B} (hm : Means m G' d') (p : Fn o) (hp : ∃ η, p.ev η = true) {fn : Fn o → V → W → Out W}
    {f : A → B → B} {T : Prop}
    (hf : ∀ p v w, (∃ η, p.ev η = true) → G v → G' w → Computes (fn p v w) T fun z => G' z ∧
      ∀ η, p.ev η = true → d' z η = f (d v η) (d' w η))
    (base : W) (hb : G' base) (x : SList o V) (hx : IsList G x) :
    Computes (itlist m fn p x base) (Total m G' ∧ T) (fun z => G' z ∧
      ∀ η, p.ev η = true → d' z η = (den d x η).foldr f (d' base η)) ∧
    itlistArg m fn p x (.value base) = (itlist m fn p x base).bind fun z => .ok (z, .value base) :=
  ⟨Yields.iff.1 (itlist_yields hm (fun p v w h g g' => Yields.iff.2 (hf p v w h g g')) base hb x p hx hp),
    itlistArg_value m fn base x p⟩

/-- C99, `s_upto` and `s_downto` come to an end, for all bit-vectors with variables or without, and make the lists of
the integers between their values. -/
theorem c99_upto (p : Fn o) (hp : ∃ η, p.ev η = true) (a b : List (Fn o)) (ha : a ≠ []) (hb : b ≠ []) :
    ∃ K, ∀ k, (∃ z, upto (K + k) p a b = .ok z ∧ IsList (· ≠ []) z ∧
        ∀ η, p.ev η = true → den Bv.sv z η = ints (Bv.sv a η) (Bv.sv b η)) ∧
      ∃ z, downto (K + k) p a b = .ok z ∧ IsList (· ≠ []) z ∧
        ∀ η, p.ev η = true → den Bv.sv z η = (ints (Bv.sv b η) (Bv.sv a η)).reverse := by
  have h : ∀ η, Bv.sv b η - Bv.sv a η < (2 ^ a.length + 2 ^ b.length + 1 : Nat) ∧
      Bv.sv a η - Bv.sv b η < (2 ^ a.length + 2 ^ b.length + 1 : Nat) := by
    intro η
    have h1 := sv_bound a η
    have h2 := sv_bound b η
    generalize 2 ^ a.length = x at *
    generalize 2 ^ b.length = y at *
    omega
  refine ⟨2 ^ a.length + 2 ^ b.length + 1 + 1, fun k => ⟨?_, ?_⟩⟩
  · exact (buildUp_yields b hb _ p a ha hp (fun η _ => (h η).1) k).exists trivial
  · exact (buildDown_yields b hb _ p a ha hp (fun η _ => (h η).2) k).exists trivial

/-! ### Cases -/

private abbrev va : Fn codeOrder := Fn.var codeOrder "a"
private abbrev vb : Fn codeOrder := Fn.var codeOrder "b"
private abbrev vc : Fn codeOrder := Fn.var codeOrder "c"

/-- `c => [a] | [a,b]` -/
def oneOrTwo : SList codeOrder (Fn codeOrder) := .node (Fn.ff codeOrder) (some va) (.node vc (some vb) (sNil _ _))

/-- The hypotheses of the theorems hold of Booleans and of bit-vectors. -/
example : Means (mergeBool (o := codeOrder)) (fun _ => True) Fn.ev ∧ Total (mergeBool (o := codeOrder)) (fun _ => True) ∧
    Means (mergeBv (o := codeOrder)) (· ≠ []) Bv.sv ∧ Total (mergeBv (o := codeOrder)) (· ≠ []) :=
  ⟨bool_means, bool_total, bv_means, bv_total⟩

example : merge mergeBool vc (list2slist codeOrder [va]) (list2slist _ [va, vb]) = .ok oneOrTwo ∧
    IsList (fun _ => True) oneOrTwo ∧
    (∃ z, rev mergeBool (Fn.tt _) oneOrTwo = .ok z ∧
      den Fn.ev z (fun n => decide (n = "a")) = [false, true]) ∧
    (∃ z, length (Fn.tt _) oneOrTwo = .ok z ∧ Bv.sv z (fun _ => false) = 2 ∧ Bv.sv z (fun _ => true) = 1) ∧
    (∃ z, last mergeBool (Fn.tt _) oneOrTwo = .ok z ∧ z = (vc.and va).or (vc.not.and vb)) ∧
    el mergeBool (Fn.tt _) [Fn.ff _, Fn.tt _, Fn.ff _] oneOrTwo = .fail ∧
    el mergeBool vc.not [Fn.ff _, Fn.tt _, Fn.ff _] oneOrTwo = .ok vb := by
  refine ⟨by decide +kernel, ⟨by simp [oneOrTwo], ?_⟩, ⟨_, rfl, by decide +kernel⟩, ⟨_, rfl, by decide +kernel⟩,
    ⟨_, rfl, by decide +kernel⟩, by decide +kernel, by decide +kernel⟩
  simp [oneOrTwo, Sound, sNil]

/-- `NOT` and `AND` are functions as `c99_map`, `c99_filter`, `c99_fold_partial` and `c99_accumulate_partial` ask for,
and these lists. -/
example : (∀ (p v : Fn codeOrder), (∃ η, p.ev η = true) → True → Computes (Out.ok v.not) True fun w => True ∧
      ∀ η, p.ev η = true → w.ev η = !v.ev η) ∧
    (∀ (p v w : Fn codeOrder), (∃ η, p.ev η = true) → True → True → Computes (Out.ok (v.and w)) True fun z => True ∧
      ∀ η, p.ev η = true → z.ev η = (v.ev η && w.ev η)) ∧
    (∃ z, map mergeBool (fun _ v => .ok v.not) (Fn.tt _) oneOrTwo = .ok z ∧
      den Fn.ev z (fun n => decide (n = "a")) = [false, true]) ∧
    (∃ z, filter mergeBool (fun _ v => .ok v) (Fn.tt _) oneOrTwo = .ok z ∧ den Fn.ev z (fun _ => false) = [] ∧
      den Fn.ev z (fun n => decide (n = "b")) = [true]) ∧
    itlist mergeBool (fun _ v w => .ok (v.and w)) vc.not oneOrTwo (Fn.tt _) = .ok (va.and vb) ∧
    Scalar (list2slist codeOrder [va, vb]) ∧
    accumulate mergeBool (fun _ v w => .ok (v.and w)) (Fn.tt _) (list2slist _ [va, vb]) = .ok (va.and vb) := by
  refine ⟨fun p v _ _ => ⟨?_, by simp, by simp⟩, fun p v w _ _ _ => ⟨?_, by simp, by simp⟩, ⟨_, rfl, by decide +kernel⟩,
    ⟨_, rfl, by decide +kernel, by decide +kernel⟩, by decide +kernel, ?_, by decide +kernel⟩
  · rintro z ⟨⟩
    simp
  · rintro z ⟨⟩
    simp
  · simp [list2slist, sCons, sNil, Scalar]

/-- From 1 or 2 to 3. -/
example : ∃ z, upto 8 (Fn.tt _) [Fn.ff _, vc, vc.not] [Fn.ff _, Fn.tt _, Fn.tt _] = .ok z ∧
    den Bv.sv z (fun _ => true) = [2, 3] ∧ den Bv.sv z (fun _ => false) = [1, 2, 3] :=
  ⟨_, rfl, by decide +kernel, by decide +kernel⟩

example : ∃ l, slist2guardedList (fun f => f.1.vars) oneOrTwo = .ok l ∧ l = [(Fn.tt _, va), (vc.not, vb)] :=
  ⟨_, rfl, by decide +kernel⟩

/-- The rule that C99 asks for: what the function of the library gives is, for every assignment, the fold of the list. -/
def AccumulateRight (m : Fn codeOrder → Fn codeOrder → Fn codeOrder → Out (Fn codeOrder))
    (fn : Fn codeOrder → Fn codeOrder → Fn codeOrder → Out (Fn codeOrder)) (f : Bool → Bool → Bool) : Prop :=
  ∀ x z, IsList (fun _ => True) x → accumulate m fn (Fn.tt _) x = .ok z →
    ∀ η e, (den Fn.ev x η).getLast? = some e → z.ev η = (den Fn.ev x η).dropLast.foldr f e

/-- C99, violated by `s_accumulate` when the length of the list depends on a variable: `s_accumulate (defix AND)` of
`c => [a] | [a,b]` is `a`, whatever `b` and `c` are.  `s_last` is not evaluated before it is used; it is used first for
the case that the list has one element, is then taken to be `a`, and remains so. -/
theorem c99_accumulate_violated :
    accumulate mergeBool (fun _ x y => .ok (x.and y)) (Fn.tt _) oneOrTwo = .ok va ∧
    ¬ AccumulateRight mergeBool (fun _ x y => .ok (x.and y)) and := by
  have h : accumulate mergeBool (fun _ x y => .ok (x.and y)) (Fn.tt _) oneOrTwo = .ok va := by decide +kernel
  refine ⟨h, fun hr => ?_⟩
  have hx : IsList (fun _ => True) oneOrTwo := ⟨by simp [oneOrTwo], by simp [oneOrTwo, Sound, sNil]⟩
  have := hr oneOrTwo va hx h (fun n => decide (n = "a")) false (by decide +kernel)
  revert this
  decide +kernel

/-- C99, violated by `s_append` when its second argument is a conditional that is not evaluated yet:
`s_append (c => [] | [a]) (c => [] | [b])` is `[a]` where `c` does not hold, and should be `[a,b]`. -/
theorem c99_append_violated :
    ∃ x y z, ∃ f : Fn codeOrder → Out (SList codeOrder (Fn codeOrder)), ∃ r,
      (f = fun p => branch p vc (fun _ => .ok (sNil _ _)) (fun _ => .ok (list2slist _ [vb])) (merge mergeBool)) ∧
      merge mergeBool vc (sNil _ _) (list2slist _ [va]) = .ok x ∧ f (Fn.tt _) = .ok y ∧
      appendArg mergeBool (Fn.tt _) x (.expr f) = .ok (z, r) ∧ append mergeBool (Fn.tt _) x y ≠ .ok z ∧
      den Fn.ev x (fun _ => false) ++ den Fn.ev y (fun _ => false) = [false, false] ∧
      den Fn.ev z (fun _ => false) = [false] :=
  ⟨_, _, _, _, _, rfl, rfl, rfl, rfl, by decide +kernel, by decide +kernel, by decide +kernel⟩

end Voss.Slist
