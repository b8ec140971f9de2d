import Verif.Inst.MkLemmas
import Verif.Inst.FpProps
import Verif.Inst.ShaProps

/-
C84: making instances.
-/
namespace Voss.Inst
open Hier Lib.Gen

/-- **Internals.**  Making an instance from instances fails if two of them state the same assertion.  Otherwise it declares,
before the internal signals that are given, each assertion of an instance that is neither an internal signal nor an output,
and no others, once. -/
theorem c84_internals {φ : Type} (outs : List Pin) (ints : List Name) (ks : List Kid) (hl : ks.length ≤ 2147483629)
    (hc : ∀ k ∈ ks, Connected k) :
    (declare outs ints (.hier ks : Content φ) = .fail ∧ ¬ Distinct ks) ∨
    (∃ new : List Name, declare outs ints (.hier ks : Content φ) = .ok (new ++ ints) ∧ Distinct ks ∧ new.Nodup ∧
      ∀ n, n ∈ new ↔ Undeclared outs ints ks n) := by
  obtain ⟨t, e, h, he⟩ := create_is (K := Name) (V := Name) (h := strHash) (eq := strEqu) 100 (by omega)
  simp only [declare, e]
  rcases collect_spec ks t _ h (by omega) hc with ⟨r, hr⟩ | ⟨t', m', r, h', hr, hi⟩
  · exact .inl ⟨by rw [r], fun d => hr ⟨d, fun _ _ _ _ => rfl⟩⟩
  · obtain ⟨new, e2, nd, hn⟩ := addAssertions_spec t' m' h' outs ints
    refine .inr ⟨new, by simp only [r, e2], hr.1, nd, fun n => ?_⟩
    rw [hn, hi, Undeclared]
    simp only [Option.isSome_none, Bool.false_eq_true, false_or, List.mem_map, not_exists, not_and]

/-- **What is made.**  If an instance is made, it has the name, ports and contents that are given; its internals are those
that are declared; its attributes are its own signatures, once each, and the other attributes that are given, in their order;
the signatures are those of the instance with the internals that are declared, and are read back as such. -/
theorem c84_made {φ : Type} (fp : Inst φ → Option W64) (sha : Inst φ → Option Name) (attrs as : List (Name × Name)) (p q : Inst φ)
    (h : mkPinst fp sha attrs p = .ok (as, q)) :
    q.name = p.name ∧ q.inps = p.inps ∧ q.outs = p.outs ∧ q.content = p.content ∧
    declare p.outs p.ints p.content = .ok q.ints ∧ findSignature as = fp q ∧ findSha as = sha q ∧
    (fp q).isSome ∧ (sha q).isSome ∧ (∀ fns, p.content = .leaf fns → q = p) ∧
    as.filter (fun a => decide (Other a)) = attrs.filter (fun a => decide (Other a)) ∧
    (as.filter fun a => !decide (Other a)).map Prod.fst = ["SHA".toList, "FP".toList] := by
  unfold mkPinst at h
  cases hd : declare p.outs p.ints p.content with
  | fail => simp [hd] at h
  | die => simp [hd] at h
  | ub => simp [hd] at h
  | ok ints =>
    simp only [hd] at h
    cases hf : fp { p with ints := ints } with
    | none => simp [hf] at h
    | some w =>
      cases hs : sha { p with ints := ints } with
      | none => simp [hf, hs] at h
      | some s =>
        simp only [hf, hs, Made.ok.injEq, Prod.mk.injEq] at h
        obtain ⟨rfl, rfl⟩ := h
        refine ⟨rfl, rfl, rfl, rfl, rfl, ?_, ?_, by rw [hf]; rfl, by rw [hs]; rfl, ?_, ?_, ?_⟩
        · rw [hf]
          exact c82_stored w [("SHA".toList, s)] (strip attrs) (by simp)
        · rw [hs]; simp [findSha]
        · intro fns hc
          rw [hc, declare] at hd
          cases hd; rfl
        · rw [List.filter_cons_of_neg (by simp [Other]), List.filter_cons_of_neg (by simp [Other]), strip_eq, List.filter_filter]
          simp
        · rw [List.filter_cons_of_pos (by simp [Other]), List.filter_cons_of_pos (by simp [Other]), strip_eq, List.filter_filter]
          simp

theorem mk_of {φ : Type} {fp : Inst φ → Option W64} {sha : Inst φ → Option Name} {attrs : List (Name × Name)} {p : Inst φ}
    {ints : List Name} {w : W64} {s : Name} (hd : declare p.outs p.ints p.content = .ok ints)
    (hw : fp { p with ints := ints } = some w) (hs : sha { p with ints := ints } = some s) :
    mkPinst fp sha attrs p = .ok (("SHA".toList, s) :: ("FP".toList, showLong w) :: strip attrs, { p with ints := ints }) := by
  simp only [mkPinst, hd, hw, hs]

/-- **An instance is made** whenever no two instances inside state the same assertion and the signatures are defined. -/
theorem c84_makes {φ : Type} (fp : Inst φ → Option W64) (sha : Inst φ → Option Name) (attrs : List (Name × Name)) (p : Inst φ)
    (hk : ∀ ks, p.content = .hier ks → ks.length ≤ 2147483629 ∧ (∀ k ∈ ks, Connected k) ∧ Distinct ks)
    (hf : ∀ ints, (fp { p with ints := ints }).isSome) (hs : ∀ ints, (sha { p with ints := ints }).isSome) :
    ∃ as q, mkPinst fp sha attrs p = .ok (as, q) := by
  have hd : ∃ ints, declare p.outs p.ints p.content = .ok ints := by
    cases hc : p.content with
    | leaf fns => exact ⟨_, rfl⟩
    | hier ks =>
      obtain ⟨h1, h2, h3⟩ := hk ks hc
      rcases c84_internals (φ := φ) p.outs p.ints ks h1 h2 with ⟨_, h⟩ | ⟨new, e, _⟩
      · exact absurd h3 h
      · exact ⟨_, e⟩
  obtain ⟨ints, hd⟩ := hd
  obtain ⟨w, hw⟩ := Option.isSome_iff_exists.1 (hf ints)
  obtain ⟨s, hs⟩ := Option.isSome_iff_exists.1 (hs ints)
  exact ⟨_, _, mk_of hd hw hs⟩

/-- **Making again.**  Making an instance from the parts of one that was made changes nothing. -/
theorem c84_again {φ : Type} (fp : Inst φ → Option W64) (sha : Inst φ → Option Name) (attrs as : List (Name × Name)) (p q : Inst φ)
    (hk : ∀ ks, p.content = .hier ks → ks.length ≤ 2147483629 ∧ ∀ k ∈ ks, Connected k)
    (h : mkPinst fp sha attrs p = .ok (as, q)) : mkPinst fp sha as q = .ok (as, q) := by
  have hq : declare q.outs q.ints q.content = .ok q.ints := by
    obtain ⟨_, _, ho, hc, hd, _⟩ := c84_made fp sha attrs as p q h
    rw [ho, hc]
    cases hp : p.content with
    | leaf fns => rfl
    | hier ks =>
      obtain ⟨h1, h2⟩ := hk ks hp
      rw [hp] at hd
      rcases c84_internals (φ := φ) p.outs p.ints ks h1 h2 with ⟨e, _⟩ | ⟨new, e, hD, _, hn⟩
      · rw [e] at hd; exact absurd hd (by simp)
      · rw [e] at hd
        have hd := Made.ok.inj hd
        rcases c84_internals (φ := φ) p.outs q.ints ks h1 h2 with ⟨_, e'⟩ | ⟨new', e', _, _, hn'⟩
        · exact absurd hD e'
        · have : new' = [] := by
            rw [List.eq_nil_iff_forall_not_mem]
            intro n hx
            obtain ⟨u1, u2, u3⟩ := (hn' n).1 hx
            rw [← hd, List.mem_append, not_or] at u2
            exact u2.1 ((hn n).2 ⟨u1, u2.2, u3⟩)
          rw [e', this]; rfl
  unfold mkPinst at h ⊢
  rw [hq]
  cases hd : declare p.outs p.ints p.content with
  | fail => simp [hd] at h
  | die => simp [hd] at h
  | ub => simp [hd] at h
  | ok ints =>
    simp only [hd] at h
    cases hf : fp { p with ints := ints } with
    | none => simp [hf] at h
    | some w =>
      cases hs : sha { p with ints := ints } with
      | none => simp [hf, hs] at h
      | some s =>
        simp only [hf, hs, Made.ok.injEq, Prod.mk.injEq] at h
        obtain ⟨rfl, rfl⟩ := h
        simp only [hf, hs]
        have h1 : strip (("SHA".toList, s) :: ("FP".toList, showLong w) :: strip attrs) = strip attrs := by
          rw [strip, if_pos (by simp [isSignature]), strip, if_pos (by simp [isSignature])]
          refine strip_other fun a ha => ?_
          rw [strip_eq, List.mem_filter] at ha
          simpa using ha.2
        rw [h1]

theorem Distinct.perm {ks ks' : List Kid} (h : ks.Perm ks') (d : Distinct ks) : Distinct ks' :=
  h.pairwise d fun h n h1 h2 => h n h2 h1

/-- **Order, as far as it is true.**  Listing the instances in another order changes neither whether there is a failure, nor
which signals are internal, nor the fingerprint. -/
theorem c84_order_partial (pr : Nat → W64) (sort : List Nat → List Nat) (hs : Sorts sort) (sha : Inst Fn → Option Name)
    (attrs : List (Name × Name)) (nm : Name) (inps outs : List Pin) (ints : List Name) (ks ks' : List Kid)
    (hl : ks.length ≤ 2147483629) (hc : ∀ k ∈ ks, Connected k) (h : ks.Perm ks') :
    (mkPinst (fpInst pr sort) sha attrs ⟨nm, inps, outs, ints, .hier ks⟩ = .fail ↔
      mkPinst (fpInst pr sort) sha attrs ⟨nm, inps, outs, ints, .hier ks'⟩ = .fail) ∧
    ∀ as bs p q, mkPinst (fpInst pr sort) sha attrs ⟨nm, inps, outs, ints, .hier ks⟩ = .ok (as, p) →
      mkPinst (fpInst pr sort) sha attrs ⟨nm, inps, outs, ints, .hier ks'⟩ = .ok (bs, q) →
      p.ints.Perm q.ints ∧ findSignature as = findSignature bs := by
  have hl' : ks'.length ≤ 2147483629 := by rw [← h.length_eq]; exact hl
  have hc' : ∀ k ∈ ks', Connected k := fun k hk => hc k (h.mem_iff.2 hk)
  have hm : ∀ n, Undeclared outs ints ks n ↔ Undeclared outs ints ks' n := by
    intro n
    simp only [Undeclared, h.mem_iff]
  constructor
  · have key : ∀ (l : List Kid), l.length ≤ 2147483629 → (∀ k ∈ l, Connected k) →
        (mkPinst (fpInst pr sort) sha attrs ⟨nm, inps, outs, ints, .hier l⟩ = .fail ↔ ¬ Distinct l) := by
      intro l h1 h2
      rcases c84_internals (φ := Fn) outs ints l h1 h2 with ⟨e, d⟩ | ⟨new, e, d, _⟩
      · simp only [mkPinst, e, d, not_false_iff]
      · simp only [mkPinst, e, d, not_true, iff_false]
        intro hx
        split at hx
        · simp at hx
        · split at hx <;> simp at hx
    rw [key ks hl hc, key ks' hl' hc']
    exact ⟨fun a b => a (b.perm h.symm), fun a b => a (b.perm h)⟩
  · intro as bs p q hp hq
    obtain ⟨p1, p2, p3, p4, p5, p6, _⟩ := c84_made _ _ _ _ _ _ hp
    obtain ⟨q1, q2, q3, q4, q5, q6, _⟩ := c84_made _ _ _ _ _ _ hq
    simp only at p1 p2 p3 p4 p5 q1 q2 q3 q4 q5
    have hi : p.ints.Perm q.ints := by
      rcases c84_internals (φ := Fn) outs ints ks hl hc with ⟨e, _⟩ | ⟨new, e, _, nd, hn⟩
      · rw [e] at p5; exact absurd p5 (by simp)
      rcases c84_internals (φ := Fn) outs ints ks' hl' hc' with ⟨e', _⟩ | ⟨new', e', _, nd', hn'⟩
      · rw [e'] at q5; exact absurd q5 (by simp)
      rw [e] at p5
      rw [e'] at q5
      rw [← Made.ok.inj p5, ← Made.ok.inj q5]
      refine List.Perm.append_right _ ?_
      rw [List.perm_ext_iff_of_nodup nd nd']
      intro n
      rw [hn, hn', hm]
    refine ⟨hi, ?_⟩
    rw [p6, q6]
    have sz : ∀ l : List Name, SameSizes l l := fun l => ⟨l, .refl _, List.forall₂_same.2 fun _ _ => rfl⟩
    refine c82_structure pr sort hs p q ⟨?_, ?_, ⟨q.ints, hi, List.forall₂_same.2 fun _ _ => rfl⟩, ?_⟩
    · rw [p2, q2]; exact sz _
    · rw [p3, q3]; exact sz _
    · rw [p4, q4]
      exact .hier ⟨ks', h, List.forall₂_same.2 fun k _ => ⟨rfl, sz _, sz _, sz _⟩⟩

/-! ### Violations -/

/-- An instance that states an assertion. -/
def asserting (n : String) : Kid := ⟨"a".toList, [("SHA".toList, "0".toList)], [], [⟨"o".toList, [n.toList]⟩], []⟩

/-- A circuit of instances. -/
def holding (ints : List Name) (ks : List Kid) : Inst T := ⟨"p".toList, [], [], ints, .hier ks⟩

theorem holding_text (sortT : List T → List T) (sortK : List Key → List Key) (ints : List Name) {ks : List Kid} {l : List Key}
    (h : keys ks = some l) : shaText sortT sortK (holding ints ks) = some (headText (holding ints ks) ++ kidText 1 (sortK l)) := by
  simp only [shaText, contentText, holding, h, Option.map_some]

/-- **Violated: order.**  The signature depends on the order of the instances if two names of assertions have the same hash,
as `assert__y` and `assert__z` have: the internals are declared in the order of the table. -/
theorem c84_order_violated (sortT : List T → List T) (sortK : List Key → List Key)
    (junk : List Sha.Byte) (fp : Inst T → Option W64) (hf : ∀ p, (fp p).isSome) :
    ∃ ks ks' as bs p q ps qs, ks.Perm ks' ∧
      mkPinst fp (shaInst sortT sortK junk) [] (holding [] ks) = .ok (as, p) ∧
      mkPinst fp (shaInst sortT sortK junk) [] (holding [] ks') = .ok (bs, q) ∧
      shaText sortT sortK p = some ps ∧ shaText sortT sortK q = some qs ∧ ps.flatten ≠ qs.flatten := by
  have d1 : declare [] [] (.hier [asserting "assert__y", asserting "assert__z"] : Content T) =
      .ok ["assert__y".toList, "assert__z".toList] := by decide +kernel
  have d2 : declare [] [] (.hier [asserting "assert__z", asserting "assert__y"] : Content T) =
      .ok ["assert__z".toList, "assert__y".toList] := by decide +kernel
  have k1 : keys [asserting "assert__y", asserting "assert__z"] = some [⟨"a".toList, "0".toList, [], [["assert__y".toList]]⟩,
      ⟨"a".toList, "0".toList, [], [["assert__z".toList]]⟩] := by decide +kernel
  have k2 : keys [asserting "assert__z", asserting "assert__y"] = some [⟨"a".toList, "0".toList, [], [["assert__z".toList]]⟩,
      ⟨"a".toList, "0".toList, [], [["assert__y".toList]]⟩] := by decide +kernel
  obtain ⟨w1, hw1⟩ := Option.isSome_iff_exists.1 (hf (holding ["assert__y".toList, "assert__z".toList]
    [asserting "assert__y", asserting "assert__z"]))
  obtain ⟨w2, hw2⟩ := Option.isSome_iff_exists.1 (hf (holding ["assert__z".toList, "assert__y".toList]
    [asserting "assert__z", asserting "assert__y"]))
  have t1 := holding_text sortT sortK ["assert__y".toList, "assert__z".toList] k1
  have t2 := holding_text sortT sortK ["assert__z".toList, "assert__y".toList] k2
  refine ⟨[asserting "assert__y", asserting "assert__z"], [asserting "assert__z", asserting "assert__y"], _, _, _, _, _, _,
    .swap _ _ _, mk_of (p := holding [] [asserting "assert__y", asserting "assert__z"]) d1 hw1
      (by rw [shaInst]; exact (congrArg (Option.map _) t1).trans (Option.map_some ..)),
    mk_of (p := holding [] [asserting "assert__z", asserting "assert__y"]) d2 hw2
      (by rw [shaInst]; exact (congrArg (Option.map _) t2).trans (Option.map_some ..)), t1, t2, ?_⟩
  intro e
  simp [headText, holding] at e

/-- **Violated: bits of vectors.**  Names are compared as texts: an assertion that is a bit of an internal vector is declared
again. -/
theorem c84_bits_violated : ∃ (v new : Name) (k : Kid), declare [] [v] (.hier [k] : Content T) = .ok [new, v] ∧
    ∃ bits, Vec.mdExpand v = some bits ∧ new ∈ bits :=
  ⟨"assert__x[1:0]".toList, "assert__x[0]".toList, asserting "assert__x[0]", by decide +kernel,
    ["assert__x[1]".toList, "assert__x[0]".toList], by decide +kernel, by decide⟩

/-! ### Examples -/

/-- Two instances with assertions, one of which is declared. -/
example : declare [] ["assert__y".toList] (.hier [asserting "assert__y", asserting "assert__z"] : Content T) =
    .ok ["assert__z".toList, "assert__y".toList] := by decide +kernel

/-- The same assertion twice. -/
example : declare [] [] (.hier [asserting "assert__y", asserting "assert__y"] : Content T) = .fail := by decide +kernel

/-- They are connected, and one has assertions. -/
example (n : String) (s : Nat) (h : Vec.mdSize n.toList = some s) : Connected (asserting n) := by
  intro q hq
  simp only [asserting, List.cons.injEq, and_true] at hq
  exact ⟨n.toList, [], s, by rw [← hq], h⟩
example : Asserts (asserting "assert__y") "assert__y".toList :=
  ⟨"o".toList, [], rfl, by decide +kernel, List.infix_iff_prefix_suffix.2 ⟨"assert__y".toList, by decide, List.suffix_refl _⟩⟩

/-- An instance that replaces its signatures. -/
example : mkPinst (fun _ => some 5) (fun p => some p.name) [("FP".toList, "1".toList), ("x".toList, "y".toList), ("SHA".toList, "2".toList)]
      (holding [] [asserting "assert__y"]) =
    .ok ([("SHA".toList, "p".toList), ("FP".toList, "5".toList), ("x".toList, "y".toList)],
      holding ["assert__y".toList] [asserting "assert__y"]) := by
  rw [mk_of (p := holding [] [asserting "assert__y"]) (ints := ["assert__y".toList]) (w := 5) (s := "p".toList)
    (by decide +kernel) rfl rfl]
  rfl

end Voss.Inst
