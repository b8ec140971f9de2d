import Verif.Io.SaveTop
/-
C64: a value that was saved is loaded as a copy of it.
-/
namespace Voss.Io.Save
open Voss.Arbi

/-- C64 (partial: no variables, no external objects, and no text or number of more than 130000 characters).  A
graph whose nodes can be saved is saved, and loading the archive, by a type with the same signature, makes a copy
of it: one new node per node, with the same contents.  The other nodes, references and streams of the loading
program are left alone. -/
theorem c64_roundtrip_partial (RB RE : Nat → Nat → Prop) (M : Mem) (p : Nat) (D : List Nat) (hG : Graph M p D)
    (hs : ∀ x nd, Reach M p x → M.heap x = some nd → leafOK M nd = true)
    (hv : ∀ x s, Reach M p x → M.heap x ≠ some (.var s))
    (hl : ∀ x nd s, Reach M p x → M.heap x = some nd → s ∈ texts M nd → s.length ≤ strBlock)
    (sig : List Char) (hsig : GoodSig sig) :
    ∃ A, (∀ fuel, D.length < fuel → save M sig p fuel = .ok (some A)) ∧
      ∀ (M0 : Mem) (alloc : Nat → Nat) (redex : Nat), Ready M0 alloc redex →
      ∀ bools bexprs, Back RB A.bools bools → Back RE A.bexprs bexprs →
      ∀ fuel, D.length < fuel → ∃ M1 m, load M0 alloc sig A bools bexprs redex fuel = .ok (some M1) ∧
        Copy RB RE M p M0 M1 redex m ∧ RefsApart M p M1 m := by
  obtain ⟨w, hw, hsave⟩ := save_ok sig p D hG hs
  refine ⟨_, hsave, ?_⟩
  intro M0 alloc redex hR bools bexprs hB hE fuel hf
  have hshort : (w.strs.map (·.2)).map (app []) = w.strs.map (·.2) := by
    have hfr := writePtr_texts p _ _ _ _ .refl (fun b s h => by simp at h) (hw _ hf)
    rw [List.map_map]
    refine List.map_congr_left (fun x hx => ?_)
    obtain ⟨y, nd, h1, h2, h3⟩ := hfr x.1 x.2 hx
    exact app_short _ (hl y nd x.2 h1 h2 h3)
  have hT : TOK RB RE ⟨w.strs.map (·.2) ++ [[]], bools, bexprs⟩ w := by
    refine ⟨fun i b s h => ?_, hB, hE⟩
    refine prefix_get (List.prefix_append _ _) ?_
    rw [List.getElem?_map, h]; rfl
  obtain ⟨q, r, m, e, nd, hn, hc, ha⟩ := load_ok p D hG
    (fun x nd hx e => ⟨hs x nd hx e, fun s he => hv x s hx (by rw [e, he])⟩) w fuel (hw _ hf) M0 redex hR hT
  refine ⟨put r.mem redex nd, m, ?_, hc, ha⟩
  unfold load
  rw [if_pos ((sigOK_iff sig sig hsig hsig.line).mpr List.prefix_rfl)]
  simp only [rdStrings_all, hshort, e, hn]

/-- C64 for references (partial: no two nodes are the same variable): the copies are the same variable exactly if
the originals are. -/
theorem c64_refs_partial (M : Mem) (p : Nat) (M1 : Mem) (m : Nat → Nat) (ha : RefsApart M p M1 m)
    (hu : ∀ x y v, Reach M p x → Reach M p y → M.heap x = some (.ref v) → M.heap y = some (.ref v) → x = y) :
    RefsKept M p M1 m := by
  intro x y v w v' w' hx hy ex ey ex' ey'
  constructor
  · rintro rfl
    have := ha x y v' hx hy ex' ey'
    subst this
    rw [ex, Option.some.injEq, Node.ref.injEq] at ey
    exact ey
  · rintro rfl
    have := hu x y v hx hy ex ey
    subst this
    rw [ex', Option.some.injEq, Node.ref.injEq] at ey'
    exact ey'

/-- Violated in general: two nodes that are the same variable become different variables. -/
theorem c64_alias_violated (M : Mem) (p : Nat) (M1 : Mem) (m : Nat → Nat) (ha : RefsApart M p M1 m)
    (x y v v' w' : Nat) (hne : x ≠ y) (hx : Reach M p x) (hy : Reach M p y) (ex : M.heap x = some (.ref v))
    (ey : M.heap y = some (.ref v)) (ex' : M1.heap (m x) = some (.ref v')) (ey' : M1.heap (m y) = some (.ref w')) :
    v' ≠ w' ∧ ¬ RefsKept M p M1 m := by
  have h : v' ≠ w' := fun h => hne (ha x y v' hx hy ex' (by rw [ey', h]))
  exact ⟨h, fun hk => h ((hk x y v v v' w' hx hy ex ey ex' ey').mpr rfl)⟩

/-- C64: a graph with a node that cannot be saved (an external object, or a stream other than `stdout`, `stderr`
and `stdinfo`) is refused. -/
theorem c64_refused (M : Mem) (p : Nat) (D : List Nat) (hG : Graph M p D) (x : Nat) (nd : Node) (hx : Reach M p x)
    (e : M.heap x = some nd)
    (hb : (∃ c, nd = .ext c) ∨ ∃ id n, nd = .file id ∧ nameOf M id = some n ∧ n ∉ ["stdout".toList, "stderr".toList, "stdinfo".toList])
    (sig : List Char) (fuel : Nat) (hf : D.length < fuel) : save M sig p fuel = .ok none := by
  obtain ⟨b, seen, e1, h1⟩ := canSave_iff p D hG fuel hf
  have hbad : leafOK M nd = false := by
    rcases hb with ⟨c, rfl⟩ | ⟨id, n, rfl, hn, hm⟩
    · rfl
    · simp only [leafOK, hn, stdNames]
      simpa using hm
  have : b = false := by
    cases b with
    | false => rfl
    | true => have := h1.mp rfl x nd hx e; rw [hbad] at this; simp at this
  subst this
  unfold save
  rw [e1]

/-- C64: an archive is loaded only by a type whose signature is the beginning of the one in the archive. -/
theorem c64_signature_partial (M : Mem) (sig : List Char) (hsig : GoodSig sig) (p fuel : Nat) (A : Archive)
    (hA : save M sig p fuel = .ok (some A)) (M0 : Mem) (alloc : Nat → Nat) (sig' : List Char) (hn : '\n' ∉ sig')
    (hp : ¬ sig' <+: sig) (bools bexprs : List Nat) (redex fuel' : Nat) :
    load M0 alloc sig' A bools bexprs redex fuel' = .ok none := by
  have : A.sig = '0' :: '\n' :: sig ++ ['\n'] := by
    unfold save at hA
    split at hA <;> try simp at hA
    split at hA <;> simp only [Except.ok.injEq, Option.some.injEq, reduceCtorEq] at hA
    rw [← hA]; rfl
  unfold load
  rw [this, if_neg (by rw [sigOK_iff sig sig' hsig hn]; exact hp)]

/-- The file of strings by itself: every string of at most 130000 characters is read back at its index. -/
theorem c64_strings_partial (l : List (List Char)) (h : ∀ s ∈ l, s.length ≤ 130000) (i : Nat) (s : List Char) (e : l[i]? = some s) :
    ∃ l', rdStrings ((stringsText l).length + 1) (stringsText l) = some l' ∧ l'[i]? = some s := by
  refine ⟨_, rdStrings_all l, prefix_get (List.prefix_append _ _) ?_⟩
  rw [List.getElem?_map, e]
  simp only [Option.map_some]
  rw [app_short s (h s (List.mem_of_getElem? e))]

/-! ### A graph with a cycle, a reference, a stream and a shared node -/

def exMem : Mem where
  heap := fun x => match x with
    | 1 => some (.cons 2 6)
    | 2 => some (.app 3 4)
    | 3 => some (.prim 7)
    | 4 => some (.ref 0)
    | 5 => some (.str "a\n1".toList)
    | 6 => some (.cons 7 1)
    | 7 => some (.app 8 5)
    | 8 => some (.file 9)
    | _ => none
  refs := fun _ => 5
  nref := 1
  ncache := 0
  streams := [(9, "stdout".toList)]

def exNew : Mem where
  heap := fun x => if x = 1 then some .nil else none
  refs := fun _ => 0
  nref := 3
  ncache := 2
  streams := [(2, "stdin".toList), (3, "stdout".toList), (4, "stderr".toList), (5, "stdinfo".toList)]

theorem exNew_ready : Ready exNew (· + 100) 1 := by
  refine ⟨fun i j h => by simpa using h, fun i => by simp, fun i => by simp [exNew], by simp [exNew], ?_⟩
  intro n hn
  simp only [stdNames, List.mem_cons, List.not_mem_nil, or_false] at hn
  rcases hn with rfl | rfl | rfl
  exacts [⟨3, by simp [exNew]⟩, ⟨4, by simp [exNew]⟩, ⟨5, by simp [exNew]⟩]

theorem ex_reach (x : Nat) (h : Reach exMem 1 x) : x ∈ [1, 2, 3, 4, 5, 6, 7, 8] := by
  induction h with
  | refl => simp
  | step _ hnd hk ih =>
    simp only [List.mem_cons, List.not_mem_nil, or_false] at ih
    rcases ih with rfl | rfl | rfl | rfl | rfl | rfl | rfl | rfl <;>
      (simp only [exMem, Option.some.injEq] at hnd; subst hnd; simp [kids, exMem] at hk; try (rcases hk with rfl | rfl <;> simp))

example : ∃ A, (∀ fuel, 8 < fuel → save exMem "T=   A::T ".toList 1 fuel = .ok (some A)) ∧
    ∀ fuel, 8 < fuel → ∃ M1 m, load exNew (· + 100) "T=   A::T ".toList A [] [] 1 fuel = .ok (some M1) ∧
        Copy (fun _ _ => False) (fun _ _ => False) exMem 1 exNew M1 1 m ∧ RefsKept exMem 1 M1 m := by
  have cases8 : ∀ (P : Nat → Prop), P 1 → P 2 → P 3 → P 4 → P 5 → P 6 → P 7 → P 8 → ∀ x, Reach exMem 1 x → P x := by
    intro P h1 h2 h3 h4 h5 h6 h7 h8 x hx
    have := ex_reach x hx
    simp only [List.mem_cons, List.not_mem_nil, or_false] at this
    rcases this with rfl | rfl | rfl | rfl | rfl | rfl | rfl | rfl <;> assumption
  have hu : ∀ x y v, Reach exMem 1 x → Reach exMem 1 y → exMem.heap x = some (.ref v) → exMem.heap y = some (.ref v) → x = y := by
    intro x y v hx hy
    refine cases8 (fun x => exMem.heap x = some (.ref v) → exMem.heap y = some (.ref v) → x = y) ?_ ?_ ?_ ?_ ?_ ?_ ?_ ?_ x hx <;>
      try (intro h; simp [exMem] at h)
    refine cases8 (fun y => exMem.heap y = some (.ref v) → 4 = y) ?_ ?_ ?_ ?_ ?_ ?_ ?_ ?_ y hy <;> (intro h; simp [exMem] at h ⊢)
  obtain ⟨A, h1, h2⟩ := c64_roundtrip_partial (fun _ _ => False) (fun _ _ => False) exMem 1 [1, 2, 3, 4, 5, 6, 7, 8]
    (fun x hx => ⟨ex_reach x hx, cases8 (fun x => x ≠ 0 ∧ ∃ nd, exMem.heap x = some nd) ⟨by decide, _, rfl⟩ ⟨by decide, _, rfl⟩ ⟨by decide, _, rfl⟩
      ⟨by decide, _, rfl⟩ ⟨by decide, _, rfl⟩ ⟨by decide, _, rfl⟩ ⟨by decide, _, rfl⟩ ⟨by decide, _, rfl⟩ x hx⟩)
    (fun x nd hx => cases8 (fun x => exMem.heap x = some nd → leafOK exMem nd = true) (by rintro ⟨⟩; rfl) (by rintro ⟨⟩; rfl)
      (by rintro ⟨⟩; rfl) (by rintro ⟨⟩; rfl) (by rintro ⟨⟩; rfl) (by rintro ⟨⟩; rfl) (by rintro ⟨⟩; rfl) (by rintro ⟨⟩; rfl) x hx)
    (fun x s hx => cases8 (fun x => exMem.heap x ≠ some (.var s)) (by rintro ⟨⟩) (by rintro ⟨⟩) (by rintro ⟨⟩) (by rintro ⟨⟩)
      (by rintro ⟨⟩) (by rintro ⟨⟩) (by rintro ⟨⟩) (by rintro ⟨⟩) x hx)
    (fun x nd s hx => cases8 (fun x => exMem.heap x = some nd → s ∈ texts exMem nd → s.length ≤ strBlock)
      (by rintro ⟨⟩; simp [texts]) (by rintro ⟨⟩; simp [texts]) (by rintro ⟨⟩; simp [texts]) (by rintro ⟨⟩; simp [texts])
      (by rintro ⟨⟩; simp [texts, strBlock]; rintro rfl; decide) (by rintro ⟨⟩; simp [texts]) (by rintro ⟨⟩; simp [texts])
      (by rintro ⟨⟩; simp [texts, nameOf, exMem, strBlock]; rintro rfl; decide) x hx)
    "T=   A::T ".toList ⟨by decide, by decide, by decide, by decide⟩
  refine ⟨A, h1, fun fuel hf => ?_⟩
  obtain ⟨M1, m, e, hc, ha⟩ := h2 exNew (· + 100) 1 exNew_ready [] [] (by
      have hb : ∃ A', save exMem "T=   A::T ".toList 1 9 = .ok (some A') ∧ A'.bools = [] := ⟨_, rfl, rfl⟩
      obtain ⟨A', e', e''⟩ := hb
      rw [h1 9 (by decide)] at e'
      cases e'
      rw [e'']; intro i f h; simp at h) (by
      have hb : ∃ A', save exMem "T=   A::T ".toList 1 9 = .ok (some A') ∧ A'.bexprs = [] := ⟨_, rfl, rfl⟩
      obtain ⟨A', e', e''⟩ := hb
      rw [h1 9 (by decide)] at e'
      cases e'
      rw [e'']; intro i f h; simp at h) fuel hf
  exact ⟨M1, m, e, hc, c64_refs_partial _ _ _ _ ha hu⟩

/-- A pair of two nodes that are the same reference. -/
def aliasMem : Mem where
  heap := fun x => match x with
    | 1 => some (.cons 2 3)
    | 2 => some (.ref 0)
    | 3 => some (.ref 0)
    | 4 => some .nil
    | _ => none
  refs := fun _ => 4
  nref := 1
  ncache := 0
  streams := []

/-- They come back as two references. -/
example : ∃ A M1 m v' w', save aliasMem ['T'] 1 5 = .ok (some A) ∧
    load exNew (· + 100) ['T'] A [] [] 1 5 = .ok (some M1) ∧
    Copy (fun _ _ => False) (fun _ _ => False) aliasMem 1 exNew M1 1 m ∧
    M1.heap (m 2) = some (.ref v') ∧ M1.heap (m 3) = some (.ref w') ∧ v' ≠ w' := by
  have reach : ∀ x, Reach aliasMem 1 x → x ∈ [1, 2, 3, 4] := by
    intro x h
    induction h with
    | refl => simp
    | step _ hnd hk ih =>
      simp only [List.mem_cons, List.not_mem_nil, or_false] at ih
      rcases ih with rfl | rfl | rfl | rfl <;>
        (simp only [aliasMem, Option.some.injEq] at hnd; subst hnd; simp [kids, aliasMem] at hk; try (rcases hk with rfl | rfl <;> simp))
  have r2 : Reach aliasMem 1 2 := .step (nd := .cons 2 3) .refl rfl (by simp [kids])
  have r3 : Reach aliasMem 1 3 := .step (nd := .cons 2 3) .refl rfl (by simp [kids])
  have cases4 : ∀ (P : Nat → Prop), P 1 → P 2 → P 3 → P 4 → ∀ x, Reach aliasMem 1 x → P x := by
    intro P h1 h2 h3 h4 x hx
    have := reach x hx
    simp only [List.mem_cons, List.not_mem_nil, or_false] at this
    rcases this with rfl | rfl | rfl | rfl <;> assumption
  obtain ⟨A, h1, h2⟩ := c64_roundtrip_partial (fun _ _ => False) (fun _ _ => False) aliasMem 1 [1, 2, 3, 4]
    (fun x hx => ⟨reach x hx, cases4 (fun x => x ≠ 0 ∧ ∃ nd, aliasMem.heap x = some nd) ⟨by decide, _, rfl⟩ ⟨by decide, _, rfl⟩
      ⟨by decide, _, rfl⟩ ⟨by decide, _, rfl⟩ x hx⟩)
    (fun x nd hx => cases4 (fun x => aliasMem.heap x = some nd → leafOK aliasMem nd = true) (by rintro ⟨⟩; rfl) (by rintro ⟨⟩; rfl)
      (by rintro ⟨⟩; rfl) (by rintro ⟨⟩; rfl) x hx)
    (fun x s hx => cases4 (fun x => aliasMem.heap x ≠ some (.var s)) (by rintro ⟨⟩) (by rintro ⟨⟩) (by rintro ⟨⟩) (by rintro ⟨⟩) x hx)
    (fun x nd s hx => cases4 (fun x => aliasMem.heap x = some nd → s ∈ texts aliasMem nd → s.length ≤ strBlock)
      (by rintro ⟨⟩; simp [texts]) (by rintro ⟨⟩; simp [texts]) (by rintro ⟨⟩; simp [texts]) (by rintro ⟨⟩; simp [texts]) x hx)
    ['T'] ⟨by decide, by decide, by decide, by decide⟩
  obtain ⟨M1, m, e, hc, ha⟩ := h2 exNew (· + 100) 1 exNew_ready [] [] (by
      have hb : ∃ A', save aliasMem ['T'] 1 5 = .ok (some A') ∧ A'.bools = [] := ⟨_, rfl, rfl⟩
      obtain ⟨A', e', e''⟩ := hb
      rw [h1 5 (by decide)] at e'
      cases e'
      rw [e'']; intro i f h; simp at h) (by
      have hb : ∃ A', save aliasMem ['T'] 1 5 = .ok (some A') ∧ A'.bexprs = [] := ⟨_, rfl, rfl⟩
      obtain ⟨A', e', e''⟩ := hb
      rw [h1 5 (by decide)] at e'
      cases e'
      rw [e'']; intro i f h; simp at h) 5 (by decide)
  obtain ⟨n2, e2, s2⟩ := hc.same 2 _ r2 rfl
  obtain ⟨n3, e3, s3⟩ := hc.same 3 _ r3 rfl
  cases s2 with
  | ref v v' a b c =>
    cases s3 with
    | ref w w' a b c =>
      exact ⟨A, M1, m, v', w', h1 5 (by decide), e, hc, e2, e3,
        (c64_alias_violated aliasMem 1 M1 m ha 2 3 0 v' w' (by decide) r2 r3 rfl rfl e2 e3).1⟩

/-! ### Violations -/

def oneMem (nd : Node) : Mem := ⟨fun x => if x = 1 then some nd else none, fun _ => 0, 0, 0, []⟩

/-- A variable is saved, but the archive cannot be loaded: the program stops. -/
theorem c64_var_violated (M0 : Mem) (alloc : Nat → Nat) (redex fuel : Nat) :
    ∃ A, save (oneMem (.var ['x'])) ['T'] 1 2 = .ok (some A) ∧
      load M0 alloc ['T'] A [] [] redex (fuel + 1) = .error .die := by
  refine ⟨_, rfl, ?_⟩
  have h : readPtr ⟨[app [] ['x'], []], [], []⟩ alloc (fuel + 1) ⟨text (.ptr 1 :: [.tag 'V', .num 0]), [], M0, 0⟩ = .error .die := by
    rw [readPtr, rdPtr_text _ _ (by simp [GoodTok]; decide)]
    simp only
    rw [if_neg (by decide)]
    simp only [List.lookup_nil, rdTag_text]
    simp [rdRecord, kindOf]
  unfold load
  rw [if_pos ((sigOK_iff ['T'] ['T'] ⟨by decide, by decide, by decide, by decide⟩ (by decide)).mpr List.prefix_rfl)]
  rw [rdStrings_all]
  simp only
  exact congrArg (fun z => match z with
    | Except.error e => Except.error e
    | .ok (q, r) => match RS.mem r |>.heap q with
      | none => .error Err.die
      | some nd => .ok (some (put r.mem redex nd))) h

theorem numeral_pow (k : Nat) : numeral 10 (10 ^ k) = '1' :: List.replicate k '0' := by
  rw [numeral_eq _ _ (by positivity)]
  induction k with
  | zero => decide +kernel
  | succ k ih =>
    rw [digs_step 10 _ (by omega) (by positivity)]
    have h1 : 10 ^ (k + 1) / 10 = 10 ^ k := by rw [Nat.pow_succ]; omega
    have h2 : 10 ^ (k + 1) % 10 = 0 := by rw [Nat.pow_succ]; omega
    rw [h1, h2, ih, List.replicate_succ', List.cons_append]
    rfl

/-- A number with more than 130000 digits is loaded as another number. -/
theorem c64_long_violated (k : Nat) (hk : 130000 ≤ k) (M0 : Mem) (alloc : Nat → Nat) (redex fuel : Nat) :
    ∃ A M1, save (oneMem (.int ((10 ^ k : Nat) : Int))) ['T'] 1 2 = .ok (some A) ∧
      load M0 alloc ['T'] A [] [] redex (fuel + 1) = .ok (some M1) ∧
      M1.heap redex = some (.int ((10 ^ 129999 : Nat) : Int)) := by
  have hrd : ∀ j, strBlock = j + 1 → renderInt 10 ((10 ^ j : Nat) : Int) = app [] (renderInt 10 ((10 ^ k : Nat) : Int)) := by
    intro j hj
    have hr : ∀ i, renderInt 10 ((10 ^ i : Nat) : Int) = '1' :: List.replicate i '0' := by
      intro i
      unfold renderInt
      rw [if_neg (Int.not_lt.mpr (Int.natCast_nonneg _)), Int.natAbs_natCast, numeral_pow]
    rw [hr, hr]
    unfold app
    simp only [List.nil_append, List.length_nil, Nat.sub_zero]
    rw [hj, List.take_succ_cons, List.take_replicate, Nat.min_eq_left]
    have : strBlock = 130000 := rfl
    omega
  have key : ∀ j, strBlock = j + 1 → ∃ r, readPtr ⟨[app [] (renderInt 10 ((10 ^ k : Nat) : Int)), []], [], []⟩ alloc (fuel + 1)
      ⟨text (.ptr 1 :: [.tag 'I', .num 0]), [], M0, 0⟩ = .ok (alloc 0, r) ∧
      r.mem.heap (alloc 0) = some (.int ((10 ^ j : Nat) : Int)) := by
    intro j hj
    have h1 : rdStr ⟨[app [] (renderInt 10 ((10 ^ k : Nat) : Int)), []], [], []⟩ (text [.num 0]) = some (renderInt 10 ((10 ^ j : Nat) : Int), []) := by
      unfold rdStr
      rw [rdNum_text _ _ (by simp), hrd j hj]
      rfl
    have h2 : ((rdTag (text [.tag 'I', .num 0])).bind fun ci => rdRecord ⟨[app [] (renderInt 10 ((10 ^ k : Nat) : Int)), []], [], []⟩ M0 ci.1 ci.2) =
        some (.int ((10 ^ j : Nat) : Int), []) := by
      rw [rdTag_text]
      simp only [Option.bind_some, rdRecord, h1]
      simp [readInt_render]
    refine ⟨⟨[], [(1, alloc 0)], put M0 (alloc 0) (.int ((10 ^ j : Nat) : Int)), 1⟩, ?_, ?_⟩
    · rw [readPtr, rdPtr_text _ _ (by simp [GoodTok]; decide)]
      simp only
      rw [if_neg (by decide)]
      simp only [List.lookup_nil, h2]
      rfl
    · simp [put]
  obtain ⟨r, h1, h2⟩ := key 129999 rfl
  refine ⟨_, put r.mem redex (.int ((10 ^ 129999 : Nat) : Int)), rfl, ?_, ?_⟩
  · unfold load
    rw [if_pos ((sigOK_iff ['T'] ['T'] ⟨by decide, by decide, by decide, by decide⟩ (by decide)).mpr List.prefix_rfl)]
    rw [rdStrings_all]
    simp only
    refine (congrArg (fun z => match z with
      | Except.error e => Except.error e
      | .ok (q, r) => match RS.mem r |>.heap q with
        | none => .error Err.die
        | some nd => .ok (some (put r.mem redex nd))) h1).trans ?_
    simp only [h2]
  · show (if redex = redex then _ else _) = _
    rw [if_pos rfl]

/-- An archive of a type with more constructors is accepted, and gives a value that is not of the type. -/
theorem c64_prefix_violated (name : List Char) (c : List Char × List Char) (cs more : List (List Char × List Char))
    (h : GoodSig (signature name (c :: cs ++ more))) :
    sigOK ('0' :: '\n' :: signature name (c :: cs ++ more) ++ ['\n']) (signature name (c :: cs)) = true := by
  have hp : signature name (c :: cs) <+: signature name (c :: cs ++ more) := by
    unfold signature
    simp only [List.cons_append, List.flatMap_append]
    refine ⟨more.flatMap fun c => "| ".toList ++ c.1 ++ "::".toList ++ c.2 ++ " ".toList, ?_⟩
    simp [List.append_assoc]
  rw [sigOK_iff _ _ h (fun hm => h.line (hp.subset hm))]
  exact hp

example : GoodSig (signature ['T'] [(['A'], ['T']), (['B'], "int->T".toList)]) := ⟨by decide, by decide, by decide, by decide⟩

end Voss.Io.Save
