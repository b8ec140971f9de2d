import Verif.Io.SaveSpec
import Verif.Io.ScanLemmas
/-
Lemmas for saving and loading of graphs.
-/
namespace Voss.Io.Save
open Voss.Arbi

/-! ### Texts of items -/

theorem numeral_ne (b n : Nat) (hb : 2 ≤ b) (hb2 : b ≤ 36) : numeral b n ≠ [] := by
  intro h
  have := numeral_pos b n hb hb2
  rw [h] at this; simp at this

theorem numeral_chars (b n : Nat) (hb : 2 ≤ b) (P : Char → Prop) (h0 : P '0') (h : ∀ d < b, P (dchar d)) :
    ∀ c ∈ numeral b n, P c := by
  intro c hc
  by_cases hn : n = 0
  · subst hn; simp [numeral] at hc; subst hc; exact h0
  · rw [numeral_eq _ _ hn] at hc
    unfold digs at hc
    simp only [List.mem_reverse, List.mem_map] at hc
    obtain ⟨d, hd, rfl⟩ := hc
    exact h d (Nat.digits_lt_base (by omega) hd)

theorem numeral10 (n : Nat) : ∀ c ∈ numeral 10 n, c.isDigit = true ∧ isSpace c = false :=
  numeral_chars 10 n (by omega) _ (by decide) (by decide)

theorem numeral16 (n : Nat) : ∀ c ∈ numeral 16 n, isHex c = true ∧ isSpace c = false :=
  numeral_chars 16 n (by omega) _ (by decide +kernel) (by decide +kernel)

theorem takeWhile_app {α : Type} (P : α → Bool) (a : List α) (c : α) (b : List α) (ha : ∀ x ∈ a, P x = true) (hc : P c = false) :
    (a ++ c :: b).takeWhile P = a ∧ (a ++ c :: b).dropWhile P = c :: b := by
  induction a with
  | nil => simp [hc]
  | cons x a ih =>
    have hx := ha x (by simp)
    have := ih (fun y hy => ha y (by simp [hy]))
    simp [hx, this.1, this.2]

theorem skip_of_head {c : Char} {s : List Char} (h : isSpace c = false) : skip (c :: s) = c :: s := by
  unfold skip; rw [List.dropWhile_cons]; simp [h]

theorem skip_nl {s : List Char} : skip ('\n' :: s) = skip s := by
  unfold skip; rw [List.dropWhile_cons]; simp [show isSpace '\n' = true by decide]

/-- The tags are not blank. -/
def GoodTok : Tok → Prop
  | .tag c => isSpace c = false
  | _ => True

theorem tok_head (t : Tok) (h : GoodTok t) (s : List Char) : skip (t.text ++ s) = t.text ++ s := by
  cases t with
  | ptr p => exact skip_of_head (by decide)
  | tag c => exact skip_of_head h
  | num n =>
    unfold Tok.text
    cases e : numeral 10 n with
    | nil => exact absurd e (numeral_ne _ _ (by omega) (by omega))
    | cons c r =>
      have hc : isSpace c = false := (numeral10 n c (by rw [e]; simp)).2
      simp only [e, List.cons_append]
      exact skip_of_head hc

theorem text_skip (l : List Tok) (h : ∀ t ∈ l, GoodTok t) : skip (text l) = text l := by
  cases l with
  | nil => rfl
  | cons t l =>
    unfold text
    rw [List.flatMap_cons]
    exact tok_head t (h t (by simp)) _

theorem text_append (a b : List Tok) : text (a ++ b) = text a ++ text b := by unfold text; simp

theorem text_cons (t : Tok) (b : List Tok) : text (t :: b) = t.text ++ text b := by unfold text; simp

theorem rdNum_text (n : Nat) (l : List Tok) (h : ∀ t ∈ l, GoodTok t) : rdNum (text (.num n :: l)) = some (n, text l) := by
  rw [text_cons]
  unfold rdNum
  rw [tok_head (.num n) trivial]
  have := takeWhile_app Char.isDigit (numeral 10 n) '\n' (text l) (fun c hc => (numeral10 n c hc).1) (by decide)
  have e : Tok.text (.num n) ++ text l = numeral 10 n ++ '\n' :: text l := by unfold Tok.text; simp
  simp only [e, this.1, this.2]
  rw [if_neg (numeral_ne _ _ (by omega) (by omega)), readNat_numeral 10 (by omega) (by omega), skip_nl, text_skip _ h]
  rfl

theorem rdPtr_text (n : Nat) (l : List Tok) (h : ∀ t ∈ l, GoodTok t) : rdPtr (text (.ptr n :: l)) = some (n, text l) := by
  rw [text_cons]
  unfold rdPtr
  rw [tok_head (.ptr n) trivial]
  have := takeWhile_app isHex (numeral 16 n) '\n' (text l) (fun c hc => (numeral16 n c hc).1) (by decide)
  have e : Tok.text (.ptr n) ++ text l = '0' :: 'x' :: (numeral 16 n ++ '\n' :: text l) := by unfold Tok.text; simp
  simp only [e, this.1, this.2]
  rw [if_neg (numeral_ne _ _ (by omega) (by omega)), readNat_numeral 16 (by omega) (by omega), skip_nl, text_skip _ h]
  rfl

theorem rdTag_text (c : Char) (l : List Tok) : rdTag (text (.tag c :: l)) = some (c, text l) := by
  rw [text_cons]; rfl

/-! ### Tables -/

theorem intern_spec {α : Type} [DecidableEq α] (l : List α) (x : α) :
    l <+: (intern l x).2 ∧ (intern l x).2[(intern l x).1]? = some x := by
  unfold intern
  by_cases h : x ∈ l
  · rw [if_pos h]
    refine ⟨List.prefix_rfl, ?_⟩
    have := List.idxOf_lt_length_of_mem h
    rw [List.getElem?_eq_getElem this, List.getElem_idxOf]
  · rw [if_neg h]
    exact ⟨List.prefix_append _ _, by simp⟩

theorem prefix_get {α : Type} {a b : List α} (h : a <+: b) {i : Nat} {x : α} (hi : a[i]? = some x) : b[i]? = some x := by
  obtain ⟨t, rfl⟩ := h
  have : i < a.length := by
    rw [List.getElem?_eq_some_iff] at hi
    exact hi.1
  rw [List.getElem?_append_left this, hi]

theorem readInt_render (z : Int) : readInt (renderInt 10 z) = some z := by
  unfold renderInt
  by_cases h : z < 0
  · rw [if_pos h]
    unfold readInt
    simp only [readNat_numeral 10 (by omega) (by omega) z.natAbs]
    exact congrArg some (by omega : -(z.natAbs : Int) = z)
  · rw [if_neg h]
    have hd := numeral10 z.natAbs
    have hr := readNat_numeral 10 (by omega) (by omega) z.natAbs
    cases e : numeral 10 z.natAbs with
    | nil => exact absurd e (numeral_ne _ _ (by omega) (by omega))
    | cons c r =>
      rw [e] at hd hr
      have hc := hd c (by simp)
      unfold readInt
      split
      · rename_i he
        simp only [List.cons.injEq] at he
        rw [he.1] at hc
        exact absurd hc.1 (by decide)
      · rw [hr]
        simp only [Option.map_some, Int.ofNat_eq_natCast]
        congr 1; omega

/-- The tables that the reader uses hold what the writer put into its tables. -/
structure TOK (RB RE : Nat → Nat → Prop) (T : Tables) (w : WS) : Prop where
  strs : ∀ (i : Nat) (b : Bool) (s : List Char), w.strs[i]? = some (b, s) → T.strs[i]? = some s
  bools : Back RB w.bools T.bools
  bexprs : Back RE w.bexprs T.bexprs

/-- The writer only adds. -/
structure WMono (w w' : WS) : Prop where
  seen : ∀ x ∈ w.seen, x ∈ w'.seen
  strs : w.strs <+: w'.strs
  bools : w.bools <+: w'.bools
  bexprs : w.bexprs <+: w'.bexprs

theorem WMono.refl (w : WS) : WMono w w := ⟨fun _ h => h, List.prefix_rfl, List.prefix_rfl, List.prefix_rfl⟩

theorem WMono.trans {a b c : WS} (h1 : WMono a b) (h2 : WMono b c) : WMono a c :=
  ⟨fun x h => h2.seen x (h1.seen x h), h1.strs.trans h2.strs, h1.bools.trans h2.bools, h1.bexprs.trans h2.bexprs⟩

theorem TOK.mono {RB RE : Nat → Nat → Prop} {T : Tables} {w w' : WS} (h : TOK RB RE T w') (m : WMono w w') : TOK RB RE T w :=
  ⟨fun i b s hi => h.strs i b s (prefix_get m.strs hi), fun i f hi => h.bools i f (prefix_get m.bools hi),
   fun i f hi => h.bexprs i f (prefix_get m.bexprs hi)⟩

/-! ### Records -/

theorem kindOf_tag (k : Kind) : kindOf k.tag = some k := by cases k <;> rfl

/-- Nodes that the reader knows. -/
def Known (M : Mem) (nd : Node) : Prop := leafOK M nd = true ∧ ∀ s, nd ≠ .var s

/-- What is read from what `record` wrote. -/
structure RecOK (RB RE : Nat → Nat → Prop) (M : Mem) (w w' : WS) (nd : Node) (ts : List Tok) : Prop where
  out : w'.out = w.out ++ ts
  good : ∀ t ∈ ts, GoodTok t
  seen : w'.seen = w.seen
  mono : WMono w w'
  read : ∀ T M0 rest, TOK RB RE T w' → (∀ t ∈ rest, GoodTok t) → (∀ n ∈ stdNames, ∃ id, (id, n) ∈ M0.streams) →
    ∃ sh, ((rdTag (text (ts ++ rest))).bind fun ci => rdRecord T M0 ci.1 ci.2) = some (sh, text rest) ∧
      sh.arity = (kids M nd).length ∧
      ∀ M1 (m : Nat → Nat), M1.streams = M0.streams → M0.nref ≤ M1.nref → M0.ncache ≤ M1.ncache →
        (∀ k ∈ kids M nd, m k ≠ 0) →
        ∃ nd' M2, build M1 sh ((kids M nd).map m) = some (nd', M2) ∧ Same RB RE M M0 M2 m nd nd' ∧
          M2.heap = M1.heap ∧ M2.streams = M1.streams ∧ M1.nref ≤ M2.nref ∧ M1.ncache ≤ M2.ncache ∧
          (∀ v < M1.nref, M2.refs v = M1.refs v) ∧ (∀ v, nd' = .ref v → v = M1.nref ∧ M2.nref = M1.nref + 1)

theorem record_ok (RB RE : Nat → Nat → Prop) (M : Mem) (w w' : WS) (nd : Node) (hk : Known M nd)
    (h : record M w nd = some w') : ∃ ts, RecOK RB RE M w w' nd ts := by
  have gt : ∀ (c : Char) (l : List Tok), isSpace c = false → (∀ t ∈ l, GoodTok t) → ∀ t ∈ Tok.tag c :: l, GoodTok t := by
    intro c l hc hl t ht
    rcases List.mem_cons.mp ht with rfl | ht
    · exact hc
    · exact hl t ht
  have gn : ∀ n : Nat, ∀ t ∈ [Tok.num n], GoodTok t := by
    intro n t ht; simp at ht; subst ht; trivial
  have bnil : ∀ (sh : Shape) (M1 : Mem) (nd' : Node) (M0 : Mem) (m : Nat → Nat), build M1 sh [] = some (nd', M1) →
      Same RB RE M M0 M1 m nd nd' → (∀ v, nd' ≠ .ref v) →
      ∃ nd' M2, build M1 sh [] = some (nd', M2) ∧ Same RB RE M M0 M2 m nd nd' ∧
          M2.heap = M1.heap ∧ M2.streams = M1.streams ∧ M1.nref ≤ M2.nref ∧ M1.ncache ≤ M2.ncache ∧
          (∀ v < M1.nref, M2.refs v = M1.refs v) ∧ (∀ v, nd' = .ref v → v = M1.nref ∧ M2.nref = M1.nref + 1) := by
    intro sh M1 nd' M0 m hb hs hr
    exact ⟨nd', M1, hb, hs, rfl, rfl, Nat.le_refl _, Nat.le_refl _, fun _ _ => rfl, fun v e => absurd e (hr v)⟩
  have strstep : ∀ (T : Tables) (s : List Char) (w1 : WS) (rest : List Tok), TOK RB RE T (w1.str s) → (∀ t ∈ rest, GoodTok t) →
      rdStr T (text (.num (intern w1.strs (false, s)).1 :: rest)) = some (s, text rest) := by
    intro T s w1 rest hT hg
    unfold rdStr
    rw [rdNum_text _ _ hg]
    simp only
    rw [hT.strs _ false s (intern_spec w1.strs (false, s)).2]
    rfl
  have smono : ∀ (s : List Char) (w1 : WS), WMono w1 (w1.str s) := fun s w1 =>
    ⟨fun _ h => h, (intern_spec w1.strs (false, s)).1, List.prefix_rfl, List.prefix_rfl⟩
  have emono : ∀ (w1 : WS) l, WMono w1 (w1.emit l) := fun w1 l => ⟨fun _ h => h, List.prefix_rfl, List.prefix_rfl, List.prefix_rfl⟩
  cases nd with
  | app l r =>
    simp only [record, Option.some.injEq] at h; subst h
    refine ⟨[.tag 'A'], rfl, gt _ _ (by decide) (by simp), rfl, emono _ _, ?_⟩
    intro T M0 rest hT hg hstd
    refine ⟨.app, by rw [List.singleton_append, rdTag_text]; rfl, rfl, ?_⟩
    intro M1 m h1 h2 h3 h4
    have n1 := h4 l (by simp [kids]); have n2 := h4 r (by simp [kids])
    refine ⟨.app (m l) (m r), M1, ?_, .app _ _, rfl, rfl, Nat.le_refl _, Nat.le_refl _, fun _ _ => rfl, (fun v e => by cases e)⟩
    simp only [kids, List.map_cons, List.map_nil, build]
    rw [if_neg (by simp; exact ⟨fun e => n1 e.symm, fun e => n2 e.symm⟩)]
  | cons l r =>
    simp only [record, Option.some.injEq] at h; subst h
    refine ⟨[.tag 'C'], rfl, gt _ _ (by decide) (by simp), rfl, emono _ _, ?_⟩
    intro T M0 rest hT hg hstd
    refine ⟨.cons, by rw [List.singleton_append, rdTag_text]; rfl, rfl, ?_⟩
    intro M1 m h1 h2 h3 h4
    have n1 := h4 l (by simp [kids]); have n2 := h4 r (by simp [kids])
    refine ⟨.cons (m l) (m r), M1, ?_, .cons _ _, rfl, rfl, Nat.le_refl _, Nat.le_refl _, fun _ _ => rfl, (fun v e => by cases e)⟩
    simp only [kids, List.map_cons, List.map_nil, build]
    rw [if_neg (by simp; exact ⟨fun e => n1 e.symm, fun e => n2 e.symm⟩)]
  | ref v =>
    simp only [record, Option.some.injEq] at h; subst h
    refine ⟨[.tag 'R'], rfl, gt _ _ (by decide) (by simp), rfl, emono _ _, ?_⟩
    intro T M0 rest hT hg hstd
    refine ⟨.ref, by rw [List.singleton_append, rdTag_text]; rfl, rfl, ?_⟩
    intro M1 m h1 h2 h3 h4
    have n1 := h4 (M.refs v) (by simp [kids])
    refine ⟨.ref M1.nref, { M1 with refs := fun u => if u = M1.nref then m (M.refs v) else M1.refs u, nref := M1.nref + 1 },
      ?_, .ref _ _ h2 (Nat.lt_succ_self _) (by simp), rfl, rfl, Nat.le_succ _, Nat.le_refl _, ?_, ?_⟩
    · simp only [kids, List.map_cons, List.map_nil, build]
      rw [if_neg (by simp; exact fun e => n1 e.symm)]
    · intro u hu
      simp only
      rw [if_neg (by omega)]
    · intro u e; cases e; exact ⟨rfl, rfl⟩
  | cache c =>
    simp only [record, Option.some.injEq] at h; subst h
    refine ⟨[.tag '='], rfl, gt _ _ (by decide) (by simp), rfl, emono _ _, ?_⟩
    intro T M0 rest hT hg hstd
    refine ⟨.cache, by rw [List.singleton_append, rdTag_text]; rfl, rfl, ?_⟩
    intro M1 m h1 h2 h3 h4
    exact ⟨.cache M1.ncache, { M1 with ncache := M1.ncache + 1 }, rfl, .cache _ _ h3 (Nat.lt_succ_self _),
      rfl, rfl, Nat.le_refl _, Nat.le_succ _, fun _ _ => rfl, (fun v e => by cases e)⟩
  | nil =>
    simp only [record, Option.some.injEq] at h; subst h
    refine ⟨[.tag '0'], rfl, gt _ _ (by decide) (by simp), rfl, emono _ _, ?_⟩
    intro T M0 rest hT hg hstd
    refine ⟨.nil, by rw [List.singleton_append, rdTag_text]; rfl, rfl, ?_⟩
    intro M1 m h1 h2 h3 h4
    exact bnil _ _ .nil M0 m rfl .nil (by simp)
  | extapi n =>
    simp only [record, Option.some.injEq] at h; subst h
    refine ⟨[.tag 'X', .num n], rfl, gt _ _ (by decide) (gn _), rfl, emono _ _, ?_⟩
    intro T M0 rest hT hg hstd
    refine ⟨.extapi n, ?_, rfl, ?_⟩
    · rw [List.cons_append, rdTag_text]
      simp [rdRecord, rdNum_text _ _ hg]
    intro M1 m h1 h2 h3 h4
    exact bnil _ _ (.extapi n) M0 m rfl (.extapi n) (by simp)
  | prim n =>
    simp only [record, Option.some.injEq] at h; subst h
    refine ⟨[.tag 'P', .num n], rfl, gt _ _ (by decide) (gn _), rfl, emono _ _, ?_⟩
    intro T M0 rest hT hg hstd
    refine ⟨.prim n, ?_, rfl, ?_⟩
    · rw [List.cons_append, rdTag_text]
      simp [rdRecord, rdNum_text _ _ hg]
    intro M1 m h1 h2 h3 h4
    exact bnil _ _ (.prim n) M0 m rfl (.prim n) (by simp)
  | ext c => exact absurd hk.1 (by simp [leafOK])
  | var s => exact absurd rfl (hk.2 s)
  | int z =>
    simp only [record, Option.some.injEq] at h; subst h
    refine ⟨[.tag 'I', .num w.strs.length], by simp [WS.int, WS.emit], gt _ _ (by decide) (gn _), rfl,
      ⟨fun _ h => h, List.prefix_append _ _, List.prefix_rfl, List.prefix_rfl⟩, ?_⟩
    intro T M0 rest hT hg hstd
    refine ⟨.int z, ?_, rfl, ?_⟩
    · have : rdStr T (text (.num w.strs.length :: rest)) = some (renderInt 10 z, text rest) := by
        unfold rdStr
        rw [rdNum_text _ _ hg]
        simp only
        rw [hT.strs w.strs.length true (renderInt 10 z) (by simp [WS.int, WS.emit])]
        rfl
      rw [List.cons_append, rdTag_text]
      simp [rdRecord, this, readInt_render]
    intro M1 m h1 h2 h3 h4
    exact bnil _ _ (.int z) M0 m rfl (.int z) (by simp)
  | str s =>
    simp only [record, Option.some.injEq] at h; subst h
    refine ⟨[.tag 'S', .num (intern w.strs (false, s)).1], by simp [WS.str, WS.emit], gt _ _ (by decide) (gn _), rfl, (emono w _).trans (smono s _), ?_⟩
    intro T M0 rest hT hg hstd
    refine ⟨.str s, ?_, rfl, ?_⟩
    · have := strstep T s _ rest hT hg
      simp only [WS.emit] at this
      rw [List.cons_append, rdTag_text]
      simp [rdRecord, this]
    intro M1 m h1 h2 h3 h4
    exact bnil _ _ (.str s) M0 m rfl (.str s) (by simp)
  | text k s =>
    simp only [record, Option.some.injEq] at h; subst h
    refine ⟨[.tag k.tag, .num (intern w.strs (false, s)).1], by simp [WS.str, WS.emit], gt _ _ (by cases k <;> decide) (gn _), rfl, (emono w _).trans (smono s _), ?_⟩
    intro T M0 rest hT hg hstd
    refine ⟨.text k s, ?_, rfl, ?_⟩
    · have := strstep T s _ rest hT hg
      simp only [WS.emit] at this
      rw [List.cons_append, rdTag_text]
      cases k <;> simp [rdRecord, this, Kind.tag, kindOf]
    intro M1 m h1 h2 h3 h4
    exact bnil _ _ (.text k s) M0 m rfl (.text k s) (by simp)
  | bool f =>
    simp only [record, Option.some.injEq] at h; subst h
    refine ⟨[.tag 'B', .num (intern w.bools f).1], by simp [WS.bool, WS.emit], gt _ _ (by decide) (gn _), rfl,
      ⟨fun _ h => h, List.prefix_rfl, (intern_spec w.bools f).1, List.prefix_rfl⟩, ?_⟩
    intro T M0 rest hT hg hstd
    obtain ⟨f', e, hR⟩ := hT.bools _ f (intern_spec w.bools f).2
    refine ⟨.bool f', ?_, rfl, ?_⟩
    · rw [List.cons_append, rdTag_text]
      simp [rdRecord, rdNum_text _ _ hg, e]
    intro M1 m h1 h2 h3 h4
    exact bnil _ _ (.bool f') M0 m rfl (.bool f f' hR) (by simp)
  | bexpr f =>
    simp only [record, Option.some.injEq] at h; subst h
    refine ⟨[.tag 'E', .num (intern w.bexprs f).1], by simp [WS.bexpr, WS.emit], gt _ _ (by decide) (gn _), rfl,
      ⟨fun _ h => h, List.prefix_rfl, List.prefix_rfl, (intern_spec w.bexprs f).1⟩, ?_⟩
    intro T M0 rest hT hg hstd
    obtain ⟨f', e, hR⟩ := hT.bexprs _ f (intern_spec w.bexprs f).2
    refine ⟨.bexpr f', ?_, rfl, ?_⟩
    · rw [List.cons_append, rdTag_text]
      simp [rdRecord, rdNum_text _ _ hg, e]
    intro M1 m h1 h2 h3 h4
    exact bnil _ _ (.bexpr f') M0 m rfl (.bexpr f f' hR) (by simp)
  | file id =>
    have hok := hk.1
    simp only [leafOK] at hok
    simp only [record] at h
    cases e : nameOf M id with
    | none => rw [e] at hok; simp at hok
    | some n =>
      rw [e] at hok h
      simp only [Option.some.injEq, decide_eq_true_eq] at h hok; subst h
      refine ⟨[.tag 'f', .num (intern w.strs (false, n)).1], by simp [WS.str, WS.emit], gt _ _ (by decide) (gn _), rfl, (emono w _).trans (smono n _), ?_⟩
      intro T M0 rest hT hg hstd
      obtain ⟨id0, hid⟩ := hstd n hok
      have hf : ∃ id', openStream M0 n = some id' ∧ (id', n) ∈ M0.streams := by
        unfold openStream
        cases ef : M0.streams.find? (·.2 = n) with
        | none =>
          have := List.find?_eq_none.mp ef (id0, n) hid
          simp at this
        | some x =>
          have h1 := List.find?_some ef
          have h2 := List.mem_of_find?_eq_some ef
          simp only [decide_eq_true_eq] at h1
          refine ⟨x.1, rfl, ?_⟩
          rw [← h1]; exact h2
      obtain ⟨id', ho, hm⟩ := hf
      refine ⟨.file id', ?_, rfl, ?_⟩
      · have := strstep T n _ rest hT hg
        simp only [WS.emit] at this
        rw [List.cons_append, rdTag_text]
        simp [rdRecord, this, ho]
      intro M1 m h1 h2 h3 h4
      exact bnil _ _ (.file id') M0 m rfl (.file id id' n e hm) (by simp)

end Voss.Io.Save
