import Verif.Bexpr.TotalLemmas
import Verif.Bexpr.SaveModel
/- Reading back what was written. -/
namespace Voss.Bexpr

/-! ### Numbers -/

theorem digitsVal_snoc (xs : Bytes) (d : BitVec 8) : digitsVal (xs ++ [d]) = 10 * digitsVal xs + (d.toNat - 48) := by
  unfold digitsVal; rw [List.foldl_append]; rfl

theorem toNat_digit {n : Nat} (h : n < 10) : (BitVec.ofNat 8 (48 + n)).toNat = 48 + n := by
  rw [BitVec.toNat_ofNat]; exact Nat.mod_eq_of_lt (by omega)

theorem decF_spec : ∀ fuel n, n < fuel → digitsVal (decF fuel n) = n ∧ decF fuel n ≠ [] ∧
    ∀ b ∈ decF fuel n, isDigit b = true := by
  intro fuel
  induction fuel with
  | zero => intro n h; omega
  | succ fuel ih =>
    intro n h
    simp only [decF]
    have hd : isDigit (BitVec.ofNat 8 (48 + n % 10)) = true := by
      unfold isDigit; rw [toNat_digit (by omega)]; simp; omega
    by_cases h1 : n < 10
    · simp only [if_pos h1, List.nil_append]
      refine ⟨?_, by simp, ?_⟩
      · simp only [digitsVal, List.foldl_cons, List.foldl_nil]
        rw [toNat_digit (by omega)]; omega
      · intro b hb
        rw [List.mem_singleton] at hb
        rw [hb]; exact hd
    · simp only [if_neg h1]
      obtain ⟨a1, a2, a3⟩ := ih (n / 10) (by omega)
      refine ⟨?_, by simp, ?_⟩
      · rw [digitsVal_snoc, a1, toNat_digit (by omega)]; omega
      · intro b hb
        rcases List.mem_append.1 hb with hb | hb
        · exact a3 b hb
        · rw [List.mem_singleton] at hb
          rw [hb]; exact hd

theorem dec_spec (n : Nat) : digitsVal (dec n) = n ∧ dec n ≠ [] ∧ ∀ b ∈ dec n, isDigit b = true :=
  decF_spec (n + 1) n (by omega)

theorem takeWhile_app {p : BitVec 8 → Bool} {xs rest : Bytes} (hx : ∀ b ∈ xs, p b = true)
    (hr : ∀ b, rest.head? = some b → p b = false) :
    (xs ++ rest).takeWhile p = xs ∧ (xs ++ rest).dropWhile p = rest := by
  induction xs with
  | nil =>
    cases rest with
    | nil => exact ⟨rfl, rfl⟩
    | cons b bs =>
      have := hr b rfl
      simp [List.takeWhile, List.dropWhile, this]
  | cons x xs ih =>
    have h1 := hx x (by simp)
    have := ih fun b hb => hx b (by simp [hb])
    simp only [List.cons_append, List.takeWhile_cons, List.dropWhile_cons, h1, if_true]
    exact ⟨by rw [this.1], this.2⟩

theorem digit_range {b : BitVec 8} (h : isDigit b = true) : 48 ≤ b.toNat ∧ b.toNat ≤ 57 := by
  unfold isDigit at h
  simpa using h

theorem digit_not_ws {b : BitVec 8} (h : isDigit b = true) : isWs b = false := by
  have := digit_range h
  unfold isWs
  have h2 : (b == 32) = false := by
    rw [beq_eq_false_iff_ne]
    intro he; subst he; simp at this
  rw [h2]
  simp; omega

theorem skipWs_of {bs : Bytes} (h : ∀ b, bs.head? = some b → isWs b = false) : skipWs bs = bs := by
  unfold skipWs
  cases bs with
  | nil => rfl
  | cons b bs => simp [h b rfl]

/-- A number written with `%d` is read back. -/
theorem scanInt_dec {n : Nat} (hn : n < 2 ^ 31) {rest : Bytes} (hr : ∀ b, rest.head? = some b → isDigit b = false) :
    scanInt (dec n ++ rest) = .ok n rest := by
  obtain ⟨h1, h2, h3⟩ := dec_spec n
  generalize dec n = ds at *
  cases ds with
  | nil => exact absurd rfl h2
  | cons d ds =>
    have hd := h3 d (by simp)
    have hdr := digit_range hd
    have hws : skipWs (d :: ds ++ rest) = d :: ds ++ rest := skipWs_of fun b hb => by
      simp only [List.cons_append, List.head?_cons, Option.some.injEq] at hb
      subst hb; exact digit_not_ws hd
    obtain ⟨t1, t2⟩ := takeWhile_app (p := isDigit) h3 hr
    unfold scanInt
    simp only [hws]
    have hm : takeSign (d :: ds ++ rest) = (false, d :: ds ++ rest) := by
      simp only [List.cons_append, takeSign]
      rw [if_neg (by intro h; rw [h] at hdr; simp at hdr), if_neg (by intro h; rw [h] at hdr; simp at hdr)]
    rw [hm]
    simp only [t1, t2, h1]
    rw [if_neg (by simp), if_neg (by simp only [Bool.false_eq_true, if_false]; omega)]
    rfl

/-! ### Lines -/

/-- Names that survive: not empty, no white space, no zero byte, short enough for the buffer. -/
def NameOK (n : Name) : Prop := n ≠ [] ∧ (∀ b ∈ n, isWs b = false ∧ b ≠ 0) ∧ n.length < 1024

def LineOK : Line → Prop
  | .v n => NameOK n
  | .a il ir => il.natAbs < 2 ^ 31 ∧ ir.natAbs < 2 ^ 31
  | .r i => i.natAbs < 2 ^ 31

def signChar (i : Int) : BitVec 8 := if i < 0 then 45 else 43

def Line.rd : Line → Rd
  | .v n => .v n
  | .a il ir => .a (signChar il) il.natAbs (signChar ir) ir.natAbs
  | .r i => .r (signChar i) i.natAbs

theorem signChar_ws (i : Int) : isWs (signChar i) = false := by
  unfold signChar; split <;> rfl

theorem fmtInt_eq (i : Int) : fmtInt i = signChar i :: dec i.natAbs := rfl

theorem scanLine_bytes {l : Line} (hl : LineOK l) {rest : Bytes} (hr : ∀ b, rest.head? = some b → isWs b = false) :
    scanLine (l.bytes ++ rest) = .ok l.rd rest := by
  have hend : ∀ b : BitVec 8, (10 :: rest : Bytes).head? = some b → isDigit b = false := by
    intro b hb; simp only [List.head?_cons, Option.some.injEq] at hb; subst hb; rfl
  have hskip : skipWs (10 :: rest) = rest := by
    have : skipWs (10 :: rest) = skipWs rest := by unfold skipWs; simp [List.dropWhile_cons, isWs]
    rw [this, skipWs_of hr]
  have hsp : ∀ (xs : Bytes), (∀ b, xs.head? = some b → isWs b = false) → skipWs (32 :: xs) = xs := by
    intro xs h
    have : skipWs (32 :: xs) = skipWs xs := by unfold skipWs; simp [List.dropWhile_cons, isWs]
    rw [this, skipWs_of h]
  cases l with
  | v n =>
    obtain ⟨h1, h2, h3⟩ := hl
    have e : Line.bytes (.v n) ++ rest = 118 :: 32 :: (n ++ 10 :: rest) := by simp [Line.bytes]
    rw [e]
    simp only [scanLine, if_true, scanStr]
    rw [hsp (n ++ 10 :: rest) (by
      intro b hb
      cases n with
      | nil => exact absurd rfl h1
      | cons x xs =>
        simp only [List.cons_append, List.head?_cons, Option.some.injEq] at hb
        subst hb; exact (h2 _ (by simp)).1)]
    obtain ⟨t1, t2⟩ := takeWhile_app (p := fun b => !isWs b) (xs := n) (rest := 10 :: rest)
      (fun b hb => by simp [(h2 b hb).1])
      (fun b hb => by simp only [List.head?_cons, Option.some.injEq] at hb; subst hb; rfl)
    rw [t1, t2, if_neg h1, if_neg (by omega)]
    simp only [Scan.bind, hskip, Line.rd]
    have : n.takeWhile (fun b => b != 0) = n := by
      have := (takeWhile_app (p := fun b : BitVec 8 => b != 0) (xs := n) (rest := [])
        (fun b hb => by simpa using (h2 b hb).2) (by simp)).1
      rwa [List.append_nil] at this
    rw [this]
  | a il ir =>
    obtain ⟨h1, h2⟩ := hl
    have e : Line.bytes (.a il ir) ++ rest =
        97 :: 32 :: signChar il :: (dec il.natAbs ++ 32 :: signChar ir :: (dec ir.natAbs ++ 10 :: rest)) := by
      simp [Line.bytes, fmtInt_eq]
    rw [e]
    simp only [scanLine]
    rw [if_neg (by decide), if_pos trivial]
    rw [hsp (signChar il :: _) (by intro b hb; simp only [List.head?_cons, Option.some.injEq] at hb; subst hb; exact signChar_ws il)]
    simp only [scanChar, Scan.bind]
    rw [scanInt_dec h1 (by intro b hb; simp only [List.head?_cons, Option.some.injEq] at hb; subst hb; rfl)]
    simp only
    rw [hsp (signChar ir :: _) (by intro b hb; simp only [List.head?_cons, Option.some.injEq] at hb; subst hb; exact signChar_ws ir)]
    simp only
    rw [scanInt_dec h2 hend]
    simp only [hskip, Line.rd]
  | r i =>
    have e : Line.bytes (.r i) ++ rest = 114 :: 32 :: signChar i :: (dec i.natAbs ++ 10 :: rest) := by
      simp [Line.bytes, fmtInt_eq]
    rw [e]
    simp only [scanLine]
    rw [if_neg (by decide), if_neg (by decide), if_pos trivial]
    rw [hsp (signChar i :: _) (by intro b hb; simp only [List.head?_cons, Option.some.injEq] at hb; subst hb; exact signChar_ws i)]
    simp only [scanChar, Scan.bind]
    rw [scanInt_dec hl hend]
    simp only [hskip, Line.rd]

/-- The effect of a list of lines. -/
def execLines (c : Cfg) : List Line → St → List Edge → List Edge → Option (St × List Edge × List Edge)
  | [], s, work, res => some (s, work, res)
  | l :: ls, s, work, res => do
    let (s, work, res) ← execRd c s work res l.rd
    execLines c ls s work res

theorem bytes_head (l : Line) (rest : Bytes) : ∀ b, (l.bytes ++ rest).head? = some b → isWs b = false := by
  intro b hb
  cases l <;> (simp [Line.bytes] at hb; subst hb; rfl)

theorem lines_head (ls : List Line) : ∀ b, (ls.flatMap Line.bytes).head? = some b → isWs b = false := by
  cases ls with
  | nil => intro b hb; simp at hb
  | cons l ls => rw [List.flatMap_cons]; exact bytes_head l _

theorem bytes_len (l : Line) : 0 < l.bytes.length := by cases l <;> simp [Line.bytes]

theorem loadLoop_lines (c : Cfg) (ls : List Line) : ∀ (fuel : Nat) (s : St) (work res : List Edge),
    (∀ l ∈ ls, LineOK l) → (ls.flatMap Line.bytes).length < fuel →
    loadLoop c fuel (ls.flatMap Line.bytes) s work res =
      (execLines c ls s work res).map fun x => .ok x.1 x.2.2 := by
  induction ls with
  | nil =>
    intro fuel s work res _ hf
    cases fuel with
    | zero => omega
    | succ fuel => rfl
  | cons l ls ih =>
    intro fuel s work res hok hf
    cases fuel with
    | zero => omega
    | succ fuel =>
      have hl := bytes_len l
      rw [List.flatMap_cons] at hf ⊢
      rw [List.length_append] at hf
      simp only [loadLoop]
      rw [if_neg (by
        intro h
        have := congrArg List.length h
        rw [List.length_append] at this
        simp only [List.length_nil] at this
        omega)]
      rw [scanLine_bytes (hok l (by simp)) (lines_head ls)]
      simp only [execLines, Option.bind_eq_bind]
      cases execRd c s work res l.rd with
      | none => rfl
      | some x =>
        obtain ⟨s1, w1, r1⟩ := x
        simp only [Option.bind_some]
        exact ih fuel s1 w1 r1 (fun l hl => hok l (by simp [hl])) (by omega)

theorem execLines_append (c : Cfg) (l1 l2 : List Line) : ∀ (s : St) (work res : List Edge),
    execLines c (l1 ++ l2) s work res = (execLines c l1 s work res).bind fun x => execLines c l2 x.1 x.2.1 x.2.2 := by
  induction l1 with
  | nil => intro s work res; rfl
  | cons l l1 ih =>
    intro s work res
    simp only [List.cons_append, execLines, Option.bind_eq_bind]
    cases execRd c s work res l.rd with
    | none => rfl
    | some x =>
      simp only [Option.bind_some]
      exact ih _ _ _

theorem scanLit_self (cs rest : Bytes) : scanLit cs (cs ++ rest) = .ok () rest := by
  induction cs with
  | nil => rfl
  | cons c cs ih => simp [scanLit, ih]

/-- Loading a file with well-formed lines performs them. -/
theorem loadBexprs_lines (c : Cfg) (s : St) (k : Nat) (hk : k < 2 ^ 31) (ls : List Line) (hok : ∀ l ∈ ls, LineOK l) :
    loadBexprs c s (header ++ dec k ++ [10] ++ ls.flatMap Line.bytes) =
      (execLines c ls s [bF, bT] []).map fun x => .ok x.1 x.2.2 := by
  have e : header ++ dec k ++ [10] ++ ls.flatMap Line.bytes =
      header.dropLast ++ (32 :: (dec k ++ 10 :: ls.flatMap Line.bytes)) := by simp [header]
  rw [e]
  unfold loadBexprs
  rw [scanLit_self]
  simp only [Scan.bind]
  have h1 : skipWs (32 :: (dec k ++ 10 :: ls.flatMap Line.bytes)) = dec k ++ 10 :: ls.flatMap Line.bytes := by
    have : skipWs (32 :: (dec k ++ 10 :: ls.flatMap Line.bytes)) = skipWs (dec k ++ 10 :: ls.flatMap Line.bytes) := by
      unfold skipWs; simp [List.dropWhile_cons, isWs]
    rw [this]
    refine skipWs_of fun b hb => ?_
    obtain ⟨-, h2, h3⟩ := dec_spec k
    cases hd : dec k with
    | nil => exact absurd hd h2
    | cons d ds =>
      rw [hd] at hb h3
      simp only [List.cons_append, List.head?_cons, Option.some.injEq] at hb
      subst hb
      exact digit_not_ws (h3 _ (by simp))
  rw [h1, scanInt_dec hk (by intro b hb; simp only [List.head?_cons, Option.some.injEq] at hb; subst hb; rfl)]
  simp only
  have h2 : skipWs (10 :: ls.flatMap Line.bytes) = ls.flatMap Line.bytes := by
    have : skipWs (10 :: ls.flatMap Line.bytes) = skipWs (ls.flatMap Line.bytes) := by
      unfold skipWs; simp [List.dropWhile_cons, isWs]
    rw [this, skipWs_of (lines_head ls)]
  rw [h2]
  exact loadLoop_lines c ls _ s _ _ hok (by omega)

/-! ### Saving -/

/-- Work buffer and table belong together: what was saved for a node of `s` is, in `t`, its function. -/
structure SaveOK (s t : St) (work : List Edge) (tbl : SaveTbl) (cnt : Nat) : Prop where
  len : work.length = cnt
  c0 : work[0]? = some bF
  c1 : work[1]? = some bT
  tbl : ∀ p ∈ tbl, ∃ f e, Den s p.1 f ∧ work[p.2]? = some e ∧ Means t e f

theorem SaveOK.grow {s t t' : St} {work : List Edge} {tbl : SaveTbl} {cnt : Nat} (h : SaveOK s t work tbl cnt)
    (hg : Grow t t') : SaveOK s t' work tbl cnt :=
  ⟨h.len, h.c0, h.c1, fun p hp => by
    obtain ⟨f, e, a, b, d⟩ := h.tbl p hp
    exact ⟨f, e, a, b, hg.means d⟩⟩

theorem get_push {work : List Edge} {e x : Edge} {i : Nat} (h : work[i]? = some x) : (work ++ [e])[i]? = some x := by
  obtain ⟨hlt, _⟩ := List.getElem?_eq_some_iff.1 h
  rw [List.getElem?_append_left hlt]; exact h

theorem SaveOK.push {s t : St} {work : List Edge} {tbl : SaveTbl} {cnt i : Nat} {e : Edge} {f : Fn}
    (h : SaveOK s t work tbl cnt) (hd : Den s i f) (hm : Means t e f) :
    SaveOK s t (work ++ [e]) ((i, cnt) :: tbl) (cnt + 1) := by
  refine ⟨by simp [h.len], get_push h.c0, get_push h.c1, fun p hp => ?_⟩
  rcases List.mem_cons.1 hp with rfl | hp
  · exact ⟨f, e, hd, by rw [← h.len]; simp, hm⟩
  · obtain ⟨f', e', a, b, d⟩ := h.tbl p hp
    exact ⟨f', e', a, get_push b, d⟩

theorem pick_signed {work : List Edge} {neg : Bool} {k : Nat} {e : Edge} (h : work[k]? = some e) (hk : neg = true → 0 < k) :
    pick work (signChar (signed neg k)) ((signed neg k).natAbs : Int) = some (e.xorNeg neg) := by
  cases neg with
  | false =>
    simp only [signed, signChar, pick, Bool.false_eq_true, if_false]
    rw [if_neg (by omega), if_neg (by omega)]
    simp [h, Edge.xorNeg]
  | true =>
    have := hk rfl
    have h1 : (signed true k).natAbs = k := by simp [signed]
    have h2 : signed true k < 0 := by simp only [signed, if_true]; omega
    rw [h1]
    unfold signChar pick
    rw [if_pos h2, if_neg (by omega)]
    simp [h, Edge.xorNeg]

theorem execRd_work {c : Cfg} {rd : Rd} {s s' : St} {work work' res res' : List Edge}
    (h : execRd c s work res rd = some (s', work', res')) {i : Nat} {x : Edge} (hx : work[i]? = some x) :
    work'[i]? = some x := by
  cases rd with
  | v n => cases h; exact get_push hx
  | a sl pl sr pr =>
    simp only [execRd, Option.bind_eq_bind, Option.bind_eq_some_iff] at h
    obtain ⟨_, _, _, _, _, _, h⟩ := h
    cases h; exact get_push hx
  | r sr pr =>
    simp only [execRd, Option.bind_eq_bind, Option.bind_eq_some_iff] at h
    obtain ⟨_, _, h⟩ := h
    cases h; exact hx

theorem execLines_work {c : Cfg} (ls : List Line) : ∀ {s s' : St} {work work' res res' : List Edge},
    execLines c ls s work res = some (s', work', res') → ∀ {i : Nat} {x : Edge}, work[i]? = some x →
    work'[i]? = some x := by
  induction ls with
  | nil => intro s s' work work' res res' h i x hx; cases h; exact hx
  | cons l ls ih =>
    intro s s' work work' res res' h i x hx
    simp only [execLines, Option.bind_eq_bind, Option.bind_eq_some_iff] at h
    obtain ⟨⟨s1, w1, r1⟩, h1, h2⟩ := h
    exact ih h2 (execRd_work h1 hx)

theorem pick_mono {c : Cfg} {ls : List Line} {s s' : St} {work work' res res' : List Edge}
    (h : execLines c ls s work res = some (s', work', res')) {b : BitVec 8} {p : Int} {r : Edge}
    (hp : pick work b p = some r) : pick work' b p = some r := by
  unfold pick at hp ⊢
  split at hp
  · cases hp
  · rename_i h0
    rw [if_neg h0]
    rw [Option.map_eq_some_iff] at hp ⊢
    obtain ⟨e, h1, h2⟩ := hp
    exact ⟨e, execLines_work ls h h1, h2⟩

/-- Performing lines: defined with the stated result, or the constant could be a candidate for a merge. -/
def Runs (c : Cfg) (t : St) (work res : List Edge) (ls : List Line) (Q : St → List Edge → Prop) : Prop :=
  (∃ t' work', execLines c ls t work res = some (t', work', res) ∧ Inv t' ∧ Grow t t' ∧ (Safe c t → Safe c t') ∧
    Q t' work') ∨ (execLines c ls t work res = none ∧ ¬ Safe c t)

theorem Runs.append {c : Cfg} {t : St} {work res : List Edge} {l1 l2 : List Line} {Q R : St → List Edge → Prop}
    (h1 : Runs c t work res l1 Q) (h2 : ∀ t' work', Inv t' → Grow t t' → Q t' work' → Runs c t' work' res l2 R) :
    Runs c t work res (l1 ++ l2) R := by
  unfold Runs
  rw [execLines_append]
  rcases h1 with ⟨t', work', e1, i1, g1, s1, q1⟩ | ⟨e1, s1⟩
  · rw [e1]
    simp only [Option.bind_some]
    rcases h2 t' work' i1 g1 q1 with ⟨t2, work2, e2, i2, g2, s2, q2⟩ | ⟨e2, s2⟩
    · exact .inl ⟨t2, work2, e2, i2, g1.trans g2, fun h => s2 (s1 h), q2⟩
    · exact .inr ⟨e2, fun h => s2 (s1 h)⟩
  · rw [e1]; exact .inr ⟨rfl, s1⟩

theorem beAnd_or {c : Cfg} (hc : RightAnswers c) {s : St} {a b : Edge} {f g : Fn} (hi : Inv s)
    (ha : Means s a f) (hb : Means s b g) :
    (∃ s' e, beAnd c s a b = some (s', e) ∧ Inv s' ∧ Grow s s' ∧ (Safe c s → Safe c s') ∧
      Means s' e (fun ρ => f ρ && g ρ)) ∨ (beAnd c s a b = none ∧ ¬ Safe c s) := by
  by_cases hs : Safe c s
  · obtain ⟨s', e, h, p, q, r, m⟩ := beAnd_good hc hi hs ha hb
    exact .inl ⟨s', e, h, p, q, fun _ => r, m⟩
  · cases h : beAnd c s a b with
    | none => exact .inr ⟨rfl, hs⟩
    | some x =>
      obtain ⟨s', e⟩ := x
      obtain ⟨p, q, m⟩ := beAnd_spec hc hi ha hb h
      exact .inl ⟨s', e, rfl, p, q, fun h => absurd h hs, m⟩

/-- The integers of a line are below `n`. -/
def Line.below (n : Nat) : Line → Prop
  | .v _ => True
  | .a il ir => il.natAbs < n ∧ ir.natAbs < n
  | .r i => i.natAbs < n

theorem Line.below_mono {n m : Nat} (h : n ≤ m) {l : Line} (hl : l.below n) : l.below m := by
  cases l with
  | v _ => trivial
  | a _ _ => exact ⟨Nat.lt_of_lt_of_le hl.1 h, Nat.lt_of_lt_of_le hl.2 h⟩
  | r _ => exact Nat.lt_of_lt_of_le hl h

def KeysOK (s : St) (tbl : SaveTbl) (cnt : Nat) : Prop := 2 ≤ cnt ∧ ∀ p ∈ tbl, s.live p.1 ∧ 0 < p.2 ∧ p.2 < cnt

theorem beSave_spec {c : Cfg} (hc : RightAnswers c) {s : St} (hi : Inv s) :
    ∀ fuel {tbl : SaveTbl} {cnt : Nat} {e : Edge} {f : Fn}, KeysOK s tbl cnt → Means s e f → (s.nd e.idx).sat < fuel →
    ∃ ls tbl' cnt' i, beSave s fuel tbl cnt e = some (ls, tbl', cnt', i) ∧ cnt' = cnt + ls.length ∧
      KeysOK s tbl' cnt' ∧ i.natAbs < cnt' ∧ (∀ l ∈ ls, l.below cnt') ∧
      (∀ n, Line.v n ∈ ls → ∃ j, Reach s e.idx j ∧ (s.nd j).node = .var n) ∧
      ∀ t work res, Inv t → SaveOK s t work tbl cnt → Runs c t work res ls fun t' work' =>
        SaveOK s t' work' tbl' cnt' ∧ ∃ r, pick work' (signChar i) (i.natAbs : Int) = some r ∧ Means t' r f := by
  intro fuel
  induction fuel with
  | zero => intro tbl cnt e f _ _ h; omega
  | succ fuel ih =>
    intro tbl cnt e f hk hm hf
    simp only [beSave]
    have hk2 := hk.1
    split
    · rename_i h1; subst h1
      refine ⟨[], tbl, cnt, 0, rfl, by simp, hk, by simp; omega, by simp, by simp, ?_⟩
      intro t work res it hok
      refine .inl ⟨t, work, rfl, it, Grow.refl t, id, hok, bF, ?_, ?_⟩
      · simp [pick, signChar, hok.c0, Edge.xorNeg]
      · rw [show f = fun _ => false from funext (means_false hi hm)]; exact means_zero it
    rename_i h1
    split
    · rename_i h2; subst h2
      refine ⟨[], tbl, cnt, 1, rfl, by simp, hk, by simp; omega, by simp, by simp, ?_⟩
      intro t work res it hok
      refine .inl ⟨t, work, rfl, it, Grow.refl t, id, hok, bT, ?_, ?_⟩
      · simp [pick, signChar, hok.c1, Edge.xorNeg]
      · rw [show f = fun _ => true from funext (means_true hi hm)]; exact means_one it
    rename_i h2
    obtain ⟨g, hg, rfl⟩ := hm
    cases hfd : tbl.find s e.idx with
    | some k =>
      unfold SaveTbl.find at hfd
      rw [Option.map_eq_some_iff] at hfd
      obtain ⟨p, hp, rfl⟩ := hfd
      have hmem := List.mem_of_find?_eq_some hp
      have hk' := hk.2 p hmem
      have hpe : p.1 = e.idx := hi.inj _ _ hk'.1 (by simpa using List.find?_some hp)
      refine ⟨[], tbl, cnt, _, rfl, by simp, hk, ?_, by simp, by simp, ?_⟩
      · cases e.neg <;> simp [signed] <;> omega
      · intro t work res it hok
        obtain ⟨f', x, a, b, d⟩ := hok.tbl p hmem
        refine .inl ⟨t, work, rfl, it, Grow.refl t, id, hok, _, pick_signed b fun _ => hk'.2.1, ?_⟩
        rw [hpe] at a
        rw [den_det hg a]
        exact means_xorNeg d
    | none =>
      simp only
      have keys : ∀ (tb : SaveTbl) (n : Nat), KeysOK s tb n → KeysOK s ((e.idx, n) :: tb) (n + 1) := by
        intro tb n h
        refine ⟨by have := h.1; omega, fun p hp => ?_⟩
        rcases List.mem_cons.1 hp with rfl | hp
        · exact ⟨den_live hg, by have := h.1; simp only; omega, by simp⟩
        · obtain ⟨a, b, d⟩ := h.2 p hp
          exact ⟨a, b, by omega⟩
      have hsg : ∀ n : Nat, (signed e.neg n).natAbs < n + 1 := by
        intro n; cases e.neg <;> simp [signed]
      cases hg with
      | one h3 => exact absurd (edge_const (hi.oneOnly _ h3)) (fun h => h.elim h2 h1)
      | @var _ n h3 =>
        rw [h3]
        refine ⟨_, _, _, _, rfl, by simp, keys tbl cnt hk, hsg cnt, ?_, ?_, ?_⟩
        · intro l hl; rw [List.mem_singleton] at hl; subst hl; trivial
        · intro n' hn'
          rw [List.mem_singleton] at hn'
          cases hn'
          exact ⟨_, .refl _, h3⟩
        · intro t work res it hok
          obtain ⟨i1, g1, q1⟩ := beVar_spec it n
          have hok' := (hok.grow g1).push (.var h3) q1
          refine .inl ⟨(beVar t n).1, work ++ [(beVar t n).2], rfl, i1, g1, fun h => beVar_safe h n, hok', _,
            pick_signed (k := cnt) (e := (beVar t n).2) (by rw [← hok.len]; simp) (fun _ => by omega), means_xorNeg q1⟩
      | @and _ l r fl fr h3 hl hr =>
        rw [h3]
        simp only [Option.bind_eq_bind]
        obtain ⟨⟨_, _, k1⟩, _, _, k2⟩ := hi.kids _ _ _ h3
        obtain ⟨ls, tb1, n1, il, e1, c1, ko1, b1, lb1, v1, run1⟩ := ih hk (⟨fl, hl, rfl⟩ : Means s l _) (by omega)
        obtain ⟨rs, tb2, n2, ir, e2, c2, ko2, b2, lb2, v2, run2⟩ := ih ko1 (⟨fr, hr, rfl⟩ : Means s r _) (by omega)
        simp only [e1, e2, Option.bind_some]
        refine ⟨_, _, _, _, rfl, by simp; omega, keys tb2 n2 ko2, hsg n2, ?_, ?_, ?_⟩
        · intro x hx
          simp only [List.mem_append, List.mem_singleton] at hx
          rcases hx with (hx | hx) | rfl
          · exact Line.below_mono (by omega) (lb1 x hx)
          · exact Line.below_mono (by omega) (lb2 x hx)
          · exact ⟨by omega, by omega⟩
        · intro n hn
          simp only [List.mem_append, List.mem_singleton, reduceCtorEq, or_false] at hn
          rcases hn with hn | hn
          · obtain ⟨j, a, b⟩ := v1 n hn
            exact ⟨j, .left h3 a, b⟩
          · obtain ⟨j, a, b⟩ := v2 n hn
            exact ⟨j, .right h3 a, b⟩
        · intro t work res it hok
          have rA : Runs c t work res ls fun t' work' => SaveOK s t' work' tb1 n1 ∧
              ∃ rl, pick work' (signChar il) (il.natAbs : Int) = some rl ∧ Means t' rl (fun ρ => fl ρ ^^ l.neg) :=
            run1 t work res it hok
          refine Runs.append (Q := fun t' work' => SaveOK s t' work' tb2 n2 ∧
            (∃ rl, pick work' (signChar il) (il.natAbs : Int) = some rl ∧ Means t' rl (fun ρ => fl ρ ^^ l.neg)) ∧
            ∃ rr, pick work' (signChar ir) (ir.natAbs : Int) = some rr ∧ Means t' rr (fun ρ => fr ρ ^^ r.neg)) ?_ ?_
          · refine Runs.append rA fun t1 w1 i1 g1 q1 => ?_
            obtain ⟨q1, rl, p1, m1⟩ := q1
            -- the first operand stays where it is while the second is read
            rcases run2 t1 w1 res i1 q1 with ⟨t2, w2, x2, i2, g2, s2, q2, rr, p2, m2⟩ | ⟨x2, s2⟩
            · refine .inl ⟨t2, w2, x2, i2, g2, s2, q2, ⟨rl, ?_, g2.means m1⟩, rr, p2, m2⟩
              exact pick_mono x2 p1
            · exact .inr ⟨x2, s2⟩
          · rintro t2 w2 i2 g2 ⟨q2, ⟨rl, p1, m1⟩, rr, p2, m2⟩
            unfold Runs
            simp only [execLines, Line.rd, execRd, p1, p2, Option.bind_eq_bind, Option.bind_some]
            rcases beAnd_or hc i2 m1 m2 with ⟨t3, x, e3, i3, g3, s3, m3⟩ | ⟨e3, s3⟩
            · rw [e3]
              simp only [Option.bind_some]
              refine .inl ⟨t3, w2 ++ [x], rfl, i3, g3, s3, (q2.grow g3).push (.and h3 hl hr) m3, _,
                pick_signed (k := n2) (e := x) (by rw [← q2.len]; simp) (fun _ => by have := ko2.1; omega), means_xorNeg m3⟩
            · rw [e3]
              exact .inr ⟨rfl, s3⟩

/-- Lines that give the roots. -/
theorem roots_lines {c : Cfg} (is : List Int) (rs : List Edge) {t : St} {work : List Edge} :
    ∀ res, Each (fun (i : Int) r => pick work (signChar i) (i.natAbs : Int) = some r) is rs →
    execLines c (is.map Line.r) t work res = some (t, work, res ++ rs) := by
  induction is generalizing rs with
  | nil =>
    intro res h
    cases rs with
    | nil => simp [execLines]
    | cons _ _ => exact h.elim
  | cons i is ih =>
    intro res h
    cases rs with
    | nil => exact h.elim
    | cons r rs =>
      simp only [List.map_cons, execLines, Line.rd, execRd, Option.bind_eq_bind, h.1, Option.bind_some]
      rw [ih rs _ h.2]
      simp

theorem beSaveList_spec {c : Cfg} (hc : RightAnswers c) {s : St} (hi : Inv s) (es : List Edge) :
    ∀ {tbl : SaveTbl} {cnt : Nat} {fs : List Fn}, KeysOK s tbl cnt → Each (Means s) es fs →
    ∃ ls is, beSaveList s tbl cnt es = some (ls, is) ∧ is.length = es.length ∧
      (∀ l ∈ ls, l.below (cnt + ls.length)) ∧ (∀ i ∈ is, i.natAbs < cnt + ls.length) ∧
      (∀ n, Line.v n ∈ ls → ∃ e ∈ es, ∃ j, Reach s e.idx j ∧ (s.nd j).node = .var n) ∧
      ∀ t work, Inv t → SaveOK s t work tbl cnt → Runs c t work [] ls fun t' work' =>
        ∃ rs, Each (fun (i : Int) r => pick work' (signChar i) (i.natAbs : Int) = some r) is rs ∧
          Each (Means t') rs fs := by
  induction es with
  | nil =>
    intro tbl cnt fs hk hm
    cases fs with
    | cons _ _ => exact hm.elim
    | nil =>
      refine ⟨[], [], rfl, rfl, by simp, by simp, by simp, fun t work it hok => ?_⟩
      exact .inl ⟨t, work, rfl, it, Grow.refl t, id, [], trivial, trivial⟩
  | cons e es ih =>
    intro tbl cnt fs hk hm
    cases fs with
    | nil => exact hm.elim
    | cons f fs =>
      obtain ⟨ls, tb1, n1, i, e1, c1, ko1, b1, lb1, v1, run1⟩ := beSave_spec hc hi _ hk hm.1 (Nat.lt_succ_self _)
      obtain ⟨rs, is, e2, l2, lb2, b2, v2, run2⟩ := ih ko1 hm.2
      refine ⟨ls ++ rs, i :: is, by simp only [beSaveList, Option.bind_eq_bind, e1, e2, Option.bind_some],
        by simp [l2], ?_, ?_, ?_, ?_⟩
      · intro l hl
        rcases List.mem_append.1 hl with hl | hl
        · exact Line.below_mono (by simp; omega) (lb1 l hl)
        · exact Line.below_mono (by simp; omega) (lb2 l hl)
      · intro j hj
        rw [List.length_append]
        rcases List.mem_cons.1 hj with rfl | hj
        · omega
        · have := b2 j hj; omega
      · intro n hn
        rcases List.mem_append.1 hn with hn | hn
        · obtain ⟨j, a⟩ := v1 n hn
          exact ⟨e, by simp, j, a⟩
        · obtain ⟨e', he', j, a⟩ := v2 n hn
          exact ⟨e', by simp [he'], j, a⟩
      · intro t work it hok
        refine Runs.append (run1 t work [] it hok) fun t1 w1 i1 g1 ⟨q1, r, p1, m1⟩ => ?_
        rcases run2 t1 w1 i1 q1 with ⟨t2, w2, x2, i2, g2, s2, rr, p2, m2⟩ | ⟨x2, s2⟩
        · exact .inl ⟨t2, w2, x2, i2, g2, s2, r :: rr, ⟨pick_mono x2 p1, p2⟩, g2.means m1, m2⟩
        · exact .inr ⟨x2, s2⟩

/-- Saving and loading. -/
theorem save_load {c : Cfg} (hc : RightAnswers c) {s t : St} (hi : Inv s) (it : Inv t) {roots : List Edge} {fs : List Fn}
    (hm : Each (Means s) roots fs)
    (hn : ∀ e ∈ roots, ∀ j n, Reach s e.idx j → (s.nd j).node = .var n → NameOK n) :
    ∃ lines, saveLines s roots = some lines ∧ ∃ bs, saveBexprs s roots = some bs ∧
      (lines.length + 2 < 2 ^ 31 →
        (∃ t' rs, loadBexprs c t bs = some (.ok t' rs) ∧ Inv t' ∧ Grow t t' ∧ Each (Means t') rs fs) ∨
        (loadBexprs c t bs = none ∧ ¬ Safe c t)) := by
  obtain ⟨ls, is, e1, l1, lb, b, v, run⟩ := beSaveList_spec hc hi roots (tbl := []) (cnt := 2)
    ⟨by omega, by simp⟩ hm
  have hsl : saveLines s roots = some (ls ++ is.map Line.r) := by
    unfold saveLines
    rw [e1]; rfl
  refine ⟨_, hsl, header ++ dec roots.length ++ [10] ++ (ls ++ is.map Line.r).flatMap Line.bytes, ?_, fun hlen => ?_⟩
  · unfold saveBexprs
    rw [hsl]; rfl
  · rw [List.length_append, List.length_map] at hlen
    have hok : ∀ l ∈ ls ++ is.map Line.r, LineOK l := by
      intro l hl
      rcases List.mem_append.1 hl with hl | hl
      · have h1 := lb l hl
        cases l with
        | v n =>
          obtain ⟨e, he, j, a, b⟩ := v n hl
          exact hn e he j n a b
        | a il ir => exact ⟨by have := h1.1; omega, by have := h1.2; omega⟩
        | r i => exact (by have : i.natAbs < 2 + ls.length := h1; show i.natAbs < 2 ^ 31; omega)
      · obtain ⟨i, hi', rfl⟩ := List.mem_map.1 hl
        have := b i hi'
        show i.natAbs < 2 ^ 31
        omega
    rw [loadBexprs_lines c t roots.length (by omega) _ hok, execLines_append]
    rcases run t [bF, bT] it ⟨rfl, rfl, rfl, by simp⟩ with ⟨t', w', x, i', g', s', rs, p, m⟩ | ⟨x, s'⟩
    · left
      rw [x]
      simp only [Option.bind_some]
      rw [roots_lines is rs [] p]
      exact ⟨t', rs, rfl, i', g', m⟩
    · right
      rw [x]
      exact ⟨rfl, s'⟩

end Voss.Bexpr
