import Verif.Pretty.RedLemmas

namespace Voss.Pretty
open Doc

section
variable [Mode]

/-! ### Choosing a layout -/

/-- No choice is left. -/
def NU : Doc → Prop
  | nilAbove p => NU p
  | txt _ _ p => NU p
  | .nest _ p => NU p
  | union _ _ => False
  | _ => True

theorem fits_spec : ∀ {e : Bool} {d : Doc} (m : Int), Ok (some e) d → NU d →
    ∃ f, fits m d = some f ∧ (f = true → Ok (some false) d)
  | _, nil, m, _, _ => ⟨_, rfl, fun _ => trivial⟩
  | _, nilAbove _, m, h, _ => ⟨_, rfl, fun _ => h⟩
  | _, txt i s p, m, ⟨hi, h⟩, hn => by
    obtain ⟨f, h1, h2⟩ := fits_spec (m - i) h hn
    by_cases hm : m < 0
    · exact ⟨false, by simp [fits, hm], by simp⟩
    · exact ⟨f, by simp [fits, hm, h1], fun hf => ⟨hi, h2 hf⟩⟩
  | _, union _ _, _, _, hn => hn.elim
  | _, empty, m, _, _ => ⟨false, by simp [fits], by simp⟩
  | _, .nest _ _, _, h, _ => by simp [Ok] at h
  | _, beside _ _ _, _, h, _ => by simp [Ok] at h
  | _, above _ _ _, _, h, _ => by simp [Ok] at h

mutual
theorem nice_line (r : Int) : ∀ {d : Doc} (w : Int), Ok none d →
    ∃ x, nice r none w d = some x ∧ Ok none x ∧ NU x ∧ ∀ l, D x l → D d l
  | .nest k p, w, h => by
    have h : Ok none p := h
    obtain ⟨x, h1, h2, h3, h4⟩ := nice_line r (w - k) h
    refine ⟨.nest k x, by simp [nice, h1], h2, h3, ?_⟩
    rintro l ⟨m, hm, rfl⟩
    exact ⟨m, h4 m hm, rfl⟩
  | txt i s p, w, ⟨hi, h⟩ => by
    obtain ⟨x, h1, h2, h3, h4⟩ := nice_inner r i w h
    refine ⟨txt i s x, by simp [nice, h1], ⟨hi, h2⟩, h3, ?_⟩
    rintro l ⟨m, hm, rfl⟩
    exact ⟨m, h4 m hm, rfl⟩
  | nil, _, h => h.elim
  | nilAbove _, _, h => h.elim
  | union _ _, _, h => h.elim
  | beside _ _ _, _, h => h.elim
  | above _ _ _, _, h => h.elim
  | empty, _, h => h.elim

theorem nice_inner (r : Int) : ∀ {e : Bool} {d : Doc} (c w : Int), Ok (some e) d →
    ∃ x, nice r (some c) w d = some x ∧ Ok (some e) x ∧ NU x ∧ ∀ l, D x l → D d l
  | _, nil, _, _, _ => ⟨nil, by simp [nice], trivial, trivial, fun l hl => hl⟩
  | _, empty, _, _, h => ⟨empty, by simp [nice], h, trivial, fun l hl => hl⟩
  | _, nilAbove p, c, w, h => by
    have h : Ok none p := h
    obtain ⟨x, h1, h2, h3, h4⟩ := nice_line r (w - c) h
    refine ⟨nilAbove x, by simp [nice, h1], h2, h3, ?_⟩
    rintro l ⟨m, hm, rfl⟩
    exact ⟨m, h4 m hm, rfl⟩
  | _, txt i s p, c, w, ⟨hi, h⟩ => by
    obtain ⟨x, h1, h2, h3, h4⟩ := nice_inner r (c + i) w h
    refine ⟨txt i s x, by simp [nice, h1], ⟨hi, h2⟩, h3, ?_⟩
    rintro l ⟨m, hm, rfl⟩
    exact ⟨m, h4 m hm, rfl⟩
  | _, union p q, c, w, ⟨ha, hb, _, _⟩ => by
    obtain ⟨x, h1, h2, h3, h4⟩ := nice_inner r c w ha
    obtain ⟨y, g1, g2, g3, g4⟩ := nice_inner r c w hb
    obtain ⟨f, f1, f2⟩ := fits_spec (min w r - c) h2 h3
    cases f with
    | true =>
      exact ⟨x, by simp [nice, h1, g1, nicestL, f1], Ok_mono (f2 rfl), h3, fun l hl => .inl (h4 l hl)⟩
    | false => exact ⟨y, by simp [nice, h1, g1, nicestL, f1], g2, g3, fun l hl => .inr (g4 l hl)⟩
  | _, .nest _ _, _, _, h => by simp [Ok] at h
  | _, beside _ _ _, _, _, h => by simp [Ok] at h
  | _, above _ _ _, _, _, h => by simp [Ok] at h
end

/-! ### Printing -/

def tailL (bl : Int → List Char) : Layout → List Char
  | [] => []
  | x :: l => '\n' :: showL bl (x :: l)

theorem showL_cons (bl : Int → List Char) (x : Int × List Char) (l : Layout) :
    showL bl (x :: l) = bl x.1 ++ x.2 ++ tailL bl l := by
  cases l with
  | nil => simp [showL, tailL]
  | cons y l => simp [showL, tailL]

mutual
theorem print_line (fin : List Char) : ∀ {d : Doc} (k : Int), Ok none d → NU d →
    ∃ l, D d l ∧ doc2print fin false k d = some (showL blanks (shift k l) ++ fin)
  | .nest j p, k, h, hn => by
    have h : Ok none p := h
    obtain ⟨l, h1, h2⟩ := print_line fin (k + j) h hn
    refine ⟨shift j l, ⟨l, h1, rfl⟩, ?_⟩
    rw [doc2print, h2, shift_shift, show k + j = j + k by omega]
  | txt i s p, k, ⟨hi, h⟩, hn => by
    obtain ⟨t, r, h1, h2⟩ := print_inner fin (k + i) h hn
    refine ⟨pre i s ((0, t) :: r), ⟨_, h1, rfl⟩, ?_⟩
    rw [doc2print, h2]
    simp only [pre, shift_cons, showL_cons, shift_shift, Option.map_some, List.append_assoc]
    rw [show k + i = i + k by omega, Int.zero_add]
  | nil, _, h, _ => h.elim
  | nilAbove _, _, h, _ => h.elim
  | union _ _, _, h, _ => h.elim
  | beside _ _ _, _, h, _ => h.elim
  | above _ _ _, _, h, _ => h.elim
  | empty, _, h, _ => h.elim

theorem print_inner (fin : List Char) : ∀ {d : Doc} (k : Int), Ok (some false) d → NU d →
    ∃ t r, D d ((0, t) :: r) ∧
      doc2print fin true k d = some (t ++ tailL blanks (shift k r) ++ fin)
  | nil, _, _, _ => ⟨[], [], rfl, by simp [doc2print, tailL, shift_nil]⟩
  | nilAbove p, k, h, hn => by
    have h : Ok none p := h
    obtain ⟨l, h1, h2⟩ := print_line fin k h hn
    refine ⟨[], l, ⟨l, h1, rfl⟩, ?_⟩
    rw [doc2print, h2]
    cases l with
    | nil => exact absurd rfl (D_ne h1)
    | cons x l => simp [tailL, shift_cons]
  | txt i s p, k, ⟨hi, h⟩, hn => by
    obtain ⟨t, r, h1, h2⟩ := print_inner fin (k + i) h hn
    refine ⟨s ++ t, shift i r, ⟨_, h1, rfl⟩, ?_⟩
    rw [doc2print, h2, shift_shift, show k + i = i + k by omega]
    simp
  | empty, _, h, _ => by simp [Ok] at h
  | union _ _, _, _, hn => hn.elim
  | .nest _ _, _, h, _ => by simp [Ok] at h
  | beside _ _ _, _, h, _ => by simp [Ok] at h
  | above _ _ _, _, h, _ => by simp [Ok] at h
end

theorem render_spec {d : Doc} (h : U d) (w r : Int) (fin : List Char) :
    ∃ l, DU d l ∧ render d w r fin = some (showL blanks l ++ fin) := by
  obtain ⟨⟨x, x1, x2, x3⟩, -, -⟩ := red_spec h
  rcases x2 with x2 | x2
  · subst x2
    exact ⟨[], x3 [] (.inl ⟨rfl, rfl⟩), by simp [render, x1, nice, doc2print, showL]⟩
  · obtain ⟨y, y1, y2, y3, y4⟩ := nice_line r w x2
    obtain ⟨l, l1, l2⟩ := print_line fin 0 y2 y3
    refine ⟨l, x3 l (DR_line x2 (y4 l l1)), ?_⟩
    simp only [render, x1, Option.bind_some, y1, l2, shift_zero]

/-! ### Documents that are built -/

theorem NE_of {d : Doc} (h : B d) (h0 : d ≠ nil) : NE d := h.resolve_left h0

theorem mkBeside_spec {v : Bool} {p q : Doc} (b : Bool) (hp : Inv v p) (hq : Inv v q) :
    Inv v (mkBeside p b q) ∧
      ∀ l, DU (mkBeside p b q) l → ∃ lp lq, DU p lp ∧ DU q lq ∧ l = besideL b lp lq := by
  by_cases h0 : p = nil
  · subst h0
    exact ⟨hq, fun l hl => ⟨[], l, .inl ⟨rfl, rfl⟩, hl, rfl⟩⟩
  · by_cases h1 : q = nil
    · subst h1
      have e : mkBeside p b nil = p := by
        rw [mkBeside]
        · simp
        · exact h0
      rw [e]
      exact ⟨hp, fun l hl => ⟨l, [], hl, .inl ⟨rfl, rfl⟩, (besideL_nil b l).symm⟩⟩
    · have e : mkBeside p b q = beside p b q := by
        rw [mkBeside]
        · simp [h1]
        · exact h0
      rw [e]
      refine ⟨⟨⟨hp.1, hq.1, hp.2.1, hq.2.1⟩, .inr ?_, hp.2.2, hq.2.2⟩, fun l hl => hl⟩
      rintro l ⟨lp, lq, h2, h3, rfl⟩
      exact besideL_ne b lp lq (NE_of hp.2.1 h0 lp h2)

theorem mkAbove_spec {v : Bool} {p q : Doc} (b : Bool) (hb : Mode.loose = false → v = true → b = false)
    (hp : Inv v p) (hq : Inv v q) :
    Inv v (mkAbove p b q) ∧
      ∀ l, DU (mkAbove p b q) l → ∃ c lp lq, Fl b c ∧ DU p lp ∧ DU q lq ∧ l = aboveL c lp lq := by
  by_cases h0 : p = nil
  · subst h0
    exact ⟨hq, fun l hl => ⟨b, [], l, .inl rfl, .inl ⟨rfl, rfl⟩, hl, rfl⟩⟩
  · by_cases h1 : q = nil
    · subst h1
      have e : mkAbove p b nil = p := by
        rw [mkAbove]
        · simp
        · exact h0
      rw [e]
      exact ⟨hp, fun l hl => ⟨b, l, [], .inl rfl, hl, .inl ⟨rfl, rfl⟩, (aboveL_nil b l).symm⟩⟩
    · have e : mkAbove p b q = above p b q := by
        rw [mkAbove]
        · simp [h1]
        · exact h0
      rw [e]
      refine ⟨⟨⟨hp.1, hq.1, hp.2.1, hq.2.1, AV_AL b hb hp.2.2⟩, .inr ?_, hp.2.2, hq.2.2, ?_⟩,
        fun l hl => hl⟩
      · rintro l ⟨c, lp, lq, _, h2, h3, rfl⟩
        exact aboveL_ne c lp lq (NE_of hp.2.1 h0 lp h2)
      · have hne := NE_of hq.2.1 h1
        split
        · exact .inr hne
        · rename_i h
          split
          · rename_i hv; exact hb (by simpa using h) hv
          · exact hne

theorem mkNest_spec {v : Bool} {d : Doc} (k : Int) (h : Inv v d) :
    ∃ r, mkNest k d = some r ∧ Inv v r ∧ ∀ l, DU r l → ∃ m, DU d m ∧ l = shift k m := by
  obtain ⟨⟨x, x1, x2, x3⟩, -, -⟩ := red_spec h.1
  obtain ⟨r, r1, r2, -, r4⟩ := nestR_spec x2 k
  rw [nestR, R_again x2] at r1
  refine ⟨r, by rw [mkNest, x1]; exact r1, Inv_R r2, ?_⟩
  intro l hl
  obtain ⟨lq, h1, h2⟩ := r4 l (((R_facts r2).2.1 l).1 hl)
  exact ⟨lq, x3 lq h1, h2⟩

theorem punct_spec {v : Bool} {p : Doc} (hp : Inv v p) : ∀ {x : Doc} {ds : List Doc}, Inv v x →
    (∀ d ∈ ds, Inv v d) → (∀ d ∈ punctGo p x ds, Inv v d) ∧
      ∀ ls, DUs (punctGo p x ds) ls → ∃ ms, DUs (x :: ds) ms ∧ PunctL (DU p) ms ls
  | x, [], hx, _ => by
    refine ⟨by simpa [punctGo] using hx, ?_⟩
    rintro ls ⟨l, ls', h1, h2, rfl⟩
    have h2 : ls' = [] := h2
    subst h2
    exact ⟨[l], ⟨l, [], h1, rfl, rfl⟩, .one l⟩
  | x, y :: ys, hx, h => by
    obtain ⟨h1, h2⟩ := punct_spec hp (ds := ys) (h y (by simp)) (fun d hd => h d (by simp [hd]))
    obtain ⟨h3, h4⟩ := mkBeside_spec false hx hp
    refine ⟨?_, ?_⟩
    · intro d hd
      rcases List.mem_cons.1 hd with rfl | hd
      · exact h3
      · exact h1 d hd
    · rintro ls ⟨l, ls', h5, h6, rfl⟩
      obtain ⟨ms, h7, h8⟩ := h2 ls' h6
      obtain ⟨lx, lp, h9, h10, rfl⟩ := h4 l h5
      obtain ⟨m, ms', h11, h12, rfl⟩ := h7
      exact ⟨lx :: m :: ms', ⟨lx, _, h9, ⟨m, ms', h11, h12, rfl⟩, rfl⟩, .cons lx m lp ms' ls' h10 h8⟩

theorem PunctL.mono {P Q : Layout → Prop} (h : ∀ l, P l → Q l) : ∀ {a b : List Layout},
    PunctL P a b → PunctL Q a b := by
  intro a b hab
  induction hab with
  | nil => exact .nil
  | one x => exact .one x
  | cons x y lp r s h1 _ ih => exact .cons x y lp r s (h lp h1) ih

mutual
theorem build_spec (v : Bool) : ∀ (e : Expr), (Mode.loose = false → v = true → e.plus = false) →
    (Mode.loose = false → v = false → e.usesVcat = false) →
    ∃ d, e.build = some d ∧ Inv v d ∧ ∀ l, DU d l → e.Spec Mode.loose l
  | .nil, _, _ => ⟨Doc.nil, rfl, Inv_R (.inl rfl), fun l hl => by
      rcases hl with hl | hl
      · exact hl.2
      · exact absurd rfl hl.1⟩
  | .text s, _, _ => by
    have h : Ok none (Pretty.text s) := ⟨rfl, trivial⟩
    refine ⟨_, rfl, Inv_R (.inr h), fun l hl => ?_⟩
    obtain ⟨m, hm, rfl⟩ := DR_D ((((R_facts (.inr h)).2.1) l).1 hl) (Ok_ne h)
    have hm : m = [(0, [])] := hm
    subst hm
    simp [Expr.Spec, pre, shift_nil]
  | .nest k e, h1, h2 => by
    obtain ⟨d, d1, d2, d3⟩ := build_spec v e h1 h2
    obtain ⟨r, r1, r2, r3⟩ := mkNest_spec k d2
    refine ⟨r, by simp [Expr.build, d1, r1], r2, fun l hl => ?_⟩
    obtain ⟨m, h4, h5⟩ := r3 l hl
    exact ⟨m, d3 m h4, h5⟩
  | .above e b f, h1, h2 => by
    simp only [Expr.plus, Expr.usesVcat, Bool.or_eq_false_iff] at h1 h2
    obtain ⟨d, d1, d2, d3⟩ := build_spec v e (fun g h => (h1 g h).1.2) (fun g h => (h2 g h).1)
    obtain ⟨d', d1', d2', d3'⟩ := build_spec v f (fun g h => (h1 g h).2) (fun g h => (h2 g h).2)
    obtain ⟨r1, r2⟩ := mkAbove_spec b (fun g h => (h1 g h).1.1) d2 d2'
    refine ⟨_, by simp only [Expr.build, d1, d1', Option.bind_some, Option.map_some], r1, fun l hl => ?_⟩
    obtain ⟨c, lp, lq, hc, h4, h5, h6⟩ := r2 l hl
    exact ⟨c, lp, lq, hc, d3 lp h4, d3' lq h5, h6⟩
  | .beside e b f, h1, h2 => by
    simp only [Expr.plus, Expr.usesVcat, Bool.or_eq_false_iff] at h1 h2
    obtain ⟨d, d1, d2, d3⟩ := build_spec v e (fun g h => (h1 g h).1) (fun g h => (h2 g h).1)
    obtain ⟨d', d1', d2', d3'⟩ := build_spec v f (fun g h => (h1 g h).2) (fun g h => (h2 g h).2)
    obtain ⟨r1, r2⟩ := mkBeside_spec b d2 d2'
    refine ⟨_, by simp only [Expr.build, d1, d1', Option.bind_some, Option.map_some], r1, fun l hl => ?_⟩
    obtain ⟨lp, lq, h4, h5, h6⟩ := r2 l hl
    exact ⟨lp, lq, d3 lp h4, d3' lq h5, h6⟩
  | .hcat b es, h1, h2 => by
    obtain ⟨ds, d1, d2, d3⟩ := builds_spec v es h1 h2
    obtain ⟨d, e1, e2, -, e4⟩ := hcat_spec b d2
    refine ⟨d, by simp [Expr.build, d1, Pretty.hcat, e1], e2, fun l hl => ?_⟩
    obtain ⟨ls, h4, h5⟩ := e4 l hl
    exact ⟨ls, d3 ls h4, h5⟩
  | .vcat es, h1, h2 => by
    have hv : Mode.loose = true ∨ v = true := by
      cases hl : (Mode.loose : Bool) with
      | true => exact .inl rfl
      | false =>
        cases v with
        | true => exact .inr rfl
        | false => simp [Expr.usesVcat, hl] at h2
    obtain ⟨ds, d1, d2, d3⟩ := builds_spec v es h1 (by
      intro g h
      rcases hv with hv | hv
      · simp [hv] at g
      · simp [hv] at h)
    obtain ⟨d, e1, e2, e3, e5, e4⟩ := vcat_spec d2
    refine ⟨d, by simp [Expr.build, d1, Pretty.vcat, e1], ⟨e2, e3, e5 hv⟩, fun l hl => ?_⟩
    obtain ⟨ls, h4, h5⟩ := e4 l hl
    exact ⟨ls, d3 ls h4, h5⟩
  | .sep b es, h1, h2 => by
    obtain ⟨ds, d1, d2, d3⟩ := builds_spec v es h1 h2
    obtain ⟨d, e1, e2, e4⟩ := sepSpace_spec b d2
    refine ⟨d, by simp [Expr.build, d1, e1], Inv_R e2, fun l hl => ?_⟩
    obtain ⟨ls, h4, h5⟩ := e4 l (((R_facts e2).2.1 l).1 hl)
    exact ⟨ls, d3 ls h4, h5⟩
  | .hang e k f, h1, h2 => by
    simp only [Expr.plus, Expr.usesVcat, Bool.or_eq_false_iff] at h1 h2
    obtain ⟨d, d1, d2, d3⟩ := build_spec v e (fun g h => (h1 g h).1) (fun g h => (h2 g h).1)
    obtain ⟨d', d1', d2', d3'⟩ := build_spec v f (fun g h => (h1 g h).2) (fun g h => (h2 g h).2)
    obtain ⟨r, r1, r2, r3⟩ := mkNest_spec k d2'
    obtain ⟨x, e1, e2, e4⟩ := sepSpace_spec (v := v) true (ds := [d, r]) (by simp [d2, r2])
    refine ⟨x, by simp [Expr.build, d1, d1', r1, e1], Inv_R e2, fun l hl => ?_⟩
    obtain ⟨ls, h4, h5⟩ := e4 l (((R_facts e2).2.1 l).1 hl)
    obtain ⟨m, _, g1, ⟨n, _, g2, g3, rfl⟩, rfl⟩ := h4
    have g3 : _ = [] := g3
    subst g3
    obtain ⟨n', g4, rfl⟩ := r3 n g2
    refine ⟨m, n', d3 m g1, d3' n' g4, ?_⟩
    have e1 : vcatL [m, shift k n'] = aboveL false m (shift k n') := by
      show aboveL false m (aboveL false (shift k n') []) = _
      rw [aboveL_nil]
    have e2 : hcatL true [m, shift k n'] = besideL true m (shift k n') := by
      show besideL true m (besideL true (shift k n') []) = _
      rw [besideL_nil]
    rw [e1, e2] at h5
    exact h5

theorem builds_spec (v : Bool) : ∀ (es : Exprs), (Mode.loose = false → v = true → es.plus = false) →
    (Mode.loose = false → v = false → es.usesVcat = false) →
    ∃ ds, es.build = some ds ∧ (∀ d ∈ ds, Inv v d) ∧ ∀ ls, DUs ds ls → es.Spec Mode.loose ls
  | .nil, _, _ => ⟨[], rfl, by simp, fun ls h => h⟩
  | .cons e es, h1, h2 => by
    simp only [Exprs.plus, Exprs.usesVcat, Bool.or_eq_false_iff] at h1 h2
    obtain ⟨d, d1, d2, d3⟩ := build_spec v e (fun g h => (h1 g h).1) (fun g h => (h2 g h).1)
    obtain ⟨ds, e1, e2, e3⟩ := builds_spec v es (fun g h => (h1 g h).2) (fun g h => (h2 g h).2)
    refine ⟨d :: ds, by simp [Exprs.build, d1, e1], ?_, ?_⟩
    · intro x hx
      rcases List.mem_cons.1 hx with rfl | hx
      · exact d2
      · exact e2 x hx
    · rintro ls ⟨l, ls', h3, h4, rfl⟩
      exact ⟨l, ls', d3 l h3, e3 ls' h4, rfl⟩
  | .punctuate e es, h1, h2 => by
    simp only [Exprs.plus, Exprs.usesVcat, Bool.or_eq_false_iff] at h1 h2
    obtain ⟨d, d1, d2, d3⟩ := build_spec v e (fun g h => (h1 g h).1) (fun g h => (h2 g h).1)
    obtain ⟨ds, e1, e2, e3⟩ := builds_spec v es (fun g h => (h1 g h).2) (fun g h => (h2 g h).2)
    cases ds with
    | nil =>
      refine ⟨[], by simp [Exprs.build, d1, e1, Pretty.punctuate], by simp, ?_⟩
      intro ls h
      have h : ls = [] := h
      subst h
      exact ⟨[], e3 [] rfl, .nil⟩
    | cons x xs =>
      obtain ⟨p1, p2⟩ := punct_spec d2 (ds := xs) (e2 x (by simp)) (fun y hy => e2 y (by simp [hy]))
      refine ⟨punctGo d x xs, by simp [Exprs.build, d1, e1, Pretty.punctuate], p1, ?_⟩
      intro ls h
      obtain ⟨ms, h3, h4⟩ := p2 ls h
      exact ⟨ms, e3 ms h3, h4.mono d3⟩
end

end

/-! ### The texts -/

def inkL (l : Layout) : List Char := (l.map fun x => ink x.2).flatten

theorem ink_append (a b : List Char) : ink (a ++ b) = ink a ++ ink b := by simp [ink]
theorem ink_blank (n : Nat) : ink (List.replicate n ' ') = [] := by
  simp [ink]
theorem ink_gap (b : Bool) : ink (gap b) = [] := by cases b <;> decide
theorem inkL_cons (x : Int × List Char) (l : Layout) : inkL (x :: l) = ink x.2 ++ inkL l := rfl
theorem inkL_shift (k : Int) (l : Layout) : inkL (shift k l) = inkL l := by
  simp only [inkL, shift, List.map_map]; rfl

theorem inkL_besideL (b : Bool) : ∀ l m : Layout, inkL (besideL b l m) = inkL l ++ inkL m
  | [], _ => rfl
  | [x], [] => by simp [besideL, inkL]
  | [(i, s)], (j, t) :: r => by
    simp only [besideL, inkL_cons, ink_append, ink_gap, inkL_shift]
    simp [inkL]
  | x :: y :: l, m => by
    rw [besideL, inkL_cons, inkL_besideL b (y :: l) m, inkL_cons x, List.append_assoc]

theorem inkL_aboveL (b : Bool) : ∀ l m : Layout, inkL (aboveL b l m) = inkL l ++ inkL m
  | [], _ => rfl
  | [x], [] => by simp [aboveL, inkL]
  | [(i, s)], (j, t) :: r => by
    simp only [aboveL]
    split
    · simp only [inkL_cons, ink_append, ink_blank]
      simp [inkL]
    · simp [inkL]
  | x :: y :: l, m => by
    rw [aboveL, inkL_cons, inkL_aboveL b (y :: l) m, inkL_cons x, List.append_assoc]

theorem ink_showL : ∀ l : Layout, ink (showL blanks l) = inkL l
  | [] => rfl
  | [x] => by simp [showL, ink_append, blanks, ink_blank, inkL]
  | x :: y :: l => by
    have ih := ink_showL (y :: l)
    rw [showL, show '\n' :: showL blanks (y :: l) = ['\n'] ++ showL blanks (y :: l) from rfl]
    simp only [ink_append, ih, inkL_cons x, blanks, ink_blank]
    simp [ink]

theorem inkL_hcatL (b : Bool) : ∀ ls : List Layout, inkL (hcatL b ls) = (ls.map inkL).flatten
  | [] => rfl
  | l :: ls => by
    show inkL (besideL b l (hcatL b ls)) = _
    rw [inkL_besideL, inkL_hcatL b ls]; rfl

theorem inkL_vcatL : ∀ ls : List Layout, inkL (vcatL ls) = (ls.map inkL).flatten
  | [] => rfl
  | l :: ls => by
    show inkL (aboveL false l (vcatL ls)) = _
    rw [inkL_aboveL, inkL_vcatL ls]; rfl

theorem ink_flatten : ∀ ws : List (List Char), ink ws.flatten = (ws.map ink).flatten
  | [] => rfl
  | w :: ws => by simp [ink_append, ink_flatten ws]

theorem punct_ink {P : Layout → Prop} {w : List Char} (h : ∀ l, P l → inkL l = ink w) :
    ∀ {a b : List Layout}, PunctL P a b → ∀ ws : List (List Char), a.map inkL = ws.map ink →
      b.map inkL = (Exprs.words.punctW w ws).map ink := by
  intro a b hab
  induction hab with
  | nil => intro ws hw; cases ws <;> simp_all [Exprs.words.punctW]
  | one x =>
    intro ws hw
    match ws, hw with
    | [u], hw => simpa [Exprs.words.punctW] using hw
    | [], hw => simp at hw
    | _ :: _ :: _, hw => simp at hw
  | cons x y lp r s h1 _ ih =>
    intro ws hw
    match ws, hw with
    | u :: u' :: us, hw =>
      simp only [List.map_cons, List.cons.injEq] at hw
      have := ih (u' :: us) (by simp [hw.2.1, hw.2.2])
      simp only [Exprs.words.punctW, List.map_cons, inkL_besideL, ink_append, this, hw.1, h lp h1]
    | [], hw => simp at hw
    | [_], hw => simp at hw

mutual
theorem spec_ink {loose : Bool} : ∀ (e : Expr) (l : Layout), e.Spec loose l → inkL l = ink e.words
  | .nil, l, h => by
    have h : l = [] := h
    subst h; rfl
  | .text s, l, h => by
    have h : l = [(0, s)] := h
    subst h; simp [inkL, Expr.words]
  | .nest k e, _, ⟨m, h, h'⟩ => by
    subst h'; rw [inkL_shift, spec_ink e m h]; rfl
  | .above e b f, _, ⟨_, m, n, _, h1, h2, h3⟩ => by
    subst h3; rw [inkL_aboveL, spec_ink e m h1, spec_ink f n h2, Expr.words, ink_append]
  | .beside e b f, _, ⟨m, n, h1, h2, h3⟩ => by
    subst h3; rw [inkL_besideL, spec_ink e m h1, spec_ink f n h2, Expr.words, ink_append]
  | .hcat b es, _, ⟨ls, h1, h2⟩ => by
    subst h2; rw [inkL_hcatL, specs_ink es ls h1, Expr.words, ink_flatten]
  | .vcat es, _, ⟨ls, h1, h2⟩ => by
    subst h2; rw [inkL_vcatL, specs_ink es ls h1, Expr.words, ink_flatten]
  | .sep b es, l, ⟨ls, h1, h2⟩ => by
    rcases h2 with h2 | ⟨h2, _⟩
    · subst h2; rw [inkL_vcatL, specs_ink es ls h1, Expr.words, ink_flatten]
    · rw [h2, inkL_hcatL, specs_ink es ls h1, Expr.words, ink_flatten]
  | .hang e k f, l, ⟨m, n, h1, h2, h3⟩ => by
    rcases h3 with h3 | ⟨h3, _⟩
    · rw [h3, inkL_aboveL, inkL_shift, spec_ink e m h1, spec_ink f n h2, Expr.words, ink_append]
    · rw [h3, inkL_besideL, inkL_shift, spec_ink e m h1, spec_ink f n h2, Expr.words, ink_append]

theorem specs_ink {loose : Bool} : ∀ (es : Exprs) (ls : List Layout), es.Spec loose ls → ls.map inkL = es.words.map ink
  | .nil, ls, h => by
    have h : ls = [] := h
    subst h; rfl
  | .cons e es, _, ⟨m, ms, h1, h2, h3⟩ => by
    subst h3
    rw [List.map_cons, spec_ink e m h1, specs_ink es ms h2]; rfl
  | .punctuate e es, ls, ⟨ms, h1, h2⟩ => by
    rw [Exprs.words]
    exact punct_ink (fun l hl => spec_ink e l hl) h2 _ (specs_ink es ms h1)
end

end Voss.Pretty
