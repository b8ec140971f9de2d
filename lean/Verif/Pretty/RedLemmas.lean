import Verif.Pretty.Lemmas

namespace Voss.Pretty
open Doc

/-! ### Documents that have not been reduced -/

/-- Whether a `$+$` may be taken for a `$-$`. -/
class Mode where
  loose : Bool

variable [Mode]

/-- The flag `c` may be used for `b`. -/
def Fl (b c : Bool) : Prop := c = b ∨ (Mode.loose = true ∧ b = true)

/-- The layouts of a document. -/
def DU : Doc → Layout → Prop
  | beside p b q, l => ∃ lp lq, DU p lp ∧ DU q lq ∧ l = besideL b lp lq
  | above p b q, l => ∃ c lp lq, Fl b c ∧ DU p lp ∧ DU q lq ∧ l = aboveL c lp lq
  | d, l => DR d l

/-- All layouts have lines. -/
def NE (d : Doc) : Prop := ∀ l, DU d l → l ≠ []
def B (d : Doc) : Prop := d = nil ∨ NE d

/-- The document may be put above another one, with the flag `b`. -/
def AL : Bool → Doc → Prop
  | b, above p b' q => AL b' p ∧ AL b q ∧ (NE q ∨ b' = b ∨ (Mode.loose = true ∧ b = true))
  | _, _ => True

def U : Doc → Prop
  | beside p _ q => U p ∧ U q ∧ B p ∧ B q
  | above p b q => U p ∧ U q ∧ B p ∧ B q ∧ AL b p
  | d => R d

/-- `v`: no `$+$`; otherwise: no `vcat`; in the loose mode there may be
both. -/
def AV : Bool → Doc → Prop
  | v, above p b q => AV v p ∧ AV v q ∧
      (if Mode.loose then b = false ∨ NE q else if v then b = false else NE q)
  | v, beside p _ q => AV v p ∧ AV v q
  | _, _ => True

def Inv (v : Bool) (d : Doc) : Prop := U d ∧ B d ∧ AV v d

theorem AV_AL {v : Bool} : ∀ {d : Doc} (b : Bool), (Mode.loose = false → v = true → b = false) →
    AV v d → AL b d
  | above p b' q, b, hb, ⟨h1, h2, h3⟩ => by
    cases hl : (Mode.loose : Bool) with
    | true =>
      rw [if_pos hl] at h3
      refine ⟨AV_AL b' (by simp [hl]) h1, AV_AL b hb h2, ?_⟩
      rcases h3 with h3 | h3
      · cases b with
        | true => exact .inr (.inr ⟨hl, rfl⟩)
        | false => exact .inr (.inl h3)
      · exact .inl h3
    | false =>
      rw [if_neg (by simp [hl])] at h3
      cases v with
      | true =>
        simp only [if_true] at h3
        refine ⟨AV_AL b' (fun _ _ => h3) h1, AV_AL b hb h2, .inr (.inl ?_)⟩
        rw [h3, hb hl rfl]
      | false => exact ⟨AV_AL b' (by simp) h1, AV_AL b (by simp) h2, .inl (by simpa using h3)⟩
  | nil, _, _, _ => trivial
  | nilAbove _, _, _, _ => trivial
  | txt _ _ _, _, _, _ => trivial
  | .nest _ _, _, _, _ => trivial
  | union _ _, _, _, _ => trivial
  | beside _ _ _, _, _, _ => trivial
  | empty, _, _, _ => trivial

theorem R_facts {d : Doc} (h : R d) : U d ∧ (∀ l, DU d l ↔ DR d l) ∧ B d ∧ ∀ v, AV v d := by
  rcases h with h | h
  · subst h
    exact ⟨.inl rfl, fun l => Iff.rfl, .inl rfl, fun v => trivial⟩
  · have hB : ∀ l, DR d l → l ≠ [] := fun l hl => D_ne (DR_D hl (Ok_ne h))
    cases d with
    | beside _ _ _ => exact h.elim
    | above _ _ _ => exact h.elim
    | nil => exact h.elim
    | nilAbove _ => exact h.elim
    | union _ _ => exact h.elim
    | empty => exact h.elim
    | txt i s p => exact ⟨.inr h, fun l => Iff.rfl, .inr hB, fun v => trivial⟩
    | nest k p => exact ⟨.inr h, fun l => Iff.rfl, .inr hB, fun v => trivial⟩

theorem Inv_R {v : Bool} {d : Doc} (h : R d) : Inv v d :=
  ⟨(R_facts h).1, (R_facts h).2.2.1, (R_facts h).2.2.2 v⟩

theorem besideN_R (b : Bool) {p q : Doc} (hp : R p) (hq : R q) :
    ∃ r, besideN p b q = some r ∧ R r ∧
      ∀ l, DR r l → ∃ lp lq, DR p lp ∧ DR q lq ∧ l = besideL b lp lq := by
  rcases hp with hp | hp
  · subst hp
    exact ⟨q, rfl, hq, fun l hl => ⟨[], l, .inl ⟨rfl, rfl⟩, hl, rfl⟩⟩
  · obtain ⟨r, h1, h2, h3, h4⟩ := besideN_spec b hq hp (Ok_ne hp)
    refine ⟨r, h1, .inr h2, ?_⟩
    intro l hl
    obtain ⟨lp, lq, h5, h6, h7⟩ := h4 l (DR_D hl h3)
    exact ⟨lp, lq, DR_line hp h5, h6, h7⟩

theorem aboveNest_R (b : Bool) {p q : Doc} (hp : R p) (hq : R q) :
    ∃ r, ((again q).bind fun y => aboveNest p b 0 y) = some r ∧ R r ∧
      ∀ l, DR r l → ∃ lp lq, DR p lp ∧ DR q lq ∧ l = aboveL b lp lq := by
  rw [R_again hq]
  simp only [Option.bind_some]
  rcases hp with hp | hp
  · subst hp
    obtain ⟨r, h1, h2, -, h4⟩ := nestR_spec hq 0
    refine ⟨r, h1, h2, ?_⟩
    intro l hl
    obtain ⟨lq, h5, h6⟩ := h4 l hl
    rw [shift_zero] at h6
    subst h6
    exact ⟨[], l, .inl ⟨rfl, rfl⟩, h5, rfl⟩
  · obtain ⟨r, h1, h2, h3, h4⟩ := aboveNest_spec b hq 0 hp (Ok_ne hp)
    refine ⟨r, h1, .inr h2, ?_⟩
    intro l hl
    obtain ⟨lp, lq, h5, h6, h7⟩ := h4 l (DR_D hl h3)
    rw [shift_zero] at h7
    exact ⟨lp, lq, DR_line hp h5, h6, h7⟩

/-- What is claimed of the three functions that reduce a document. -/
def RedSpec (d : Doc) : Prop :=
  (∃ r, reduce d = some r ∧ R r ∧ ∀ l, DR r l → DU d l) ∧
  (∀ b q, R q → ∃ r, besideRed d b q = some r ∧ R r ∧
    ∀ l, DR r l → ∃ lp lq, DU d lp ∧ DR q lq ∧ l = besideL b lp lq) ∧
  (∀ b q, AL b d → R q → ∃ r, aboveRed d b q = some r ∧ R r ∧
    ∀ l, DR r l → ∃ c lp lq, Fl b c ∧ DU d lp ∧ DR q lq ∧ l = aboveL c lp lq)

theorem red_leaf {d : Doc} (h : R d) (h1 : reduce d = some d)
    (h2 : ∀ b q, besideRed d b q = besideN d b q)
    (h3 : ∀ b q, aboveRed d b q = (again q).bind fun y => aboveNest d b 0 y) : RedSpec d := by
  have e := (R_facts h).2.1
  refine ⟨⟨d, h1, h, fun l hl => (e l).2 hl⟩, ?_, ?_⟩
  · intro b q hq
    rw [h2]
    obtain ⟨r, h4, h5, h6⟩ := besideN_R b h hq
    refine ⟨r, h4, h5, fun l hl => ?_⟩
    obtain ⟨lp, lq, h7, h8⟩ := h6 l hl
    exact ⟨lp, lq, (e lp).2 h7, h8⟩
  · intro b q _ hq
    rw [h3]
    obtain ⟨r, h4, h5, h6⟩ := aboveNest_R b h hq
    refine ⟨r, h4, h5, fun l hl => ?_⟩
    obtain ⟨lp, lq, h7, h8⟩ := h6 l hl
    exact ⟨b, lp, lq, .inl rfl, (e lp).2 h7, h8⟩

theorem red_spec : ∀ {d : Doc}, U d → RedSpec d
  | beside p b q, ⟨hp, hq, _, _⟩ => by
    obtain ⟨-, p2, -⟩ := red_spec hp
    obtain ⟨⟨rq, q1, q2, q3⟩, q4, -⟩ := red_spec hq
    obtain ⟨r, r1, r2, r3⟩ := p2 b rq q2
    have h1 : reduce (beside p b q) = some r := by simp [reduce, q1, r1]
    have h1' : ((reduce q).bind fun x => besideRed p b x) = some r := by simp [q1, r1]
    have h2 : ∀ l, DR r l → DU (beside p b q) l := by
      intro l hl
      obtain ⟨lp, lq, h5, h6, h7⟩ := r3 l hl
      exact ⟨lp, lq, h5, q3 lq h6, h7⟩
    refine ⟨⟨r, h1, r2, h2⟩, ?_, ?_⟩
    · intro c x hx
      by_cases hc : b = c
      · subst hc
        obtain ⟨y, y1, y2, y3⟩ := q4 b x hx
        obtain ⟨z, z1, z2, z3⟩ := p2 b y y2
        refine ⟨z, by simp [besideRed, y1, z1], z2, ?_⟩
        intro l hl
        obtain ⟨lp, ly, h5, h6, rfl⟩ := z3 l hl
        obtain ⟨lq, lx, h7, h8, rfl⟩ := y3 ly h6
        exact ⟨besideL b lp lq, lx, ⟨lp, lq, h5, h7, rfl⟩, h8, (besideL_assoc b lp lq lx).symm⟩
      · obtain ⟨z, z1, z2, z3⟩ := besideN_R c r2 hx
        refine ⟨z, by simp only [besideRed, if_neg hc, h1', Option.bind_some, z1], z2, ?_⟩
        intro l hl
        obtain ⟨lp, ly, h5, h6, h7⟩ := z3 l hl
        exact ⟨lp, ly, h2 lp h5, h6, h7⟩
    · intro c x _ hx
      obtain ⟨z, z1, z2, z3⟩ := aboveNest_R c r2 hx
      refine ⟨z, by simp only [aboveRed, h1', Option.bind_some, z1], z2, ?_⟩
      intro l hl
      obtain ⟨lp, ly, h5, h6, h7⟩ := z3 l hl
      exact ⟨c, lp, ly, .inl rfl, h2 lp h5, h6, h7⟩
  | above p b q, ⟨hp, hq, _, _, hal⟩ => by
    obtain ⟨-, -, p3⟩ := red_spec hp
    obtain ⟨⟨rq, q1, q2, q3⟩, -, q4⟩ := red_spec hq
    obtain ⟨r, r1, r2, r3⟩ := p3 b rq hal q2
    have h1 : reduce (above p b q) = some r := by simp [reduce, q1, r1]
    have h1' : ((reduce q).bind fun x => aboveRed p b x) = some r := by simp [q1, r1]
    have h2 : ∀ l, DR r l → DU (above p b q) l := by
      intro l hl
      obtain ⟨c, lp, lq, hc, h5, h6, h7⟩ := r3 l hl
      exact ⟨c, lp, lq, hc, h5, q3 lq h6, h7⟩
    refine ⟨⟨r, h1, r2, h2⟩, ?_, ?_⟩
    · intro c x hx
      obtain ⟨z, z1, z2, z3⟩ := besideN_R c r2 hx
      refine ⟨z, by simp only [besideRed, h1', Option.bind_some, z1], z2, ?_⟩
      intro l hl
      obtain ⟨lp, ly, h5, h6, h7⟩ := z3 l hl
      exact ⟨lp, ly, h2 lp h5, h6, h7⟩
    · rintro c x ⟨-, hc2, hc3⟩ hx
      obtain ⟨y, y1, y2, y3⟩ := q4 c x hc2 hx
      obtain ⟨z, z1, z2, z3⟩ := p3 b y hal y2
      refine ⟨z, by simp [aboveRed, y1, z1], z2, ?_⟩
      intro l hl
      obtain ⟨b1, lp, ly, hb1, h5, h6, rfl⟩ := z3 l hl
      obtain ⟨c1, lq, lx, hc1, h7, h8, rfl⟩ := y3 ly h6
      by_cases hq0 : lq = []
      · subst hq0
        refine ⟨b1, lp, lx, ?_, ⟨b1, lp, [], hb1, h5, h7, (aboveL_nil b1 lp).symm⟩, h8, rfl⟩
        rcases hc3 with hc3 | hc3 | hc3
        · exact absurd rfl (hc3 [] h7)
        · rw [← hc3]; exact hb1
        · exact .inr hc3
      · exact ⟨c1, aboveL b1 lp lq, lx, hc1, ⟨b1, lp, lq, hb1, h5, h7, rfl⟩, h8,
          (aboveL_assoc b1 c1 lp lq lx (.inl hq0)).symm⟩
  | nil, h => red_leaf h rfl (fun _ _ => rfl) (fun _ _ => rfl)
  | nilAbove _, h => red_leaf h rfl (fun _ _ => rfl) (fun _ _ => rfl)
  | txt _ _ _, h => red_leaf h rfl (fun _ _ => rfl) (fun _ _ => rfl)
  | .nest _ _, h => red_leaf h rfl (fun _ _ => rfl) (fun _ _ => rfl)
  | union _ _, h => red_leaf h rfl (fun _ _ => rfl) (fun _ _ => rfl)
  | empty, h => red_leaf h rfl (fun _ _ => rfl) (fun _ _ => rfl)

/-! ### Lists of documents -/

def DUs : List Doc → List Layout → Prop
  | [], ls => ls = []
  | d :: ds, ls => ∃ l ls', DU d l ∧ DUs ds ls' ∧ ls = l :: ls'

theorem hr_spec : ∀ {d : Doc}, U d → B d → ∃ d', horizontalReduce d = (false, d') ∧ U d' ∧ B d' ∧
    (∀ v, AV v d → AV v d') ∧ ∀ l, DU d' l → DU d l
  | beside p b q, ⟨hp, hq, bp, bq⟩, _ => by
    obtain ⟨p', p1, p2, p3, p5, p4⟩ := hr_spec hp bp
    obtain ⟨q', q1, q2, q3, q5, q4⟩ := hr_spec hq bq
    by_cases h0 : p' = nil
    · subst h0
      refine ⟨q', by simp [horizontalReduce, p1, q1, emptyReduce], q2, q3, fun v h => q5 v h.2, ?_⟩
      intro l hl
      exact ⟨[], l, p4 [] (.inl ⟨rfl, rfl⟩), q4 l hl, rfl⟩
    · have hn : NE p' := p3.resolve_left h0
      refine ⟨beside p' b q', ?_, ⟨p2, q2, p3, q3⟩, .inr ?_, fun v h => ⟨p5 v h.1, q5 v h.2⟩, ?_⟩
      · simp only [horizontalReduce, p1, q1]
        rw [emptyReduce]
        · simp
        · exact h0
      · rintro l ⟨lp, lq, h1, h2, rfl⟩
        exact besideL_ne b lp lq (hn lp h1)
      · rintro l ⟨lp, lq, h1, h2, rfl⟩
        exact ⟨lp, lq, p4 lp h1, q4 lq h2, rfl⟩
  | above p b q, h, hb => ⟨above p b q, rfl, h, hb, fun _ h => h, fun l hl => hl⟩
  | nil, h, hb => ⟨_, rfl, h, hb, fun _ h => h, fun l hl => hl⟩
  | nilAbove _, h, hb => ⟨_, rfl, h, hb, fun _ h => h, fun l hl => hl⟩
  | txt _ _ _, h, hb => ⟨_, rfl, h, hb, fun _ h => h, fun l hl => hl⟩
  | .nest _ _, h, hb => ⟨_, rfl, h, hb, fun _ h => h, fun l hl => hl⟩
  | union _ _, h, hb => ⟨_, rfl, h, hb, fun _ h => h, fun l hl => hl⟩
  | empty, h, hb => ⟨_, rfl, h, hb, fun _ h => h, fun l hl => hl⟩

theorem vr_spec {v : Bool} : ∀ {d : Doc}, U d → B d → AV v d →
    ∃ d', verticalReduce d = (false, d') ∧ U d' ∧ B d' ∧ AV v d' ∧ ∀ l, DU d' l → DU d l
  | above p b q, ⟨hp, hq, bp, bq, _⟩, _, ⟨ap, aq, ab⟩ => by
    obtain ⟨p', p1, p2, p3, p5, p4⟩ := vr_spec hp bp ap
    obtain ⟨q', q1, q2, q3, q5, q4⟩ := vr_spec hq bq aq
    by_cases h0 : p' = nil
    · subst h0
      refine ⟨q', by simp [verticalReduce, p1, q1, emptyReduce], q2, q3, q5, ?_⟩
      intro l hl
      exact ⟨b, [], l, .inl rfl, p4 [] (.inl ⟨rfl, rfl⟩), q4 l hl, rfl⟩
    · have hn : NE p' := p3.resolve_left h0
      refine ⟨above p' b q', ?_, ⟨p2, q2, p3, q3, AV_AL b ?_ p5⟩, .inr ?_, ⟨p5, q5, ?_⟩, ?_⟩
      · simp only [verticalReduce, p1, q1]
        rw [emptyReduce]
        · simp
        · exact h0
      · intro hl hv; simpa [hl, hv] using ab
      · rintro l ⟨c, lp, lq, _, h1, h2, rfl⟩
        exact aboveL_ne c lp lq (hn lp h1)
      · have hne : NE q → NE q' := fun h l hl => h l (q4 l hl)
        revert ab
        split
        · rintro (h | h)
          · exact .inl h
          · exact .inr (hne h)
        · split
          · exact id
          · exact hne
      · rintro l ⟨c, lp, lq, hc, h1, h2, rfl⟩
        exact ⟨c, lp, lq, hc, p4 lp h1, q4 lq h2, rfl⟩
  | beside p b q, h, hb, ha => ⟨beside p b q, rfl, h, hb, ha, fun l hl => hl⟩
  | nil, h, hb, ha => ⟨_, rfl, h, hb, ha, fun l hl => hl⟩
  | nilAbove _, h, hb, ha => ⟨_, rfl, h, hb, ha, fun l hl => hl⟩
  | txt _ _ _, h, hb, ha => ⟨_, rfl, h, hb, ha, fun l hl => hl⟩
  | .nest _ _, h, hb, ha => ⟨_, rfl, h, hb, ha, fun l hl => hl⟩
  | union _ _, h, hb, ha => ⟨_, rfl, h, hb, ha, fun l hl => hl⟩
  | empty, h, hb, ha => ⟨_, rfl, h, hb, ha, fun l hl => hl⟩

theorem hcat_spec {v : Bool} (b : Bool) : ∀ {ds : List Doc}, (∀ d ∈ ds, Inv v d) →
    ∃ d', horizontalReduce (ds.foldr (fun p q => beside p b q) nil) = (false, d') ∧ Inv v d' ∧
      ((∀ d ∈ ds, d = nil) → d' = nil) ∧ ∀ l, DU d' l → ∃ ls, DUs ds ls ∧ l = hcatL b ls
  | [], _ => ⟨nil, rfl, Inv_R (.inl rfl), fun _ => rfl, fun l hl => ⟨[], rfl, by
      rcases hl with hl | hl
      · exact hl.2
      · exact absurd rfl hl.1⟩⟩
  | d :: ds, h => by
    obtain ⟨q', q1, ⟨q2, q3, q5⟩, q6, q4⟩ := hcat_spec b (ds := ds) (fun x hx => h x (by simp [hx]))
    obtain ⟨hd1, hd2, hd3⟩ := h d (by simp)
    obtain ⟨p', p1, p2, p3, p5, p4⟩ := hr_spec hd1 hd2
    by_cases h0 : p' = nil
    · subst h0
      refine ⟨q', by simp [horizontalReduce, p1, q1, emptyReduce], ⟨q2, q3, q5⟩, ?_, ?_⟩
      · exact fun hh => q6 fun x hx => hh x (by simp [hx])
      · intro l hl
        obtain ⟨ls, h1, h2⟩ := q4 l hl
        exact ⟨[] :: ls, ⟨[], ls, p4 [] (.inl ⟨rfl, rfl⟩), h1, rfl⟩, by rw [h2]; rfl⟩
    · have hn : NE p' := p3.resolve_left h0
      refine ⟨beside p' b q', ?_, ⟨⟨p2, q2, p3, q3⟩, .inr ?_, ⟨p5 v hd3, q5⟩⟩, ?_, ?_⟩
      · simp only [List.foldr, horizontalReduce, p1, q1]
        rw [emptyReduce]
        · simp
        · exact h0
      · rintro l ⟨lp, lq, h1, h2, rfl⟩
        exact besideL_ne b lp lq (hn lp h1)
      · intro hh
        have := hh d (by simp)
        subst this
        have : (false, nil) = (false, p') := p1
        exact absurd (Prod.mk.inj this).2.symm h0
      · rintro l ⟨lp, lq, h1, h2, rfl⟩
        obtain ⟨ls, h3, rfl⟩ := q4 lq h2
        exact ⟨lp :: ls, ⟨lp, ls, p4 lp h1, h3, rfl⟩, rfl⟩

theorem vcat_spec {v : Bool} : ∀ {ds : List Doc}, (∀ d ∈ ds, Inv v d) →
    ∃ d', verticalReduce (ds.foldr (fun p q => above p false q) nil) = (false, d') ∧ U d' ∧ B d' ∧
      ((Mode.loose = true ∨ v = true) → AV v d') ∧ ∀ l, DU d' l → ∃ ls, DUs ds ls ∧ l = vcatL ls
  | [], _ => ⟨nil, rfl, .inl rfl, .inl rfl, fun _ => trivial, fun l hl => ⟨[], rfl, by
      rcases hl with hl | hl
      · exact hl.2
      · exact absurd rfl hl.1⟩⟩
  | d :: ds, h => by
    obtain ⟨q', q1, q2, q3, q5, q4⟩ := vcat_spec (ds := ds) (fun x hx => h x (by simp [hx]))
    obtain ⟨hd1, hd2, hd3⟩ := h d (by simp)
    obtain ⟨p', p1, p2, p3, p5, p4⟩ := vr_spec hd1 hd2 hd3
    by_cases h0 : p' = nil
    · subst h0
      refine ⟨q', by simp [verticalReduce, p1, q1, emptyReduce], q2, q3, q5, ?_⟩
      intro l hl
      obtain ⟨ls, h1, h2⟩ := q4 l hl
      exact ⟨[] :: ls, ⟨[], ls, p4 [] (.inl ⟨rfl, rfl⟩), h1, rfl⟩, by rw [h2]; rfl⟩
    · have hn : NE p' := p3.resolve_left h0
      refine ⟨above p' false q', ?_, ⟨p2, q2, p3, q3, AV_AL false (fun _ _ => rfl) p5⟩, .inr ?_, ?_, ?_⟩
      · simp only [List.foldr, verticalReduce, p1, q1]
        rw [emptyReduce]
        · simp
        · exact h0
      · rintro l ⟨c, lp, lq, _, h1, h2, rfl⟩
        exact aboveL_ne c lp lq (hn lp h1)
      · intro hv
        refine ⟨p5, q5 hv, ?_⟩
        split
        · exact .inl rfl
        · rename_i h; rw [if_pos (hv.resolve_left h)]
      · rintro l ⟨c, lp, lq, hc, h1, h2, rfl⟩
        have : c = false := by
          rcases hc with hc | hc
          · exact hc
          · simp at hc
        subst this
        obtain ⟨ls, h3, rfl⟩ := q4 lq h2
        exact ⟨lp :: ls, ⟨lp, ls, p4 lp h1, h3, rfl⟩, rfl⟩

theorem vcatL_nil : ∀ {ds : List Doc} {ls : List Layout}, (∀ d ∈ ds, B d) → DUs ds ls → vcatL ls = [] →
    ∀ d ∈ ds, d = nil
  | [], _, _, _, _, d, hd => by simp at hd
  | d :: ds, _, hB, ⟨l, ls, h1, h2, rfl⟩, h3, x, hx => by
    have h4 := aboveL_eq_nil (h3 : aboveL false l (vcatL ls) = [])
    rcases List.mem_cons.1 hx with rfl | hx
    · rcases hB x (by simp) with h | h
      · exact h
      · exact absurd h4.1 (h l h1)
    · exact vcatL_nil (fun y hy => hB y (by simp [hy])) h2 h4.2 x hx

/-! ### `sep` -/

theorem oneLine_spec : ∀ {e : Bool} {d : Doc}, Ok (some e) d → ∃ r, oneLine d = some r ∧
    Ok (some true) r ∧ (r = nil ↔ d = nil) ∧ ∀ l, D r l → D d l ∧ l.length = 1
  | _, nil, _ => ⟨nil, rfl, trivial, Iff.rfl, fun l hl => ⟨hl, by
      have hl : l = [(0, [])] := hl
      simp [hl]⟩⟩
  | _, nilAbove _, _ => ⟨empty, rfl, rfl, by simp, fun l hl => hl.elim⟩
  | e, txt i s p, ⟨hi, h⟩ => by
    obtain ⟨r, h1, h2, -, h4⟩ := oneLine_spec h
    refine ⟨txt i s r, by simp [oneLine, h1], ⟨hi, h2⟩, by simp, ?_⟩
    rintro l ⟨m, hm, rfl⟩
    obtain ⟨h5, h6⟩ := h4 m hm
    refine ⟨⟨m, h5, rfl⟩, ?_⟩
    match m, h6 with
    | [(a, b)], _ => rfl
  | e, union p q, ⟨h1, h2, h3, h4⟩ => by
    obtain ⟨r, h5, h6, h7, h8⟩ := oneLine_spec h1
    refine ⟨r, by simp [oneLine, h5], h6, ?_, ?_⟩
    · constructor
      · intro h; exact absurd (h7.1 h) h3
      · intro h; simp at h
    · intro l hl
      exact ⟨.inl (h8 l hl).1, (h8 l hl).2⟩
  | _, empty, _ => ⟨empty, rfl, rfl, by simp, fun l hl => hl.elim⟩
  | _, .nest _ _, h => by simp [Ok] at h
  | _, beside _ _ _, h => by simp [Ok] at h
  | _, above _ _ _, h => by simp [Ok] at h

theorem pre_id {t : List Char} {r : Layout} : pre 0 [] ((0, t) :: r) = (0, t) :: r := by
  simp [pre, shift_zero]

theorem sepEnd_spec {v : Bool} {ds : List Doc} (hds : ∀ d ∈ ds, Inv v d) (e b : Bool) (k : Int) :
    ∃ r, sepEnd b k ds = some r ∧ Ok (some e) r ∧
      ∀ l, D r l → ∃ ls, DUs ds ls ∧ (l = aboveL false [(0, [])] (shift k (vcatL ls)) ∨
        (l.length = 1 ∧ l = besideL b [(0, [])] (hcatL b ls))) := by
  obtain ⟨h, h1, ⟨h2, -, -⟩, h3, h4⟩ := hcat_spec b hds
  obtain ⟨u, u1, u2, -, -, u4⟩ := vcat_spec hds
  obtain ⟨⟨x, x1, x2, x3⟩, -, -⟩ := red_spec h2
  obtain ⟨⟨w, w1, w2, w3⟩, -, -⟩ := red_spec u2
  obtain ⟨n1, n2, n3⟩ := besideNil_spec (e := true) b x2
  obtain ⟨y, y1, y2, y3, y4⟩ := oneLine_spec n1
  obtain ⟨z, z1, z2, z3, z4⟩ := aboveNil_spec (e := e) false k w2
  refine ⟨join y z, ?_, ?_, ?_⟩
  · simp only [sepEnd, hcat, vcat, h1, u1, x1, w1, Option.bind_some, y1, z1, Option.map_some]
  · by_cases hy : y = nil
    · subst hy; exact trivial
    · have : join y z = union y z := by rw [join]; exact hy
      rw [this]
      refine ⟨y2, z2, hy, ?_⟩
      intro hz
      have hw := z3.1 hz
      subst hw
      obtain ⟨ls, g1, g2⟩ := u4 [] (w3 [] (.inl ⟨rfl, rfl⟩))
      have g3 := h3 (vcatL_nil (fun d hd => (hds d hd).2.1) g1 g2.symm)
      subst g3
      have : x = nil := by
        have : some nil = some x := x1
        exact (Option.some.inj this).symm
      subst this
      exact hy (y3.2 (n2.2 rfl))
  · have hyl : ∀ l, D y l → ∃ ls, DUs ds ls ∧ (l.length = 1 ∧ l = besideL b [(0, [])] (hcatL b ls)) := by
      intro l hl
      obtain ⟨g1, g2⟩ := y4 l hl
      obtain ⟨lq, g3, g4⟩ := n3 l g1
      obtain ⟨ls, g5, g6⟩ := h4 lq (x3 lq g3)
      refine ⟨ls, g5, g2, ?_⟩
      have g7 := g4 []
      match l, g2, g1 with
      | [(i, t)], _, g1 =>
        have := D_head n1 g1
        subst this
        rw [← g6, ← g7]
        exact pre_id.symm
    intro l hl
    by_cases hy : y = nil
    · subst hy
      obtain ⟨ls, g1, g2⟩ := hyl l hl
      exact ⟨ls, g1, .inr g2⟩
    · have : join y z = union y z := by rw [join]; exact hy
      rw [this] at hl
      rcases hl with hl | hl
      · obtain ⟨ls, g1, g2⟩ := hyl l hl
        exact ⟨ls, g1, .inr g2⟩
      · obtain ⟨lq, g3, g4⟩ := z4 l hl
        obtain ⟨ls, g5, g6⟩ := u4 lq (w3 lq g3)
        refine ⟨ls, g5, .inl ?_⟩
        have g7 := g4 []
        match l, D_ne hl, hl with
        | (i, t) :: r, _, hl =>
          have := D_head z2 hl
          subst this
          rw [← g6]
          refine Eq.trans pre_id.symm (Eq.trans g7 ?_)
          simp

theorem sepLine_spec {v : Bool} {ds : List Doc} (hds : ∀ d ∈ ds, Inv v d) (rest : Option Doc) (b : Bool) :
    ∀ {m : Option Bool} {p : Doc} (inner : Bool) (k : Int), Ok m p → (m = none → inner = false) →
      (inner = true ∨ p ≠ nil) →
    ∃ r, sepLine rest b ds inner p k = some r ∧ Ok m r ∧ (p ≠ nil → r ≠ nil) ∧
      ∀ l, D r l → ∃ lp ls, D p lp ∧ DUs ds ls ∧ (l = aboveL false lp (shift k (vcatL ls)) ∨
        (l.length = 1 ∧ l = besideL b lp (hcatL b ls)))
  | none, .nest j p, inner, k, h, hi, _ => by
    have h : Ok none p := h
    have hi := hi rfl
    subst hi
    obtain ⟨r, h1, h2, h3, h4⟩ := sepLine_spec hds rest b (m := none) (p := p) false (k - j) h
      (fun _ => rfl) (.inr (Ok_ne h))
    refine ⟨.nest j r, by simp [sepLine, h1], h2, by simp, ?_⟩
    rintro l ⟨m, hm, rfl⟩
    obtain ⟨lp, ls, h5, h6, h7⟩ := h4 m hm
    refine ⟨shift j lp, ls, ⟨lp, h5, rfl⟩, h6, ?_⟩
    rcases h7 with h7 | ⟨h7, h8⟩
    · left
      rw [h7, shift_aboveL, shift_shift]
      congr 2; omega
    · right
      refine ⟨by simpa [shift] using h7, ?_⟩
      rw [h8, shift_besideL _ _ _ _ (D_ne h5)]
  | none, txt i s p, _, k, ⟨hi, h⟩, _, _ => by
    subst hi
    exact sepLine_txt (fun r hr => ⟨rfl, hr⟩) h (sepLine_spec hds rest b true _ h (by simp) (.inl rfl))
  | some e, txt i s p, _, k, ⟨hi, h⟩, _, _ => by
    subst hi
    exact sepLine_txt (fun r hr => ⟨rfl, hr⟩) h (sepLine_spec hds rest b true _ h (by simp) (.inl rfl))
  | some e, nil, inner, k, _, _, h => by
    have h : inner = true := by simpa using h
    subst h
    obtain ⟨r, h1, h2, h3⟩ := sepEnd_spec hds e b k
    refine ⟨r, by simp [sepLine, h1], h2, by simp, ?_⟩
    intro l hl
    obtain ⟨ls, h4, h5⟩ := h3 l hl
    exact ⟨[(0, [])], ls, rfl, h4, h5⟩
  | some e, nilAbove p, inner, k, h, _, _ => by
    have h' : Ok none p := h
    obtain ⟨u, u1, u2, -, -, u4⟩ := vcat_spec hds
    obtain ⟨⟨w, w1, w2, w3⟩, -, -⟩ := red_spec u2
    obtain ⟨r, h1, h2, h3, h4⟩ := aboveNest_spec false w2 k h' (Ok_ne h')
    refine ⟨nilAbove r, by simp [sepLine, vcat, u1, w1, h1], h2, by simp, ?_⟩
    rintro l ⟨m, hm, rfl⟩
    obtain ⟨lp, lq, h5, h6, rfl⟩ := h4 m hm
    obtain ⟨ls, g5, g6⟩ := u4 lq (w3 lq h6)
    subst g6
    refine ⟨(0, []) :: lp, ls, ⟨lp, h5, rfl⟩, g5, .inl ?_⟩
    cases lp with
    | nil => exact absurd rfl (D_ne h5)
    | cons x y => rfl
  | some e, union p p', inner, k, ⟨ha, hb, hc, hd⟩, _, _ => by
    obtain ⟨u, u1, u2, -, -, u4⟩ := vcat_spec hds
    obtain ⟨⟨w, w1, w2, w3⟩, -, -⟩ := red_spec u2
    obtain ⟨r, h1, h2, h3, h4⟩ := sepLine_spec hds rest b false k ha (by simp) (.inr hc)
    obtain ⟨r', h1', h2', h3', h4'⟩ := aboveNest_spec false w2 k hb hd
    refine ⟨union r r', by simp [sepLine, vcat, u1, w1, h1, h1'], ⟨h2, h2', h3 hc, h3'⟩, by simp, ?_⟩
    rintro l (h | h)
    · obtain ⟨lp, ls, h5, h6, h7⟩ := h4 l h
      exact ⟨lp, ls, .inl h5, h6, h7⟩
    · obtain ⟨lp, lq, h5, h6, rfl⟩ := h4' l h
      obtain ⟨ls, g5, g6⟩ := u4 lq (w3 lq h6)
      subst g6
      exact ⟨lp, ls, .inr h5, g5, .inl rfl⟩
  | some _, empty, _, _, h, _, _ => ⟨empty, by simp [sepLine], h, by simp, fun l hl => hl.elim⟩
  | some _, .nest _ _, _, _, h, _, _ => by simp [Ok] at h
  | some _, beside _ _ _, _, _, h, _, _ => by simp [Ok] at h
  | some _, above _ _ _, _, _, h, _, _ => by simp [Ok] at h
  | none, nil, _, _, h, _, _ => h.elim
  | none, nilAbove _, _, _, h, _, _ => h.elim
  | none, union _ _, _, _, h, _, _ => h.elim
  | none, beside _ _ _, _, _, h, _, _ => h.elim
  | none, above _ _ _, _, _, h, _, _ => h.elim
  | none, empty, _, _, h, _, _ => h.elim
where
  sepLine_txt {ds : List Doc} {rest : Option Doc} {b : Bool} {inner : Bool} {k : Int} {e : Bool}
      {s : List Char} {p : Doc} {m : Option Bool}
      (hm : ∀ r, Ok (some e) r → Ok m (txt s.length s r)) (h : Ok (some e) p)
      (ih : ∃ r, sepLine rest b ds true p (k - s.length) = some r ∧ Ok (some e) r ∧ (p ≠ nil → r ≠ nil) ∧
        ∀ l, D r l → ∃ lp ls, D p lp ∧ DUs ds ls ∧
          (l = aboveL false lp (shift (k - s.length) (vcatL ls)) ∨
            (l.length = 1 ∧ l = besideL b lp (hcatL b ls)))) :
      ∃ r, sepLine rest b ds inner (txt s.length s p) k = some r ∧ Ok m r ∧
        (txt s.length s p ≠ nil → r ≠ nil) ∧
        ∀ l, D r l → ∃ lp ls, D (txt s.length s p) lp ∧ DUs ds ls ∧
          (l = aboveL false lp (shift k (vcatL ls)) ∨
            (l.length = 1 ∧ l = besideL b lp (hcatL b ls))) := by
    obtain ⟨r, h1, h2, -, h4⟩ := ih
    refine ⟨txt s.length s r, by simp [sepLine, h1], hm r h2, by simp, ?_⟩
    rintro l ⟨m', hm', rfl⟩
    obtain ⟨lp, ls, h5, h6, h7⟩ := h4 m' hm'
    refine ⟨pre s.length s lp, ls, ⟨lp, h5, rfl⟩, h6, ?_⟩
    cases lp with
    | nil => exact absurd rfl (D_ne h5)
    | cons x y =>
      obtain ⟨i, t⟩ := x
      have := D_head h h5
      subst this
      rcases h7 with h7 | ⟨h7, h8⟩
      · left
        rw [h7, pre_aboveL]
      · right
        refine ⟨?_, by rw [h8, pre_besideL]⟩
        match m', h7 with
        | [(_, _)], _ => rfl

theorem sepSpace_spec {v : Bool} (b : Bool) : ∀ {ds : List Doc}, (∀ d ∈ ds, Inv v d) →
    ∃ r, sepSpace b ds = some r ∧ R r ∧
      ∀ l, DR r l → ∃ ls, DUs ds ls ∧ (l = vcatL ls ∨ (l = hcatL b ls ∧ l.length ≤ 1))
  | [], _ => ⟨nil, rfl, .inl rfl, fun l hl => ⟨[], rfl, .inl (by
      rcases hl with hl | hl
      · exact hl.2
      · exact absurd rfl hl.1)⟩⟩
  | d :: ds, h => by
    obtain ⟨q, q1, q2, q3⟩ := sepSpace_spec b (ds := ds) (fun x hx => h x (by simp [hx]))
    obtain ⟨⟨x, x1, x2, x3⟩, -, -⟩ := red_spec (h d (by simp)).1
    rcases x2 with x2 | x2
    · subst x2
      obtain ⟨r, r1, r2, -, r4⟩ := nestR_spec q2 0
      refine ⟨r, by simp [sepSpace, x1, sepLine, q1, r1], r2, ?_⟩
      intro l hl
      obtain ⟨lq, h1, h2⟩ := r4 l hl
      rw [shift_zero] at h2
      subst h2
      obtain ⟨ls, h3, h4⟩ := q3 l h1
      exact ⟨[] :: ls, ⟨[], ls, x3 [] (.inl ⟨rfl, rfl⟩), h3, rfl⟩, h4⟩
    · obtain ⟨r, r1, r2, r3, r4⟩ := sepLine_spec (v := v) (ds := ds) (fun x hx => h x (by simp [hx]))
        (sepSpace b ds) b false 0 x2 (fun _ => rfl) (.inr (Ok_ne x2))
      refine ⟨r, by simp [sepSpace, x1, r1], .inr r2, ?_⟩
      intro l hl
      obtain ⟨lp, ls, h1, h2, h3⟩ := r4 l (DR_D hl (Ok_ne r2))
      refine ⟨lp :: ls, ⟨lp, ls, x3 lp (DR_line x2 h1), h2, rfl⟩, ?_⟩
      rcases h3 with h3 | ⟨h3, h4⟩
      · left; rw [shift_zero] at h3; exact h3
      · exact .inr ⟨h4, by omega⟩

end Voss.Pretty
