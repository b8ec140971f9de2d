import Verif.Comp.Frame
/-
The compiler: each expression is turned into components that allow exactly its possible values.
-/
namespace Voss.Comp
open Voss.Sim
open Voss.Ste (Comp Net)
open Voss.Bv (uv tc)

theorem bind_ok {α β : Type} {x : Out α} {f : α → Out β} {r : β} (h : x.bind f = .ok r) : ∃ a, x = .ok a ∧ f a = .ok r := by
  cases x with
  | ok a => exact ⟨a, rfl, h⟩
  | err => simp [Out.bind] at h
  | ub => simp [Out.bind] at h

/-- The widths of the named vectors. -/
abbrev wdOf (look : String → List Nat) : String → Nat := fun s => (look s).length

theorem means_len {look : String → List Nat} {e : WExpr} {n : Nat} (h : Sized (wdOf look) e n) (σ : Nat → Bool) (w : List Bool)
    (hm : Means (val look σ) e w) : w.length = n :=
  means_length (val look σ) e n w (by simpa [val] using h) hm

theorem meansAll_len {look : String → List Nat} {es : List WExpr} {n : Nat} (h : SizedAll (wdOf look) es n) (σ : Nat → Bool) (ws : List (List Bool))
    (hm : MeansAll (val look σ) es ws) : ws.flatten.length = n :=
  meansAll_length (val look σ) es n ws (by simpa [val] using h) hm

/-- What is known of the recursive call. -/
def GoOk (look : String → List Nat) (e : WExpr) (go : Nat → List Nat → Out (Nat × Net)) : Prop :=
  ∀ n next outs r, Named look next → (∀ x ∈ outs, x < next) → Sized (wdOf look) e n → outs.length = n → go next outs = .ok r →
    Top look (fun v w => Means v e w) next r.1 outs false r.2

theorem arg_good {look : String → List Nat} {e : WExpr} {go} (hgo : GoOk look e go) {sz next : Nat} {r} (hn : Named look next)
    (hs : Sized (wdOf look) e sz) (hr : arg look go e sz next = .ok r) : Good look (fun v w => Means v e w) sz next r.2.1 r.1 r.2.2 := by
  have temp : ((go (next + sz) (List.range' next sz)).bind fun r => Out.ok (List.range' next sz, r.1, r.2)) = .ok r →
      Good look (fun v w => Means v e w) sz next r.2.1 r.1 r.2.2 := by
    intro h
    obtain ⟨a, h1, h2⟩ := bind_ok h
    cases h2
    exact good_temp hn (fun σ w hw => means_len hs σ w hw)
      (hgo sz _ _ a (hn.mono (by omega)) (by intro x hx; simp only [List.mem_range'_1] at hx; omega) hs List.length_range' h1)
  cases e with
  | var s b =>
    simp only [Sized] at hs
    simp only [arg, Out.ok.injEq] at hr
    subst hr
    have := good_name look (vecName b s) next sz hn (by rw [hs.1]; exact hs.2)
    simpa only [Means] using this
  | evar s b =>
    simp only [Sized] at hs
    simp only [arg, Out.ok.injEq] at hr
    subst hr
    have := good_name look b next sz hn (by rw [hs.1]; exact hs.2)
    simpa only [Means] using this
  | _ => exact temp hr

theorem nonNull_ok {a : Arg} {next : Nat} {r} (h : nonNull a next = .ok r) : a next = .ok r := by
  obtain ⟨b, h1, h2⟩ := bind_ok h
  split at h2
  · exact absurd h2 (by simp)
  · rw [h1, ← Out.ok.inj h2]

theorem seq_nil {next : Nat} {r} (h : seq [] next = .ok r) : r = ([], next, []) := by
  simp only [seq, Out.ok.injEq] at h; exact h.symm

theorem seq_cons {a : Arg} {as : List Arg} {next : Nat} {r} (h : seq (a :: as) next = .ok r) :
    ∃ s t, a next = .ok s ∧ seq as s.2.1 = .ok t ∧ r = (s.1 ++ t.1, t.2.1, s.2.2 ++ t.2.2) := by
  rw [seq] at h
  obtain ⟨s, h1, h2⟩ := bind_ok h
  obtain ⟨t, h3, h4⟩ := bind_ok h2
  exact ⟨s, t, h1, h3, (Out.ok.inj h4).symm⟩

/-- The possible words of operands one after the other. -/
def Words (Ps : List ((String → List Bool) → List Bool → Prop)) : (String → List Bool) → List Bool → Prop :=
  match Ps with
  | [] => fun _ w => w = []
  | P :: Ps => Both P (Words Ps)

theorem seq_good1 {look : String → List Nat} {P} {a : Arg} {m next : Nat} {r} (hn : Named look next)
    (ha : ∀ r, a next = .ok r → Good look P m next r.2.1 r.1 r.2.2) (h : seq [a] next = .ok r) :
    Good look (Words [P]) m next r.2.1 r.1 r.2.2 := by
  obtain ⟨s, t, h1, h2, rfl⟩ := seq_cons h
  rw [seq_nil h2]
  exact good_append hn (ha s h1) (good_nil look _)

theorem seq_good2 {look : String → List Nat} {P Q} {a b : Arg} {m m' next : Nat} {r} (hn : Named look next)
    (ha : ∀ r, a next = .ok r → Good look P m next r.2.1 r.1 r.2.2)
    (hb : ∀ next r, Named look next → b next = .ok r → Good look Q m' next r.2.1 r.1 r.2.2) (h : seq [a, b] next = .ok r) :
    Good look (Words [P, Q]) (m + m') next r.2.1 r.1 r.2.2 := by
  obtain ⟨s, t, h1, h2, rfl⟩ := seq_cons h
  have g1 := ha s h1
  exact good_append hn g1 (seq_good1 (hn.mono g1.le) (fun r hr => hb _ r (hn.mono g1.le) hr) h2)

theorem seq_good3 {look : String → List Nat} {P Q R} {a b c : Arg} {m m' m'' next : Nat} {r} (hn : Named look next)
    (ha : ∀ r, a next = .ok r → Good look P m next r.2.1 r.1 r.2.2)
    (hb : ∀ next r, Named look next → b next = .ok r → Good look Q m' next r.2.1 r.1 r.2.2)
    (hc : ∀ next r, Named look next → c next = .ok r → Good look R m'' next r.2.1 r.1 r.2.2) (h : seq [a, b, c] next = .ok r) :
    Good look (Words [P, Q, R]) (m + (m' + m'')) next r.2.1 r.1 r.2.2 := by
  obtain ⟨s, t, h1, h2, rfl⟩ := seq_cons h
  have g1 := ha s h1
  exact good_append hn g1 (seq_good2 (hn.mono g1.le) (fun r hr => hb _ r (hn.mono g1.le) hr) hc h2)

theorem words1 {P : (String → List Bool) → List Bool → Prop} {v : String → List Bool} {u : List Bool} : Words [P] v u ↔ P v u := by
  simp only [Words, Both]
  constructor
  · rintro ⟨a, b, h, rfl, rfl⟩; simpa using h
  · intro h; exact ⟨u, [], h, rfl, by simp⟩

theorem words2 {P Q : (String → List Bool) → List Bool → Prop} {v : String → List Bool} {u : List Bool} :
    Words [P, Q] v u ↔ ∃ a b, P v a ∧ Q v b ∧ u = a ++ b := by
  constructor
  · rintro ⟨a, b, h, h2, rfl⟩; exact ⟨a, b, h, words1.mp h2, rfl⟩
  · rintro ⟨a, b, h, h2, rfl⟩; exact ⟨a, b, h, words1.mpr h2, rfl⟩

theorem words3 {P Q R : (String → List Bool) → List Bool → Prop} {v : String → List Bool} {u : List Bool} :
    Words [P, Q, R] v u ↔ ∃ a b c, P v a ∧ Q v b ∧ R v c ∧ u = a ++ (b ++ c) := by
  constructor
  · rintro ⟨a, b, h, h2, rfl⟩
    obtain ⟨b, c, h3, h4, rfl⟩ := words2.mp h2
    exact ⟨a, b, c, h, h3, h4, rfl⟩
  · rintro ⟨a, b, c, h, h2, h3, rfl⟩; exact ⟨a, _, h, words2.mpr ⟨b, c, h2, h3, rfl⟩, rfl⟩

theorem push_ok {p : Prim} {size : Nat} {outs : List Nat} {pdel : Bool} {args : List Arg} {next : Nat} {r}
    (h : push p size outs pdel args next = .ok r) :
    ∃ s, seq args next = .ok s ∧ r = (s.2.1, ⟨p, size, s.1, outs, pdel, 0⟩ :: s.2.2) := by
  obtain ⟨s, h1, h2⟩ := bind_ok h
  exact ⟨s, h1, (Out.ok.inj h2).symm⟩

theorem sizedEach_mem {wd : String → Nat} {n : Nat} : ∀ {es : List WExpr}, SizedEach wd es n → ∀ e ∈ es, Sized wd e n
  | [], _, e, he => by simp at he
  | a :: es, h, e, he => by
    simp only [SizedEach] at h
    rcases List.mem_cons.mp he with rfl | he
    · exact h.1
    · exact sizedEach_mem h.2 e he

theorem sizedAll_mem {wd : String → Nat} : ∀ {es : List WExpr} {n : Nat}, SizedAll wd es n → ¬ReadWidths es → ∀ e ∈ es, Sized wd e (wsize e)
  | [], _, _, _, e, he => by simp at he
  | a :: es, n, h, hr, e, he => by
    simp only [SizedAll] at h
    simp only [ReadWidths, not_or] at hr
    obtain ⟨x, y, _, h1, h2⟩ := h
    rcases List.mem_cons.mp he with rfl | he
    · rw [wsize_eq wd e x h1 hr.1]; exact h1
    · exact sizedAll_mem h2 hr.2 e he

theorem wsizes_sum : ∀ (es : List WExpr), wsizes es = (es.map wsize).sum
  | [] => rfl
  | e :: es => by rw [wsizes, wsizes_sum es, List.map_cons, List.sum_cons]

theorem meansAll_each {look : String → List Nat} {n : Nat} (σ : Nat → Bool) : ∀ {es : List WExpr} {ws : List (List Bool)}, SizedEach (wdOf look) es n →
    MeansAll (val look σ) es ws → ws.length = es.length ∧ ∀ w ∈ ws, w.length = n
  | [], ws, _, h => by simp only [MeansAll] at h; simp [h]
  | e :: es, ws, hs, h => by
    simp only [MeansAll] at h
    simp only [SizedEach] at hs
    obtain ⟨w, vs, rfl, h1, h2⟩ := h
    have ih := meansAll_each σ hs.2 h2
    refine ⟨by simp [ih.1], fun x hx => ?_⟩
    rcases List.mem_cons.mp hx with rfl | hx
    · exact means_len hs.1 σ x h1
    · exact ih.2 x hx

end Voss.Comp
