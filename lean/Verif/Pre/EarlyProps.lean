import Verif.Pre.EarlyLemmas
/-
C92: early quantification.

`early_quant_thereis qvars fns` is to eliminate the variables `qvars` from the conjunction of the functions `fns`;
its result is again a list of functions that stands for their conjunction.
-/
namespace Voss.Pre
variable {o : Order}
open Fn

/-- C92: `early_quant_thereis` always terminates without failing; the conjunction of its results is the existential
quantification of the conjunction of the functions; and none of the results depends on a quantified variable.
(The number of functions is less than 2^60.) -/
theorem c92_early (qvars : List String) (fns : List (Fn o)) (hN : fns.length < 2 ^ 60) :
    ∃ rs, earlyQuant qvars fns = some rs ∧
      (∀ η, (∀ r ∈ rs, r.ev η = true) ↔ ∃ ζ : Env, (∀ n, n ∉ qvars → ζ n = η n) ∧ ∀ f ∈ fns, f.ev ζ = true) ∧
      (∀ n ∈ depends rs, n ∉ qvars) ∧ rs.length ≤ fns.length + 1 := by
  unfold earlyQuant
  dsimp only
  set avars := Lst.intersect same qvars (depends fns) with ha
  set rel := fun f : Fn o => decide (Lst.intersect same avars (depends [f]) ≠ []) with hrel
  set rfns := fns.filter rel with hr
  set keys := Lst.intersect same avars (depends rfns) with hk
  have hdep1 : ∀ {v : String} {fs : List (Fn o)}, v ∈ depends fs ↔ ∃ f ∈ fs, v ∈ depends [f] := by
    intro v fs
    rw [mem_depends]
    constructor
    · rintro ⟨f, hf, h⟩
      exact ⟨f, hf, mem_depends.2 ⟨f, by simp, h⟩⟩
    · rintro ⟨f, hf, h⟩
      obtain ⟨g, hg, hx⟩ := mem_depends.1 h
      rw [List.mem_singleton] at hg
      subst hg
      exact ⟨_, hf, hx⟩
  have hq : ∀ f ∈ fns, ∀ n ∈ qvars, n ∈ depends [f] → n ∈ avars := fun f hf n hn hd =>
    mem_inter.2 ⟨hn, hdep1.2 ⟨f, hf, hd⟩⟩
  have hrelv : ∀ f ∈ fns, ∀ v ∈ avars, v ∈ depends [f] → f ∈ rfns := by
    intro f hf v hv hd
    rw [hr, List.mem_filter]
    refine ⟨hf, ?_⟩
    rw [hrel]
    simp only [decide_eq_true_iff]
    intro he
    have : v ∈ Lst.intersect same avars (depends [f]) := mem_inter.2 ⟨hv, hd⟩
    rw [he] at this
    simp at this
  have hkeys : ∀ v, v ∈ keys ↔ v ∈ avars := by
    intro v
    rw [hk, mem_inter]
    refine ⟨fun h => h.1, fun h => ⟨h, ?_⟩⟩
    obtain ⟨f, hf, hd⟩ := hdep1.1 (mem_inter.1 h).2
    exact hdep1.2 ⟨f, hrelv f hf v h hd, hd⟩
  obtain ⟨i1, i2, i3, i4, i5⟩ := mkInfo_spec keys rfns ⟨[], fun _ => [], fun _ => 0⟩ (by simp) (by simp) (by simp) (by simp)
  set st := mkInfo keys rfns ⟨[], fun _ => [], fun _ => 0⟩ with hst
  have hmain : ∀ f, f ∈ rfns ↔ ∃ (i : Nat) (e : Fn o × List String), st.main[i]? = some e ∧ e.1 = f := by
    intro f
    have : rfns = st.main.map Prod.fst := by rw [i1]; simp
    rw [this, List.mem_map]
    constructor
    · rintro ⟨e, he, hr⟩
      obtain ⟨i, hi⟩ := List.mem_iff_getElem?.1 he
      exact ⟨i, e, hi, hr⟩
    · rintro ⟨i, e, he, hr⟩
      exact ⟨e, List.mem_of_getElem? he, hr⟩
  have hlen : st.main.length = rfns.length := by
    have : (st.main.map Prod.fst).length = rfns.length := by rw [i1]; simp
    simpa using this
  have hinv : EInv qvars keys avars rfns.length
      (fun η => ∃ ζ : Env, (∀ n, n ∉ qvars → ζ n = η n) ∧ ∀ f ∈ rfns, f.ev ζ = true) st := by
    refine ⟨inter_nodup _ _, fun v hv => (hkeys v).2 hv, fun v hv => (mem_inter.1 hv).1, ?_, ?_, ?_, fun v _ => i4 v, fun v _ => i3 v, ?_, fun v _ => i5 v, ?_, hlen⟩
    · intro i e he
      rw [i2 i e he]; exact inter_nodup _ _
    · intro i e he v hv
      rw [i2 i e he] at hv
      exact (hkeys v).1 (mem_inter.1 hv).1
    · intro i e he η ζ hag
      refine ev_depends (fs := [e.1]) (by simp) fun n hn => hag n ?_
      by_cases hnk : n ∈ qvars
      · right
        rw [i2 i e he]
        have hf : e.1 ∈ fns := (List.mem_filter.1 ((hmain _).2 ⟨i, e, he, rfl⟩)).1
        exact mem_inter.2 ⟨(hkeys n).2 (hq _ hf n hnk hn), hn⟩
      · exact Or.inl hnk
    · intro v hv he
      obtain ⟨f, hf, hd⟩ := hdep1.1 (mem_inter.1 hv).2
      obtain ⟨i, e, h1, h2⟩ := (hmain f).1 (hrelv f hf v hv hd)
      have : i ∈ st.is v := (i3 v i).2 ⟨e, h1, by rw [i2 i e h1, h2]; exact mem_inter.2 ⟨(hkeys v).2 hv, hd⟩⟩
      rw [he] at this
      simp at this
    · intro η
      refine exists_congr fun ζ => and_congr_right fun _ => ?_
      constructor
      · intro hh f hf
        obtain ⟨i, e, h1, rfl⟩ := (hmain f).1 hf
        exact hh i e h1
      · intro hh i e he
        exact hh _ ((hmain _).2 ⟨i, e, he, rfl⟩)
  have hrl : rfns.length ≤ fns.length := List.length_filter_le _ _
  obtain ⟨rs, r1, r2, r3, r4⟩ := eqDo_spec (by omega) (avars.length + 1) avars st (by omega) hinv
  have hother : ∀ f ∈ fns.filter (fun f => !rel f), f ∈ fns ∧ ∀ v ∈ avars, v ∉ depends [f] := by
    intro f hf
    rw [List.mem_filter] at hf
    refine ⟨hf.1, fun v hv hd => ?_⟩
    have := hrelv f hf.1 v hv hd
    rw [hr, List.mem_filter] at this
    rw [this.2] at hf
    simp at hf
  refine ⟨rs ++ fns.filter fun f => !rel f, by rw [r1]; rfl, fun η => ?_, ?_, ?_⟩
  · have hsplit : (∀ r ∈ rs ++ fns.filter (fun f => !rel f), r.ev η = true) ↔
        (∀ r ∈ rs, r.ev η = true) ∧ ∀ f ∈ fns.filter (fun f => !rel f), f.ev η = true := by
      simp only [List.mem_append]
      exact ⟨fun h => ⟨fun r hr => h r (Or.inl hr), fun r hr => h r (Or.inr hr)⟩, fun h r hr => hr.elim (h.1 r) (h.2 r)⟩
    rw [hsplit, r2]
    constructor
    · rintro ⟨⟨ζ, z1, z2⟩, h2⟩
      refine ⟨ζ, z1, fun f hf => ?_⟩
      by_cases hrf : rel f = true
      · exact z2 f (List.mem_filter.2 ⟨hf, hrf⟩)
      · have hfo : f ∈ fns.filter (fun f => !rel f) := List.mem_filter.2 ⟨hf, by simp [hrf]⟩
        rw [← h2 f hfo]
        exact ev_depends (fs := [f]) (by simp) fun n hn => z1 n fun hc => (hother f hfo).2 n (hq f hf n hc hn) hn
    · rintro ⟨ζ, z1, z2⟩
      refine ⟨⟨ζ, z1, fun f hf => z2 f (List.mem_filter.1 hf).1⟩, fun f hf => ?_⟩
      obtain ⟨hf', ho⟩ := hother f hf
      rw [← z2 f hf']
      exact ev_depends (fs := [f]) (by simp) fun n hn => (z1 n fun hq' => ho n (hq f hf' n hq' hn) hn).symm
  · intro n hn hnq
    obtain ⟨f, hf, η, hne⟩ := mem_depends.1 hn
    rcases List.mem_append.1 hf with hf | hf
    · refine hne (r4 f hf _ _ fun m hm => ?_)
      have : m ≠ n := fun e => hm (e ▸ hnq)
      simp [Env.set, this]
    · obtain ⟨hf', ho⟩ := hother f hf
      have hd : n ∈ depends [f] := mem_depends.2 ⟨f, by simp, η, hne⟩
      exact ho n (hq f hf' n hnq hd) hd
  · rw [List.length_append]
    have : rfns.length + (fns.filter fun f => !rel f).length = fns.length := by
      rw [hr, ← List.length_append]
      exact (List.filter_append_perm rel fns).length_eq
    omega

/-- Three functions, of which `a` and `b` are to be eliminated: `a → c`, `a XOR b`, `b → d`, and one without them. -/
def chain (o : Order) : List (Fn o) :=
  [((var o "a").not).or (var o "c"), (var o "a").xor (var o "b"), ((var o "b").not).or (var o "d"), (var o "e")]

example : earlyQuant ["b", "a", "b", "z"] (chain codeOrder) =
    some [(var codeOrder "c").or (var codeOrder "d"), var codeOrder "e"] ∧
    earlyQuant ["z"] (chain codeOrder) = some (tt _ :: chain codeOrder) ∧
    earlyQuant ["a", "b", "c", "d"] (chain codeOrder) = some [tt _, var codeOrder "e"] := by decide +kernel

end Voss.Pre
