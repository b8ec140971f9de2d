import Verif.Pre.Early
import Verif.Pre.FparamLemmas
import Verif.Lst.Props
import Mathlib.Data.List.Perm.Subperm
/- Lemmas for C92. -/
namespace Voss.Pre
variable {o : Order}
open Fn

section sets
variable {α : Type} [DecidableEq α]

theorem same_equiv : Lst.Equiv (same (α := α)) :=
  ⟨fun a => by simp [same], fun a b => by simp [same, eq_comm], fun a b c => by simp [same]; intro h1 h2; exact h1.trans h2⟩

theorem in_same {x : α} {l : List α} : Lst.In same x l ↔ x ∈ l := by
  constructor
  · rintro ⟨y, hy, h⟩
    simp only [same, decide_eq_true_iff] at h
    rw [h]; exact hy
  · intro h; exact ⟨x, h, by simp [same]⟩

theorem noDup_same {l : List α} : Lst.NoDup same l ↔ l.Nodup := by
  unfold Lst.NoDup List.Nodup same
  simp

theorem mem_inter {x : α} {a b : List α} : x ∈ Lst.intersect same a b ↔ x ∈ a ∧ x ∈ b := by
  have := (Lst.c66_sets same_equiv a b).2.2.1.1 x
  rwa [in_same, in_same, in_same] at this

theorem inter_nodup (a b : List α) : (Lst.intersect same a b).Nodup := noDup_same.1 (Lst.c66_sets same_equiv a b).2.2.1.2.1

theorem mem_subt {x : α} {a b : List α} : x ∈ Lst.subtract same a b ↔ x ∈ a ∧ x ∉ b := by
  have := (Lst.c66_sets same_equiv a b).2.2.2.1.1 x
  rwa [in_same, in_same, in_same] at this

theorem subt_sublist (a b : List α) : (Lst.subtract same a b).Sublist a := (Lst.c66_sets same_equiv a b).2.2.2.1.2.1

theorem firsts_mem {x : α} : ∀ {l : List α}, x ∈ Lst.firsts same l ↔ x ∈ l
  | [] => by simp [Lst.firsts]
  | y :: l => by
    rw [Lst.firsts, List.mem_cons, List.mem_cons, List.mem_filter, firsts_mem]
    simp only [same, Bool.not_eq_true', decide_eq_false_iff_not]
    constructor
    · rintro (h | h)
      · exact Or.inl h
      · exact Or.inr h.1
    · rintro (h | h)
      · exact Or.inl h
      · by_cases e : x = y
        · exact Or.inl e
        · exact Or.inr ⟨h, e⟩

theorem firsts_nodup : ∀ l : List α, (Lst.firsts same l).Nodup
  | [] => by simp [Lst.firsts]
  | y :: l => by
    rw [Lst.firsts, List.nodup_cons]
    refine ⟨fun h => ?_, (firsts_nodup l).filter _⟩
    have := (List.mem_filter.1 h).2
    simp [same] at this

theorem mem_setify {x : α} {l : List α} : x ∈ Lst.setify same l ↔ x ∈ l := by
  rw [Lst.setify_eq same_equiv, firsts_mem]

theorem setify_nodup (l : List α) : (Lst.setify same l).Nodup := by
  rw [Lst.setify_eq same_equiv]; exact firsts_nodup l
end sets

theorem updEach_spec (gi : List Nat → List Nat) (gc : List Nat → Nat → Nat) : ∀ (l : List String) (st : EqSt o), l.Nodup →
    (updEach gi gc l st).main = st.main ∧
    (∀ v, (updEach gi gc l st).is v = if v ∈ l then gi (st.is v) else st.is v) ∧
    ∀ v, (updEach gi gc l st).cnt v = if v ∈ l then gc (st.is v) (st.cnt v) else st.cnt v
  | [], st, _ => by simp [updEach]
  | w :: l, st, h => by
    rw [List.nodup_cons] at h
    have e : updEach gi gc (w :: l) st = updEach gi gc l
      { st with is := upd st.is w (gi (st.is w)), cnt := upd st.cnt w (gc (st.is w) (st.cnt w)) } := rfl
    obtain ⟨h1, h2, h3⟩ := updEach_spec gi gc l
      { st with is := upd st.is w (gi (st.is w)), cnt := upd st.cnt w (gc (st.is w) (st.cnt w)) } h.2
    rw [e]
    refine ⟨h1, fun v => ?_, fun v => ?_⟩
    · rw [h2]
      simp only [upd, List.mem_cons]
      by_cases hv : v = w
      · subst hv; simp [h.1]
      · simp [hv]
    · rw [h3]
      simp only [upd, List.mem_cons]
      by_cases hv : v = w
      · subst hv; simp [h.1]
      · simp [hv]

theorem set_all {β : Type} (x : β) (j : Nat) : ∀ (rem : List Nat) (m : List β),
    (rem.foldl (fun m i => m.set i x) m)[j]? = if j ∈ rem then m[j]?.map (fun _ => x) else m[j]?
  | [], m => by simp
  | i :: rem, m => by
    rw [List.foldl_cons, set_all x j rem, List.getElem?_set]
    simp only [List.mem_cons]
    by_cases h : i = j
    · subst h
      by_cases hl : i < m.length
      · simp [hl]
      · simp [hl]
    · have h' : ¬ j = i := fun e => h e.symm
      simp [h, h']

theorem lookAll_spec (m : List (Fn o × List String)) : ∀ is : List Nat, (∀ i ∈ is, ∃ e, m[i]? = some e) →
    ∃ es, lookAll m is = some es ∧ ∀ e, e ∈ es ↔ ∃ i ∈ is, m[i]? = some e
  | [], _ => ⟨[], rfl, by simp⟩
  | i :: is, h => by
    obtain ⟨e0, h0⟩ := h i (by simp)
    obtain ⟨es, h1, h2⟩ := lookAll_spec m is fun j hj => h j (List.mem_cons_of_mem _ hj)
    refine ⟨e0 :: es, by rw [lookAll, h0, h1]; rfl, fun e => ?_⟩
    rw [List.mem_cons, h2]
    constructor
    · rintro (rfl | ⟨j, hj, he⟩)
      · exact ⟨i, by simp, h0⟩
      · exact ⟨j, List.mem_cons_of_mem _ hj, he⟩
    · rintro ⟨j, hj, he⟩
      rcases List.mem_cons.1 hj with rfl | hj
      · rw [h0, Option.some.injEq] at he; exact Or.inl he.symm
      · exact Or.inr ⟨j, hj, he⟩

theorem conj_ev (es : List (Fn o × List String)) (η : Env) :
    (es.foldr (fun e r => e.1.and r) (tt o)).ev η = true ↔ ∀ e ∈ es, e.1.ev η = true := by
  induction es with
  | nil => simp
  | cons e es ih => simp [ih]

/-- What holds between the rounds; `Φ` is what is to be computed. -/
structure EInv (Q keys vars : List String) (N : Nat) (Φ : Env → Prop) (st : EqSt o) : Prop where
  vnd : vars.Nodup
  vk : ∀ v ∈ vars, v ∈ keys
  vq : ∀ v ∈ vars, v ∈ Q
  dnd : ∀ (i : Nat) (e : Fn o × List String), st.main[i]? = some e → e.2.Nodup
  dv : ∀ (i : Nat) (e : Fn o × List String), st.main[i]? = some e → ∀ v ∈ e.2, v ∈ vars
  dep : ∀ (i : Nat) (e : Fn o × List String), st.main[i]? = some e → ∀ η ζ : Env, (∀ n, n ∉ Q ∨ n ∈ e.2 → η n = ζ n) → e.1.ev η = e.1.ev ζ
  isnd : ∀ v ∈ vars, (st.is v).Nodup
  ismem : ∀ v ∈ vars, ∀ i : Nat, i ∈ st.is v ↔ ∃ e : Fn o × List String, st.main[i]? = some e ∧ v ∈ e.2
  isne : ∀ v ∈ vars, st.is v ≠ []
  cnt : ∀ v ∈ vars, st.cnt v = (st.is v).length
  sem : ∀ η : Env, (∃ ζ : Env, (∀ n, n ∉ Q → ζ n = η n) ∧
    ∀ (i : Nat) (e : Fn o × List String), st.main[i]? = some e → e.1.ev ζ = true) ↔ Φ η
  len : st.main.length = N

variable {Q keys vars : List String} {N : Nat} {Φ : Env → Prop} {st : EqSt o}

theorem EInv.merge (h : EInv Q keys vars N Φ st) {v0 : String} (hv : v0 ∈ vars) :
    ∃ st' idx, mergeFuns st (st.is v0) = some st' ∧ EInv Q keys vars N Φ st' ∧ st'.is v0 = [idx] := by
  cases his : st.is v0 with
  | nil => exact absurd his (h.isne v0 hv)
  | cons idx rem =>
    have hlook : ∀ i ∈ idx :: rem, ∃ e, st.main[i]? = some e ∧ v0 ∈ e.2 := fun i hi => (h.ismem v0 hv i).1 (his ▸ hi)
    have hnd : (idx :: rem).Nodup := his ▸ h.isnd v0 hv
    obtain ⟨es, hes, hmem⟩ := lookAll_spec st.main (idx :: rem) fun i hi => (hlook i hi).imp fun _ h => h.1
    set newFun := es.foldr (fun e r => e.1.and r) (tt o) with hF
    set newDep := Lst.setify same (es.flatMap fun e => e.2) with hD
    set main := rem.foldl (fun m i => m.set i (tt o, [])) (st.main.set idx (newFun, newDep)) with hM
    obtain ⟨u1, u2, u3⟩ := updEach_spec (fun is => idx :: Lst.subtract same is (idx :: rem))
      (fun is _ => (idx :: Lst.subtract same is (idx :: rem)).length) newDep { st with main := main } (setify_nodup _)
    obtain ⟨e0, he0, hv0⟩ := hlook idx (by simp)
    have hidx : idx < st.main.length := (List.getElem?_eq_some_iff.1 he0).1
    have hdep : ∀ v, v ∈ newDep ↔ ∃ i ∈ idx :: rem, ∃ e, st.main[i]? = some e ∧ v ∈ e.2 := by
      intro v
      rw [hD, mem_setify, List.mem_flatMap]
      constructor
      · rintro ⟨e, he, hve⟩
        obtain ⟨i, hi, h1⟩ := (hmem e).1 he
        exact ⟨i, hi, e, h1, hve⟩
      · rintro ⟨i, hi, e, h1, hve⟩
        exact ⟨e, (hmem e).2 ⟨i, hi, h1⟩, hve⟩
    rw [List.nodup_cons] at hnd
    have hmain : ∀ j, main[j]? = if j = idx then some (newFun, newDep) else if j ∈ rem then some (tt o, []) else st.main[j]? := by
      intro j
      rw [hM, set_all, List.getElem?_set]
      by_cases hj : j = idx
      · subst hj
        rw [if_neg hnd.1, if_pos rfl, if_pos hidx, if_pos rfl]
      · rw [if_neg hj, if_neg (fun e => hj (Eq.symm e) : ¬ idx = j)]
        by_cases hr : j ∈ rem
        · obtain ⟨e, he, _⟩ := hlook j (List.mem_cons_of_mem _ hr)
          rw [if_pos hr, if_pos hr, he]; rfl
        · rw [if_neg hr, if_neg hr]
    have hent : ∀ j e, main[j]? = some e → (j = idx ∧ e = (newFun, newDep)) ∨ (j ∈ rem ∧ e = (tt o, [])) ∨
        (j ∉ idx :: rem ∧ st.main[j]? = some e) := by
      intro j e he
      rw [hmain] at he
      by_cases hj : j = idx
      · rw [if_pos hj, Option.some.injEq] at he; exact Or.inl ⟨hj, he.symm⟩
      · rw [if_neg hj] at he
        by_cases hr : j ∈ rem
        · rw [if_pos hr, Option.some.injEq] at he; exact Or.inr (Or.inl ⟨hr, he.symm⟩)
        · rw [if_neg hr] at he
          exact Or.inr (Or.inr ⟨by simp [hj, hr], he⟩)
    have hnew : ∀ v ∈ newDep, v ∈ vars := fun v hv => by
      obtain ⟨i, _, e, he, hve⟩ := (hdep v).1 hv
      exact h.dv i e he v hve
    refine ⟨updEach (fun is => idx :: Lst.subtract same is (idx :: rem))
      (fun is _ => (idx :: Lst.subtract same is (idx :: rem)).length) newDep { st with main := main }, idx, ?_, ⟨h.vnd, h.vk, h.vq, ?_, ?_, ?_, ?_, ?_, ?_, ?_, ?_, ?_⟩, ?_⟩
    · rw [mergeFuns, hes]; rfl
    · intro j e he
      rw [u1] at he
      rcases hent j e he with ⟨_, rfl⟩ | ⟨_, rfl⟩ | ⟨_, h1⟩
      · exact setify_nodup _
      · exact List.nodup_nil
      · exact h.dnd j e h1
    · intro j e he v hve
      rw [u1] at he
      rcases hent j e he with ⟨_, rfl⟩ | ⟨_, rfl⟩ | ⟨_, h1⟩
      · exact hnew v hve
      · simp at hve
      · exact h.dv j e h1 v hve
    · intro j e he η ζ hag
      rw [u1] at he
      rcases hent j e he with ⟨_, rfl⟩ | ⟨_, rfl⟩ | ⟨_, h1⟩
      · dsimp only at hag ⊢
        have : ∀ e ∈ es, e.1.ev η = e.1.ev ζ := fun e he => by
          obtain ⟨i, hi, h1⟩ := (hmem e).1 he
          refine h.dep i e h1 η ζ fun n hn => hag n ?_
          rcases hn with hn | hn
          · exact Or.inl hn
          · exact Or.inr ((hdep n).2 ⟨i, hi, e, h1, hn⟩)
        rw [Bool.eq_iff_iff, conj_ev, conj_ev]
        exact ⟨fun hh e he => (this e he).symm.trans (hh e he), fun hh e he => (this e he).trans (hh e he)⟩
      · rfl
      · exact h.dep j e h1 η ζ hag
    · intro v hv
      rw [u2]
      split
      · rw [List.nodup_cons]
        exact ⟨fun hc => (mem_subt.1 hc).2 (by simp), (h.isnd v hv).sublist (subt_sublist _ _)⟩
      · exact h.isnd v hv
    · intro v hv i
      rw [u1, u2]
      dsimp only
      by_cases hvn : v ∈ newDep
      · rw [if_pos hvn, List.mem_cons, mem_subt, h.ismem v hv, hmain]
        by_cases hi : i = idx
        · rw [if_pos hi]
          simp [hi, hvn]
        · rw [if_neg hi]
          by_cases hr : i ∈ rem
          · rw [if_pos hr]; simp [hi, hr]
          · rw [if_neg hr]; simp [hi, hr]
      · rw [if_neg hvn, h.ismem v hv, hmain]
        have hno : ∀ i ∈ idx :: rem, ¬ ∃ e, st.main[i]? = some e ∧ v ∈ e.2 := fun i hi hc => hvn ((hdep v).2 ⟨i, hi, hc⟩)
        by_cases hi : i = idx
        · rw [if_pos hi]
          constructor
          · intro hc; exact absurd hc (hno i (by simp [hi]))
          · rintro ⟨e, he, hve⟩
            rw [Option.some.injEq] at he
            subst he
            exact absurd hve hvn
        · rw [if_neg hi]
          by_cases hr : i ∈ rem
          · rw [if_pos hr]
            constructor
            · intro hc; exact absurd hc (hno i (by simp [hr]))
            · rintro ⟨e, he, hve⟩
              rw [Option.some.injEq] at he
              subst he
              simp at hve
          · rw [if_neg hr]
    · intro v hv
      rw [u2]
      split
      · simp
      · exact h.isne v hv
    · intro v hv
      rw [u2, u3]
      dsimp only
      split
      · rfl
      · exact h.cnt v hv
    · intro η
      rw [← h.sem]
      refine exists_congr fun ζ => and_congr_right fun _ => ?_
      rw [u1]
      constructor
      · intro hall i e he
        by_cases hi : i ∈ idx :: rem
        · have := hall idx (newFun, newDep) (by rw [hmain, if_pos rfl])
          exact (conj_ev es ζ).1 this e ((hmem e).2 ⟨i, hi, he⟩)
        · refine hall i e ?_
          rw [hmain, if_neg (fun e => hi (by simp [e])), if_neg (fun e => hi (List.mem_cons_of_mem _ e))]
          exact he
      · intro hall j e he
        rcases hent j e he with ⟨_, rfl⟩ | ⟨_, rfl⟩ | ⟨_, h1⟩
        · exact (conj_ev es ζ).2 fun e he => by
            obtain ⟨i, _, h1⟩ := (hmem e).1 he
            exact hall i e h1
        · rfl
        · exact hall j e h1
    · rw [u1, ← h.len]
      show main.length = _
      have : ∀ (x : Fn o × List String) (l : List Nat) (m : List (Fn o × List String)),
          (l.foldl (fun m i => m.set i x) m).length = m.length := by
        intro x l
        induction l with
        | nil => intro m; rfl
        | cons a l ih => intro m; rw [List.foldl_cons, ih, List.length_set]
      rw [hM, this, List.length_set]
    · rw [u2]
      dsimp only
      rw [if_pos ((hdep v0).2 ⟨idx, by simp, e0, he0, hv0⟩), his]
      have : Lst.subtract same (idx :: rem) (idx :: rem) = [] :=
        List.eq_nil_iff_forall_not_mem.2 fun x hx => (mem_subt.1 hx).2 (mem_subt.1 hx).1
      rw [this]

theorem EInv.quant (h : EInv Q keys vars N Φ st) {v0 : String} (hv : v0 ∈ vars) {idx : Nat} (his : st.is v0 = [idx]) :
    ∃ e, st.main[idx]? = some e ∧ v0 ∈ e.2.filter (fun v => decide (st.cnt v = 1)) ∧
      EInv Q keys (Lst.subtract same vars (e.2.filter fun v => decide (st.cnt v = 1))) N Φ
        { st with main := st.main.set idx (Quant_thereis (e.2.filter fun v => decide (st.cnt v = 1)) e.1,
          Lst.subtract same e.2 (e.2.filter fun v => decide (st.cnt v = 1))) } := by
  obtain ⟨e0, he0, hv0⟩ := (h.ismem v0 hv idx).1 (by simp [his])
  have hidx : idx < st.main.length := (List.getElem?_eq_some_iff.1 he0).1
  refine ⟨e0, he0, ?_, ?_⟩
  · rw [List.mem_filter]
    exact ⟨hv0, by simp [h.cnt v0 hv, his]⟩
  set only := e0.2.filter fun v => decide (st.cnt v = 1) with ho
  have honly : ∀ v ∈ only, v ∈ e0.2 ∧ v ∈ vars ∧ ∀ i e, st.main[i]? = some e → v ∈ e.2 → i = idx := by
    intro v hvo
    rw [ho, List.mem_filter] at hvo
    have hvv := h.dv idx e0 he0 v hvo.1
    refine ⟨hvo.1, hvv, fun i e he hve => ?_⟩
    have h1 : st.cnt v = 1 := by simpa using hvo.2
    rw [h.cnt v hvv] at h1
    obtain ⟨a, ha⟩ := List.length_eq_one_iff.1 h1
    have m1 := (h.ismem v hvv i).2 ⟨e, he, hve⟩
    have m2 := (h.ismem v hvv idx).2 ⟨e0, he0, hvo.1⟩
    rw [ha, List.mem_singleton] at m1 m2
    omega
  have hget : ∀ j, (st.main.set idx (Quant_thereis only e0.1, Lst.subtract same e0.2 only))[j]? =
      if j = idx then some (Quant_thereis only e0.1, Lst.subtract same e0.2 only) else st.main[j]? := by
    intro j
    rw [List.getElem?_set]
    by_cases hj : j = idx
    · subst hj; simp [hidx]
    · rw [if_neg (fun e => hj e.symm), if_neg hj]
  have hent : ∀ j e, (st.main.set idx (Quant_thereis only e0.1, Lst.subtract same e0.2 only))[j]? = some e →
      (j = idx ∧ e = (Quant_thereis only e0.1, Lst.subtract same e0.2 only)) ∨ (j ≠ idx ∧ st.main[j]? = some e) := by
    intro j e he
    rw [hget] at he
    by_cases hj : j = idx
    · rw [if_pos hj, Option.some.injEq] at he; exact Or.inl ⟨hj, he.symm⟩
    · rw [if_neg hj] at he; exact Or.inr ⟨hj, he⟩
  refine ⟨h.vnd.sublist (subt_sublist _ _), fun v hv => h.vk v (mem_subt.1 hv).1, fun v hv => h.vq v (mem_subt.1 hv).1, ?_, ?_, ?_, fun v hv => h.isnd v (mem_subt.1 hv).1, ?_,
    fun v hv => h.isne v (mem_subt.1 hv).1, fun v hv => h.cnt v (mem_subt.1 hv).1, ?_, ?_⟩
  · intro j e he
    rcases hent j e he with ⟨_, rfl⟩ | ⟨_, h1⟩
    · exact (h.dnd idx e0 he0).sublist (subt_sublist _ _)
    · exact h.dnd j e h1
  · intro j e he v hve
    rcases hent j e he with ⟨_, rfl⟩ | ⟨hj, h1⟩
    · have := mem_subt.1 hve
      exact mem_subt.2 ⟨h.dv idx e0 he0 v this.1, this.2⟩
    · exact mem_subt.2 ⟨h.dv j e h1 v hve, fun hc => hj ((honly v hc).2.2 j e h1 hve)⟩
  · intro j e he η ζ hag
    rcases hent j e he with ⟨_, rfl⟩ | ⟨_, h1⟩
    · dsimp only at hag ⊢
      have key : ∀ η ζ : Env, (∀ n, n ∉ Q ∨ n ∈ Lst.subtract same e0.2 only → η n = ζ n) →
          (Quant_thereis only e0.1).ev η = true → (Quant_thereis only e0.1).ev ζ = true := by
        intro η ζ hag hq
        rw [Quant_thereis_ev] at hq ⊢
        obtain ⟨ξ, x1, x2⟩ := hq
        refine ⟨fun n => if n ∈ only then ξ n else ζ n, fun n hn => if_neg hn, ?_⟩
        rw [← x2]
        refine h.dep idx e0 he0 _ _ fun n hn => ?_
        by_cases hno : n ∈ only
        · exact if_pos hno
        · rw [if_neg hno, x1 n hno]
          refine (hag n ?_).symm
          rcases hn with hn | hn
          · exact Or.inl hn
          · exact Or.inr (mem_subt.2 ⟨hn, hno⟩)
      rw [Bool.eq_iff_iff]
      exact ⟨key η ζ hag, key ζ η fun n hn => (hag n hn).symm⟩
    · exact h.dep j e h1 η ζ hag
  · intro v hv i
    have hv' := mem_subt.1 hv
    dsimp only
    rw [h.ismem v hv'.1, hget]
    by_cases hi : i = idx
    · subst hi
      rw [if_pos rfl]
      constructor
      · rintro ⟨e, he, hve⟩
        rw [he0, Option.some.injEq] at he
        subst he
        exact ⟨_, rfl, mem_subt.2 ⟨hve, hv'.2⟩⟩
      · rintro ⟨e, he, hve⟩
        rw [Option.some.injEq] at he
        subst he
        exact ⟨e0, he0, (mem_subt.1 hve).1⟩
    · rw [if_neg hi]
  · intro η
    rw [← h.sem]
    dsimp only
    constructor
    · rintro ⟨ζ, z1, z2⟩
      have hq := z2 idx _ (by rw [hget, if_pos rfl])
      dsimp only at hq
      rw [Quant_thereis_ev] at hq
      obtain ⟨ξ, x1, x2⟩ := hq
      refine ⟨ξ, fun n hn => ?_, fun i e he => ?_⟩
      · rw [x1 n fun hc => hn (h.vq n (honly n hc).2.1)]
        exact z1 n hn
      · by_cases hi : i = idx
        · subst hi
          rw [he0, Option.some.injEq] at he
          subst he
          exact x2
        · rw [← z2 i e (by rw [hget, if_neg hi]; exact he)]
          refine h.dep i e he _ _ fun n hn => x1 n fun hc => ?_
          rcases hn with hn | hn
          · exact hn (h.vq n (honly n hc).2.1)
          · exact hi ((honly n hc).2.2 i e he hn)
    · rintro ⟨ζ, z1, z2⟩
      refine ⟨ζ, z1, fun j e he => ?_⟩
      rcases hent j e he with ⟨_, rfl⟩ | ⟨_, h1⟩
      · exact (Quant_thereis_ev _ _ _).2 ⟨ζ, fun _ _ => rfl, z2 idx e0 he0⟩
      · exact z2 j e h1
  · simpa using h.len

theorem findSmallest_mem (cnt : String → Nat) : ∀ (vs : List String) (cv : String) (cs : Nat),
    findSmallest cnt cv cs vs ∈ vs ∨ (findSmallest cnt cv cs vs = cv ∧ ∀ v ∈ vs, cs ≤ cnt v)
  | [], cv, cs => Or.inr ⟨rfl, by simp⟩
  | v :: vs, cv, cs => by
    rw [findSmallest]
    split
    · rcases findSmallest_mem cnt vs v (cnt v) with h | ⟨h, _⟩
      · exact Or.inl (List.mem_cons_of_mem _ h)
      · exact Or.inl (by rw [h]; simp)
    · next hc =>
      rcases findSmallest_mem cnt vs cv cs with h | ⟨h1, h2⟩
      · exact Or.inl (List.mem_cons_of_mem _ h)
      · refine Or.inr ⟨h1, fun w hw => ?_⟩
        rcases List.mem_cons.1 hw with rfl | hw
        · omega
        · exact h2 w hw

theorem EInv.is_le (h : EInv Q keys vars N Φ st) {v : String} (hv : v ∈ vars) : st.cnt v ≤ N := by
  rw [h.cnt v hv, ← h.len]
  have : (st.is v).Subperm (List.range st.main.length) := List.subperm_of_subset (h.isnd v hv) fun i hi => by
    obtain ⟨e, he, _⟩ := (h.ismem v hv i).1 hi
    exact List.mem_range.2 (List.getElem?_eq_some_iff.1 he).1
  simpa using this.length_le

theorem eqDo_spec (hN : N < 2 ^ 60) : ∀ (k : Nat) (vars : List String) (st : EqSt o), vars.length < k → EInv Q keys vars N Φ st →
    ∃ rs, eqDo keys k st vars = some rs ∧ (∀ η, (∀ r ∈ rs, r.ev η = true) ↔ Φ η) ∧ rs.length ≤ N + 1 ∧
      ∀ r ∈ rs, ∀ η ζ : Env, (∀ n, n ∉ Q → η n = ζ n) → r.ev η = r.ev ζ
  | 0, _, _, h, _ => by omega
  | k + 1, vars, st, hk, h => by
    by_cases hv : vars = []
    · have hdep : ∀ (i : Nat) (e : Fn o × List String), st.main[i]? = some e → ∀ η ζ : Env, (∀ n, n ∉ Q → η n = ζ n) → e.1.ev η = e.1.ev ζ := by
        intro i e he η ζ hag
        refine h.dep i e he η ζ fun n hn => ?_
        rcases hn with hn | hn
        · exact hag n hn
        · have := h.dv i e he n hn
          rw [hv] at this; simp at this
      have hsem : ∀ η, (∀ (i : Nat) (e : Fn o × List String), st.main[i]? = some e → e.1.ev η = true) ↔ Φ η := by
        intro η
        rw [← h.sem]
        constructor
        · intro hh; exact ⟨η, fun _ _ => rfl, hh⟩
        · rintro ⟨ζ, z1, z2⟩ i e he
          rw [← z2 i e he]
          exact hdep i e he _ _ fun n hn => (z1 n hn).symm
      have hmem : ∀ r, r ∈ (st.main.map Prod.fst).filter (fun f => decide (f ≠ tt o)) ↔
          (∃ (i : Nat) (e : Fn o × List String), st.main[i]? = some e ∧ e.1 = r) ∧ r ≠ tt o := by
        intro r
        rw [List.mem_filter, decide_eq_true_iff, List.mem_map]
        refine and_congr_left fun _ => ?_
        constructor
        · rintro ⟨e, he, hr⟩
          obtain ⟨i, hi⟩ := List.mem_iff_getElem?.1 he
          exact ⟨i, e, hi, hr⟩
        · rintro ⟨i, e, he, hr⟩
          exact ⟨e, List.mem_of_getElem? he, hr⟩
      have hall : ∀ η, (∀ r ∈ (st.main.map Prod.fst).filter (fun f => decide (f ≠ tt o)), r.ev η = true) ↔ Φ η := by
        intro η
        rw [← hsem]
        constructor
        · intro hh i e he
          by_cases ht : e.1 = tt o
          · rw [ht]; rfl
          · exact hh _ ((hmem _).2 ⟨⟨i, e, he, rfl⟩, ht⟩)
        · intro hh r hr
          obtain ⟨⟨i, e, he, rfl⟩, _⟩ := (hmem r).1 hr
          exact hh i e he
      refine ⟨_, by rw [eqDo, if_pos hv], fun η => ?_, ?_, ?_⟩
      · split
        · next he =>
          rw [← hall η, he]
          simp
        · exact hall η
      · split
        · simp
        · refine le_trans (List.length_filter_le _ _) ?_
          rw [List.length_map, h.len]; omega
      · intro r hr η ζ hag
        split at hr
        · rw [List.mem_singleton] at hr; rw [hr]; rfl
        · obtain ⟨⟨i, e, he, rfl⟩, _⟩ := (hmem r).1 hr
          exact hdep i e he η ζ hag
    · have hsm : findSmallest st.cnt "" (2 ^ 60) vars ∈ vars := by
        rcases findSmallest_mem st.cnt vars "" (2 ^ 60) with h1 | ⟨_, h2⟩
        · exact h1
        · cases vars with
          | nil => exact absurd rfl hv
          | cons v vs =>
            have h3 := h2 v (by simp)
            have h4 := h.is_le (v := v) (by simp)
            omega
      obtain ⟨st1, idx, m1, m2, m3⟩ := h.merge hsm
      obtain ⟨e, q1, q2, q3⟩ := m2.quant hsm m3
      have hlt : (Lst.subtract same vars (e.2.filter fun v => decide (st1.cnt v = 1))).length < k := by
        have : (Lst.subtract same vars (e.2.filter fun v => decide (st1.cnt v = 1))).length < vars.length := by
          refine lt_of_le_of_ne (subt_sublist _ _).length_le fun he => ?_
          have := (subt_sublist _ _).eq_of_length he
          have h2 : ∀ x ∈ vars, x ∉ e.2.filter fun v => decide (st1.cnt v = 1) := fun x hx => by
            rw [← this] at hx
            exact (mem_subt.1 hx).2
          exact h2 _ hsm q2
        omega
      obtain ⟨rs, r1, r2⟩ := eqDo_spec hN k _ _ hlt q3
      refine ⟨rs, ?_, r2⟩
      rw [eqDo, if_neg hv]
      dsimp only
      rw [if_neg (not_not.2 (h.vk _ hsm)), m1, Option.bind_some, m3]
      dsimp only
      rw [q1, Option.bind_some]
      exact r1

theorem mkInfo_spec (keys : List String) : ∀ (fs : List (Fn o)) (st : EqSt o),
    (∀ (i : Nat) (e : Fn o × List String), st.main[i]? = some e → e.2 = Lst.intersect same keys (depends [e.1])) →
    (∀ v (i : Nat), i ∈ st.is v ↔ ∃ e : Fn o × List String, st.main[i]? = some e ∧ v ∈ e.2) → (∀ v, (st.is v).Nodup) → (∀ v, st.cnt v = (st.is v).length) →
    (mkInfo keys fs st).main.map Prod.fst = st.main.map Prod.fst ++ fs ∧
    (∀ (i : Nat) (e : Fn o × List String), (mkInfo keys fs st).main[i]? = some e → e.2 = Lst.intersect same keys (depends [e.1])) ∧
    (∀ v (i : Nat), i ∈ (mkInfo keys fs st).is v ↔ ∃ e : Fn o × List String, (mkInfo keys fs st).main[i]? = some e ∧ v ∈ e.2) ∧
    (∀ v, ((mkInfo keys fs st).is v).Nodup) ∧ ∀ v, (mkInfo keys fs st).cnt v = ((mkInfo keys fs st).is v).length
  | [], st, h1, h2, h3, h4 => by rw [mkInfo]; exact ⟨by simp, h1, h2, h3, h4⟩
  | f :: fs, st, h1, h2, h3, h4 => by
    rw [mkInfo]
    set dep := Lst.intersect same keys (depends [f]) with hd
    obtain ⟨u1, u2, u3⟩ := updEach_spec (fun is => st.main.length :: is) (fun _ c => c + 1) dep st (inter_nodup _ _)
    have hlt : ∀ v i, i ∈ st.is v → i < st.main.length := fun v i hi => by
      obtain ⟨e, he, _⟩ := (h2 v i).1 hi
      exact (List.getElem?_eq_some_iff.1 he).1
    have hget : ∀ i e, (st.main ++ [(f, dep)])[i]? = some e ↔ st.main[i]? = some e ∨ (i = st.main.length ∧ e = (f, dep)) := by
      intro i e
      by_cases hi : i < st.main.length
      · rw [List.getElem?_append_left hi]
        constructor
        · exact Or.inl
        · rintro (h | h)
          · exact h
          · omega
      · rw [List.getElem?_append_right (by omega), List.getElem?_eq_none (by omega : st.main.length ≤ i)]
        by_cases he : i = st.main.length
        · subst he
          simp [eq_comm]
        · have : ([(f, dep)] : List (Fn o × List String))[i - st.main.length]? = none := List.getElem?_eq_none (by simp; omega)
          rw [this]
          simp [he]
    obtain ⟨r1, r2⟩ := mkInfo_spec keys fs
      { updEach (fun is => st.main.length :: is) (fun _ c => c + 1) dep st with
        main := (updEach (fun is => st.main.length :: is) (fun _ c => c + 1) dep st).main ++ [(f, dep)] }
      (by
        intro i e he
        dsimp only at he
        rw [u1, hget] at he
        rcases he with he | ⟨_, rfl⟩
        · exact h1 i e he
        · rfl)
      (by
        intro v i
        dsimp only
        rw [u1, u2]
        constructor
        · intro hi
          split at hi
          · next hv =>
            rcases List.mem_cons.1 hi with rfl | hi
            · exact ⟨(f, dep), (hget _ _).2 (Or.inr ⟨rfl, rfl⟩), hv⟩
            · obtain ⟨e, he, hve⟩ := (h2 v i).1 hi
              exact ⟨e, (hget _ _).2 (Or.inl he), hve⟩
          · obtain ⟨e, he, hve⟩ := (h2 v i).1 hi
            exact ⟨e, (hget _ _).2 (Or.inl he), hve⟩
        · rintro ⟨e, he, hve⟩
          rcases (hget i e).1 he with he | ⟨rfl, rfl⟩
          · have := (h2 v i).2 ⟨e, he, hve⟩
            split
            · exact List.mem_cons_of_mem _ this
            · exact this
          · rw [if_pos hve]; simp)
      (by
        intro v
        dsimp only
        rw [u2]
        split
        · rw [List.nodup_cons]
          exact ⟨fun hc => Nat.lt_irrefl _ (hlt v _ hc), h3 v⟩
        · exact h3 v)
      (by
        intro v
        dsimp only
        rw [u2, u3]
        split
        · rw [h4 v]; rfl
        · exact h4 v)
    refine ⟨?_, r2⟩
    rw [r1]
    dsimp only
    rw [u1]
    simp

end Voss.Pre
