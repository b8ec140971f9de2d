import Verif.Pre.ParamLemmas
import Mathlib.Data.List.Forall2
/- Lemmas for C86: next-state names and `fparam`. -/
namespace Voss.Pre
variable {o : Order}
open Fn

/-- The name of the variable that stands for `s` in the next state; a name that is already one stays. -/
def nxt (s : String) : String := if isNext s then s else s ++ "_n"

theorem isNext_append (s : String) : isNext (s ++ "_n") = true := by
  unfold isNext
  rw [List.isSuffixOf_iff_suffix, String.toList_append]
  exact List.suffix_append _ _

theorem append_n_inj {a b : String} (h : a ++ "_n" = b ++ "_n") : a = b := by
  have := congrArg String.toList h
  rw [String.toList_append, String.toList_append] at this
  exact String.toList_inj.1 (List.append_cancel_right this)

theorem lookup_map_var {g : String → Fn o} {l : List String} {n : String} :
    (l.map fun n => (n, g n)).lookup n = if n ∈ l then some (g n) else none := by
  induction l with
  | nil => simp
  | cons a l ih =>
    rw [List.map_cons, List.lookup_cons]
    by_cases h : n = a
    · subst h; simp
    · simp [h, beq_eq_false_iff_ne.2 h, ih]

theorem depends_vars {l : List String} {n : String} : n ∈ depends (l.map (var o)) ↔ n ∈ l := by
  rw [mem_depends]
  constructor
  · rintro ⟨f, hf, η, h⟩
    obtain ⟨v, hv, rfl⟩ := List.mem_map.1 hf
    by_cases e : n = v
    · exact e ▸ hv
    · exact absurd (by simp [Env.set, Ne.symm e]) h
  · intro h
    exact ⟨var o n, List.mem_map.2 ⟨n, h, rfl⟩, fun _ => false, by simp [Env.set]⟩

/-- What `bdd_current2next` does when no next-state name is there already. -/
theorem current2next_some {fs : List (Fn o)}
    (h : ∀ c ∈ depends fs, isNext c = false → c ++ "_n" ∉ depends fs) :
    ∃ rs, current2next fs = some rs ∧ List.Forall₂ (fun f r => ∀ η, r.ev η = f.ev fun n => η (nxt n)) fs rs := by
  unfold current2next
  dsimp only
  generalize hcur : (depends fs).filter (fun s => !isNext s) = cur
  have hsub : (cur.map fun n => (n, var o (n ++ "_n"))).map Prod.snd = (cur.map (· ++ "_n")).map (var o) := by
    simp [Function.comp_def]
  have hnone : (depends ((cur.map fun n => (n, var o (n ++ "_n"))).map Prod.snd)).filter
      (· ∈ (depends fs).filter isNext) = [] := by
    rw [List.filter_eq_nil_iff]
    intro n hn hn2
    rw [hsub, depends_vars] at hn
    obtain ⟨c, hc, rfl⟩ := List.mem_map.1 hn
    rw [← hcur, List.mem_filter] at hc
    simp only [decide_eq_true_eq, List.mem_filter] at hn2
    exact h c hc.1 (by simpa using hc.2) hn2.1
  refine ⟨_, if_pos hnone, ?_⟩
  rw [List.forall₂_map_right_iff]
  refine List.forall₂_same.2 fun f hf η => ?_
  rw [subst_ev]
  refine ev_depends hf fun n hn => ?_
  unfold under nxt
  rw [lookup_map_var]
  by_cases hx : isNext n = true
  · have : n ∉ cur := by rw [← hcur, List.mem_filter]; simp [hx]
    simp [this, hx]
  · have : n ∈ cur := by rw [← hcur, List.mem_filter]; simp [hx, hn]
    simp [this, hx]

theorem current2next_none {fs : List (Fn o)} {c : String} (hc : c ∈ depends fs) (h1 : isNext c = false)
    (h2 : c ++ "_n" ∈ depends fs) : current2next fs = none := by
  unfold current2next
  rw [if_neg]
  intro h
  rw [List.filter_eq_nil_iff] at h
  have hsub : ((((depends fs).filter fun s => !isNext s).map fun n => (n, var o (n ++ "_n"))).map Prod.snd) =
      (((depends fs).filter fun s => !isNext s).map (· ++ "_n")).map (var o) := by
    simp [Function.comp_def]
  refine h (c ++ "_n") ?_ ?_
  · rw [hsub, depends_vars]
    exact List.mem_map.2 ⟨c, List.mem_filter.2 ⟨hc, by simp [h1]⟩, rfl⟩
  · simp [h2, isNext_append]

theorem next1_some {f : Fn o} (h : ∀ c ∈ depends [f], isNext c = false → c ++ "_n" ∉ depends [f]) :
    ∃ r, next1 f = some r ∧ ∀ η, r.ev η = f.ev fun n => η (nxt n) := by
  obtain ⟨rs, e, hF⟩ := current2next_some h
  cases hF with
  | cons h1 h2 =>
    cases h2
    exact ⟨_, by unfold next1; rw [e]; rfl, h1⟩

theorem next1_var (v : String) : next1 (var o v) = some (var o (nxt v)) := by
  have hd : ∀ n, n ∈ depends [var o v] ↔ n = v := by
    intro n
    have := depends_vars (o := o) (l := [v]) (n := n)
    simpa using this
  obtain ⟨r, e, hr⟩ := next1_some (f := var o v) (by
    intro c hc hx hc2
    rw [hd] at hc hc2
    subst hc
    have h1 := isNext_append c
    rw [hc2] at h1
    rw [h1] at hx
    exact absurd hx (by simp))
  rw [e]
  congr 1
  refine Fn.ext fun η => ?_
  rw [hr, var_ev, var_ev]

theorem quant_or_vars {vs : List String} {n : String} :
    n ∈ depends [vs.foldr (fun v r => (var o v).or r) (ff o)] ↔ n ∈ vs := by
  have hev : ∀ (vs : List String) (η : Env), (vs.foldr (fun v r => (var o v).or r) (ff o)).ev η = vs.any η := by
    intro vs η
    induction vs with
    | nil => rfl
    | cons v vs ih => simp [ih]
  rw [mem_depends]
  constructor
  · rintro ⟨f, hf, η, h⟩
    simp only [List.mem_singleton] at hf
    subst hf
    by_contra hn
    apply h
    rw [hev, hev]
    have : ∀ b, vs.any (η.set n b) = vs.any η := fun b => by
      rw [Bool.eq_iff_iff, List.any_eq_true, List.any_eq_true]
      constructor
      · rintro ⟨x, hx, h⟩; exact ⟨x, hx, by rwa [Env.set, if_neg (fun e : x = n => hn (e ▸ hx))] at h⟩
      · rintro ⟨x, hx, h⟩; exact ⟨x, hx, by rwa [Env.set, if_neg (fun e : x = n => hn (e ▸ hx))]⟩
    rw [this, this]
  · intro hn
    refine ⟨_, List.mem_singleton.2 rfl, fun _ => false, ?_⟩
    rw [hev, hev]
    have h1 : vs.any (Env.set (fun _ => false) n true) = true := List.any_eq_true.2 ⟨n, hn, by simp [Env.set]⟩
    have h2 : vs.any (Env.set (fun _ => false) n false) = false := by
      rw [List.any_eq_false]; intro x _; simp [Env.set]
    rw [h1, h2]
    simp

theorem quant_and_vars {vs : List String} {n : String} :
    n ∈ depends [vs.foldr (fun v r => (var o v).and r) (tt o)] ↔ n ∈ vs := by
  have hev : ∀ (vs : List String) (η : Env), (vs.foldr (fun v r => (var o v).and r) (tt o)).ev η = vs.all η := by
    intro vs η
    induction vs with
    | nil => rfl
    | cons v vs ih => simp [ih]
  rw [mem_depends]
  constructor
  · rintro ⟨f, hf, η, h⟩
    simp only [List.mem_singleton] at hf
    subst hf
    by_contra hn
    apply h
    rw [hev, hev]
    have : ∀ b, vs.all (η.set n b) = vs.all η := fun b => by
      rw [Bool.eq_iff_iff, List.all_eq_true, List.all_eq_true]
      refine forall₂_congr fun x hx => ?_
      rw [Env.set, if_neg (fun e : x = n => hn (e ▸ hx))]
    rw [this, this]
  · intro hn
    refine ⟨_, List.mem_singleton.2 rfl, fun _ => true, ?_⟩
    rw [hev, hev]
    have h1 : vs.all (Env.set (fun _ => true) n true) = true := by
      rw [List.all_eq_true]; intro x _; simp [Env.set]
    have h2 : vs.all (Env.set (fun _ => true) n false) = false := by
      rw [List.all_eq_false]; exact ⟨n, hn, by simp [Env.set]⟩
    rw [h1, h2]
    simp

theorem quantVars_ev (vs : List String) (f : Fn o) (η : Env) :
    (quantVars vs f).ev η = true ↔ ∃ ζ : Env, (∀ n, n ∉ vs → ζ n = η n) ∧ f.ev ζ = true := by
  unfold quantVars
  rw [thereis_ev]
  simp only [quant_or_vars]

theorem Quant_thereis_ev (vs : List String) (f : Fn o) (η : Env) :
    (Quant_thereis vs f).ev η = true ↔ ∃ ζ : Env, (∀ n, n ∉ vs → ζ n = η n) ∧ f.ev ζ = true := by
  unfold Quant_thereis
  rw [thereis_ev]
  simp only [quant_and_vars]

/-- What `fparam_rec` guarantees: `vs` is solved for, the other variables are constants. -/
structure Solved (vs : List String) (f : Fn o) (res : List (String × Fn o)) : Prop where
  names : res.map Prod.fst = vs
  sat : ∀ η, (∃ ζ : Env, (∀ n, n ∉ vs → ζ n = η n) ∧ f.ev ζ = true) → f.ev (under res η) = true
  keep : ∀ η ζ : Env, f.ev η = true → (∀ v ∈ vs, ζ (nxt v) = η v) →
    (∀ n ∈ depends [f], n ∉ vs → ζ n = η n) → ∀ p ∈ res, p.2.ev ζ = η p.1

theorem dep_cof {f : Fn o} {v n : String} {b : Bool} (h : n ∈ depends [cof v b f]) : n ≠ v ∧ n ∈ depends [f] := by
  rw [mem_depends] at h
  obtain ⟨g, hg, η, hne⟩ := h
  simp only [List.mem_singleton] at hg
  subst hg
  simp only [cof_ev] at hne
  have hnv : n ≠ v := by
    rintro rfl
    apply hne
    congr 1
    funext m
    simp only [Env.set]
    split <;> rfl
  refine ⟨hnv, mem_depends.2 ⟨f, by simp, η.set v b, ?_⟩⟩
  have sw : ∀ x, (η.set v b).set n x = (η.set n x).set v b := by
    intro x
    funext m
    simp only [Env.set]
    split <;> split <;> simp_all
  rw [sw, sw]
  exact hne

theorem set_self {η : Env} {v : String} {b : Bool} (h : η v = b) : η.set v b = η := by
  funext n
  unfold Env.set
  split
  · next e => rw [e, h]
  · rfl

theorem under_pickPairs (c : Fn o) (η : Env) : ∀ (l1 l2 : List (String × Fn o)),
    l1.map Prod.fst = l2.map Prod.fst →
    under (List.zipWith (fun p q => (p.1, Fn.ite c p.2 q.2)) l1 l2) η = under (if c.ev η then l1 else l2) η
  | [], [], _ => by simp
  | [], _ :: _, h => by simp at h
  | _ :: _, [], h => by simp at h
  | (n, a) :: l1, (m, b) :: l2, h => by
    simp only [List.map_cons, List.cons.injEq] at h
    obtain ⟨rfl, h⟩ := h
    have ih := under_pickPairs c η l1 l2 h
    rw [List.zipWith_cons_cons, under_cons, ih]
    cases hc : c.ev η
    · simp [under_cons, hc]
    · simp [under_cons, hc]

theorem names_pickPairs (c : Fn o) : ∀ (l1 l2 : List (String × Fn o)), l1.map Prod.fst = l2.map Prod.fst →
    (List.zipWith (fun p q => (p.1, Fn.ite c p.2 q.2)) l1 l2).map Prod.fst = l1.map Prod.fst
  | [], [], _ => rfl
  | [], _ :: _, h => by simp at h
  | _ :: _, [], h => by simp at h
  | (n, a) :: l1, (m, b) :: l2, h => by
    simp only [List.map_cons, List.cons.injEq] at h
    simp [names_pickPairs c l1 l2 h.2]

theorem mem_pickPairs (c : Fn o) : ∀ (l1 l2 : List (String × Fn o)), l1.map Prod.fst = l2.map Prod.fst →
    ∀ p ∈ List.zipWith (fun p q => (p.1, Fn.ite c p.2 q.2)) l1 l2,
      ∃ a b, (p.1, a) ∈ l1 ∧ (p.1, b) ∈ l2 ∧ p.2 = Fn.ite c a b
  | [], [], _, p, hp => by simp at hp
  | [], _ :: _, h, _, _ => by simp at h
  | _ :: _, [], h, _, _ => by simp at h
  | (n, a) :: l1, (m, b) :: l2, h, p, hp => by
    simp only [List.map_cons, List.cons.injEq] at h
    rw [List.zipWith_cons_cons, List.mem_cons] at hp
    rcases hp with rfl | hp
    · exact ⟨a, b, by simp, by simp [h.1], rfl⟩
    · obtain ⟨x, y, h1, h2, h3⟩ := mem_pickPairs c l1 l2 h.2 p hp
      exact ⟨x, y, by simp [h1], by simp [h2], h3⟩

/-- A step of `fparam_rec` towards one of the two cofactors, chosen by the function `bit`. -/
theorem solved_cons {v : String} {vs : List String} {f bit : Fn o} {rest : List (String × Fn o)}
    (hnames : rest.map Prod.fst = vs)
    (hsat : ∀ η, (∃ ζ : Env, (∀ n, n ∉ v :: vs → ζ n = η n) ∧ f.ev ζ = true) →
      (cof v (bit.ev η) f).ev (under rest η) = true)
    (hkeep : ∀ η ζ : Env, f.ev η = true → (∀ w ∈ v :: vs, ζ (nxt w) = η w) →
      (∀ n ∈ depends [f], n ∉ v :: vs → ζ n = η n) → bit.ev ζ = η v ∧ ∀ p ∈ rest, p.2.ev ζ = η p.1) :
    Solved (v :: vs) f ((v, bit) :: rest) := by
  refine ⟨by simp [hnames], fun η h => ?_, fun η ζ h1 h2 h3 p hp => ?_⟩
  · have := hsat η h
    rw [cof_ev] at this
    rw [under_cons]
    exact this
  · obtain ⟨a, b⟩ := hkeep η ζ h1 h2 h3
    rcases List.mem_cons.1 hp with rfl | hp
    · exact a
    · exact b p hp

theorem fparamRec_spec : ∀ {vs : List String} {f : Fn o}, vs.Nodup → ∃ res, fparamRec vs f = some res ∧ Solved vs f res
  | [], f, _ => ⟨[], rfl, rfl, fun η ⟨ζ, h1, h2⟩ => by
      rwa [under_nil, ← show ζ = η from funext fun n => h1 n (by simp)], fun _ _ _ _ _ p hp => by simp at hp⟩
  | v :: vs, f, hnd => by
    obtain ⟨hv, hvs⟩ := List.nodup_cons.1 hnd
    unfold fparamRec
    by_cases h0 : f = tt o
    · rw [if_pos h0]
      have hm : ∀ l : List String, (l.mapM fun v => (next1 (var o v)).map (v, ·)) = some (l.map fun v => (v, var o (nxt v))) := by
        intro l
        induction l with
        | nil => rfl
        | cons a l ih => rw [List.mapM_cons, ih, next1_var]; rfl
      refine ⟨_, hm _, by simp [Function.comp_def], fun η _ => by rw [h0]; rfl, fun η ζ _ h2 _ p hp => ?_⟩
      obtain ⟨w, hw, rfl⟩ := List.mem_map.1 hp
      rw [var_ev]
      exact h2 w hw
    rw [if_neg h0]
    -- the variables of a cofactor
    have dep : ∀ (b : Bool) (η ζ : Env), (∀ n ∈ depends [f], n ∉ v :: vs → ζ n = η n) →
        ∀ n ∈ depends [cof v b f], n ∉ vs → ζ n = η n := by
      intro b η ζ h n hn hnv
      obtain ⟨h1, h2⟩ := dep_cof hn
      exact h n h2 (by simp [h1, hnv])
    -- solvable: one of the cofactors is
    have solv : ∀ η : Env, (∃ ζ : Env, (∀ n, n ∉ v :: vs → ζ n = η n) ∧ f.ev ζ = true) →
        ∃ b, ∃ ζ : Env, (∀ n, n ∉ vs → ζ n = η n) ∧ (cof v b f).ev ζ = true := by
      rintro η ⟨ζ, h1, h2⟩
      refine ⟨ζ v, ζ.set v (η v), fun n hn => ?_, ?_⟩
      · unfold Env.set
        split
        · next e => rw [e]
        · next e => exact h1 n (by simp [e, hn])
      · rw [cof_ev]
        have : (ζ.set v (η v)).set v (ζ v) = ζ := by
          funext n
          unfold Env.set
          split
          · next e => rw [e]
          · rfl
        rw [this, h2]
    -- a model gives a model of its cofactor
    have mod : ∀ {η : Env} {b : Bool}, f.ev η = true → η v = b → (cof v b f).ev η = true := by
      intro η b h e
      rw [cof_ev, set_self e, h]
    -- and makes the quantified cofactor true
    have quant : ∀ {η ζ : Env} {b : Bool}, f.ev η = true → η v = b →
        (∀ n ∈ depends [f], n ∉ v :: vs → ζ n = η n) → (quantVars vs (cof v b f)).ev ζ = true := by
      intro η ζ b h e h3
      rw [quantVars_ev]
      refine ⟨fun n => if n ∈ vs then η n else ζ n, fun n hn => by simp [hn], ?_⟩
      rw [← mod h e]
      refine ev_depends (fs := [cof v b f]) (by simp) fun n hn => ?_
      by_cases hx : n ∈ vs
      · simp [hx]
      · simp only [hx, if_false]
        exact dep b η ζ h3 n hn hx
    dsimp only
    by_cases h1 : cof v true f = ff o
    · rw [if_pos h1]
      obtain ⟨rest, e, S⟩ := fparamRec_spec (f := cof v false f) hvs
      rw [e]
      refine ⟨_, rfl, solved_cons S.names (fun η h => ?_) fun η ζ a b c => ?_⟩
      · obtain ⟨b, hb⟩ := solv η h
        cases b
        · exact S.sat η hb
        · obtain ⟨ζ, _, hz⟩ := hb
          rw [h1] at hz
          exact absurd hz (by simp)
      · have hηv : η v = false := by
          cases hh : η v
          · rfl
          · have := mod a hh
            rw [h1] at this
            exact absurd this (by simp)
        exact ⟨by rw [const_ev, hηv], S.keep η ζ (mod a hηv) (fun w hw => b w (by simp [hw])) (dep false η ζ c)⟩
    rw [if_neg h1]
    by_cases h2 : cof v true f = f
    · rw [if_pos h2, next1_var, Option.bind_some]
      obtain ⟨rest, e, S⟩ := fparamRec_spec (f := f) hvs
      rw [e]
      have nodep : ∀ (η : Env) (b : Bool), f.ev (η.set v b) = f.ev η := by
        intro η b
        have e1 := eq_iff.1 h2 (η.set v b)
        have e2 := eq_iff.1 h2 η
        rw [cof_ev] at e1 e2
        rw [← e1, ← e2]
        congr 1
        funext n
        simp only [Env.set]
        split <;> rfl
      refine ⟨_, rfl, solved_cons S.names (fun η h => ?_) fun η ζ a b c => ?_⟩
      · rw [cof_ev, nodep]
        refine S.sat η ?_
        obtain ⟨x, ζ, hz1, hz2⟩ := solv η h
        rw [cof_ev, nodep] at hz2
        exact ⟨ζ, hz1, hz2⟩
      · have hq : (quantVars vs (cof v true f)).ev ζ = true := by
          have a' : f.ev (η.set v true) = true := by rw [nodep, a]
          have := quant (η := η.set v true) (ζ := ζ) (b := true) a' (by simp [Env.set]) fun n hn hnv => by
            rw [c n hn hnv, Env.set, if_neg]
            rintro rfl
            exact hnv (by simp)
          exact this
        refine ⟨by rw [and_ev, hq, var_ev, b v (by simp), Bool.and_true], ?_⟩
        refine S.keep η ζ a (fun w hw => b w (by simp [hw])) fun n hn hnv => c n hn ?_
        simp only [List.mem_cons, not_or]
        refine ⟨?_, hnv⟩
        rintro rfl
        rw [mem_depends] at hn
        obtain ⟨g, hg, η', hne⟩ := hn
        simp only [List.mem_singleton] at hg
        subst hg
        rw [nodep, nodep] at hne
        exact hne rfl
    rw [if_neg h2]
    by_cases h3 : cof v false f = ff o
    · rw [if_pos h3]
      obtain ⟨rest, e, S⟩ := fparamRec_spec (f := cof v true f) hvs
      rw [e]
      refine ⟨_, rfl, solved_cons S.names (fun η h => ?_) fun η ζ a b c => ?_⟩
      · obtain ⟨b, hb⟩ := solv η h
        cases b
        · obtain ⟨ζ, _, hz⟩ := hb
          rw [h3] at hz
          exact absurd hz (by simp)
        · exact S.sat η hb
      · have hηv : η v = true := by
          cases hh : η v
          · have := mod a hh
            rw [h3] at this
            exact absurd this (by simp)
          · rfl
        exact ⟨by rw [const_ev, hηv], S.keep η ζ (mod a hηv) (fun w hw => b w (by simp [hw])) (dep true η ζ c)⟩
    rw [if_neg h3, next1_var, Option.bind_some]
    generalize hbit : Fn.ite (quantVars vs (cof v true f)) (Fn.ite (quantVars vs (cof v false f)) (var o (nxt v)) (tt o)) (ff o) = bit
    -- the chosen cofactor is solvable
    have choose : ∀ η : Env, (∃ ζ : Env, (∀ n, n ∉ v :: vs → ζ n = η n) ∧ f.ev ζ = true) →
        ∃ ζ : Env, (∀ n, n ∉ vs → ζ n = η n) ∧ (cof v (bit.ev η) f).ev ζ = true := by
      intro η h
      rw [← quantVars_ev]
      have hor : (quantVars vs (cof v true f)).ev η = true ∨ (quantVars vs (cof v false f)).ev η = true := by
        obtain ⟨b, hb⟩ := solv η h
        rw [quantVars_ev, quantVars_ev]
        cases b
        · exact Or.inr hb
        · exact Or.inl hb
      have hb : bit.ev η = if (quantVars vs (cof v true f)).ev η then
          (if (quantVars vs (cof v false f)).ev η then η (nxt v) else true) else false := by
        rw [← hbit]; simp
      cases hH : (quantVars vs (cof v true f)).ev η
      · rw [hH] at hor hb
        simp only [Bool.false_eq_true, if_false] at hb
        rw [hb]
        simpa using hor
      · rw [hH] at hb
        cases hL : (quantVars vs (cof v false f)).ev η
        · rw [hL] at hb
          simp only [Bool.false_eq_true, if_false, if_true] at hb
          rw [hb, hH]
        · cases bit.ev η
          · exact hL
          · exact hH
    -- a model chooses its own value
    have own : ∀ {η ζ : Env}, f.ev η = true → (∀ w ∈ v :: vs, ζ (nxt w) = η w) →
        (∀ n ∈ depends [f], n ∉ v :: vs → ζ n = η n) → bit.ev ζ = η v := by
      intro η ζ a b c
      have hq := quant (b := η v) a rfl c
      have hn := b v (by simp)
      rw [← hbit]
      simp only [ite_ev, var_ev, const_ev, hn]
      cases hh : η v
      · rw [hh] at hq
        simp [hq]
      · rw [hh] at hq
        simp [hq]
    obtain ⟨rH, eH, SH⟩ := fparamRec_spec (f := cof v true f) hvs
    obtain ⟨rL, eL, SL⟩ := fparamRec_spec (f := cof v false f) hvs
    by_cases h4 : bit = tt o
    · rw [if_pos h4, eH]
      refine ⟨_, rfl, solved_cons SH.names (fun η h => ?_) fun η ζ a b c => ?_⟩
      · have := choose η h
        rw [h4] at this
        exact SH.sat η this
      · have := own a b c
        rw [h4, const_ev] at this
        exact ⟨this, SH.keep η ζ (mod a this.symm) (fun w hw => b w (by simp [hw])) (dep true η ζ c)⟩
    rw [if_neg h4]
    by_cases h5 : bit = ff o
    · rw [if_pos h5, eL]
      refine ⟨_, rfl, solved_cons SL.names (fun η h => ?_) fun η ζ a b c => ?_⟩
      · have := choose η h
        rw [h5] at this
        exact SL.sat η this
      · have := own a b c
        rw [h5, const_ev] at this
        exact ⟨this, SL.keep η ζ (mod a this.symm) (fun w hw => b w (by simp [hw])) (dep false η ζ c)⟩
    rw [if_neg h5, eH, eL, Option.bind_some, Option.bind_some]
    have hnn : rH.map Prod.fst = rL.map Prod.fst := SH.names.trans SL.names.symm
    have hp : pickPairs bit rH rL = some (List.zipWith (fun p q => (p.1, Fn.ite bit p.2 q.2)) rH rL) := by
      unfold pickPairs
      rw [if_neg h4, if_neg h5, if_pos hnn]
    rw [hp]
    refine ⟨_, rfl, solved_cons ((names_pickPairs _ _ _ hnn).trans SH.names) (fun η h => ?_) fun η ζ a b c => ?_⟩
    · rw [under_pickPairs _ _ _ _ hnn]
      have := choose η h
      cases hb : bit.ev η
      · rw [hb] at this
        exact SL.sat η this
      · rw [hb] at this
        exact SH.sat η this
    · have hown := own a b c
      refine ⟨hown, fun p hp => ?_⟩
      obtain ⟨x, y, hx, hy, hxy⟩ := mem_pickPairs _ _ _ hnn p hp
      rw [hxy, ite_ev, hown]
      cases hh : η v
      · exact SL.keep η ζ (mod a hh) (fun w hw => b w (by simp [hw])) (dep false η ζ c) _ hy
      · exact SH.keep η ζ (mod a hh) (fun w hw => b w (by simp [hw])) (dep true η ζ c) _ hx

/-- The names the new variables get are apart from each other and from the constants of the condition. -/
def Fresh (vars : List String) (f : Fn o) : Prop :=
  (∀ v ∈ vars, ∀ w ∈ vars, nxt v = nxt w → v = w) ∧ ∀ v ∈ vars, nxt v ∈ depends [f] → nxt v ∈ vars

/-- An assignment that gives the new variables the values of the old ones. -/
theorem exists_next {vars : List String} (h : ∀ v ∈ vars, ∀ w ∈ vars, nxt v = nxt w → v = w) (η : Env) :
    ∃ ζ : Env, (∀ v ∈ vars, ζ (nxt v) = η v) ∧ ∀ n, (∀ v ∈ vars, n ≠ nxt v) → ζ n = η n := by
  classical
  refine ⟨fun n => if hx : ∃ v ∈ vars, n = nxt v then η hx.choose else η n, fun v hv => ?_, fun n hn => ?_⟩
  · have hx : ∃ w ∈ vars, nxt v = nxt w := ⟨v, hv, rfl⟩
    beta_reduce
    rw [dif_pos hx]
    have := hx.choose_spec
    exact congrArg η (h v hv _ this.1 this.2).symm
  · beta_reduce
    rw [dif_neg]
    rintro ⟨v, hv, e⟩
    exact hn v hv e

theorem under_mem {res : List (String × Fn o)} {ζ η : Env} (h : ∀ p ∈ res, p.2.ev ζ = η p.1) {n : String}
    (hn : n ∈ res.map Prod.fst) : under res ζ n = η n := by
  unfold under
  cases hl : res.lookup n with
  | none =>
    obtain ⟨p, hp, rfl⟩ := List.mem_map.1 hn
    rw [List.lookup_eq_none_iff] at hl
    have := hl p hp
    simp at this
  | some g => exact h _ (lookup_mem hl)

theorem fparam_spec {vars : List String} {f : Fn o} (hnd : vars.Nodup) (hf : f ≠ ff o) (hfresh : Fresh vars f) :
    ∃ sub, fparam vars f = some sub ∧ sub.map Prod.fst = vars ∧
      (∀ η, (∃ ζ : Env, (∀ n, n ∉ vars → ζ n = η n) ∧ f.ev ζ = true) → f.ev (under sub η) = true) ∧
      ∀ η, f.ev η = true → ∃ ζ : Env, (∀ n, (∀ v ∈ vars, n ≠ nxt v) → ζ n = η n) ∧ ∀ v ∈ vars, under sub ζ v = η v := by
  unfold fparam
  by_cases hc : (depends [f]).filter (· ∉ vars) ≠ []
  · rw [if_pos hc]
    obtain ⟨res, e, S⟩ := fparamRec_spec (f := f) hnd
    refine ⟨res, e, S.names, S.sat, fun η hη => ?_⟩
    obtain ⟨ζ, h1, h2⟩ := exists_next hfresh.1 η
    refine ⟨ζ, h2, fun v hv => under_mem (S.keep η ζ hη h1 fun n hn hnv => h2 n ?_) (by rw [S.names]; exact hv)⟩
    rintro w hw rfl
    exact hnv (hfresh.2 w hw hn)
  · rw [if_neg hc]
    rw [ne_eq, Classical.not_not, List.filter_eq_nil_iff] at hc
    have hsub : ∀ n ∈ depends [f], n ∈ vars := fun n hn => by simpa using hc n hn
    obtain ⟨sub, e, hnames, hsat, hkeep, hdep⟩ := param_spec hf
    rw [e, Option.bind_some]
    -- the value of each variable
    have val : ∀ v ∈ vars, ∃ g, (match (sub.lookup v).bind next1 with
        | some g => some (v, g)
        | none => (next1 (var o v)).map (v, ·)) = some (v, g) ∧
        ∀ η : Env, g.ev η = under sub (fun n => η (nxt n)) v := by
      intro v hv
      cases hl : sub.lookup v with
      | none =>
        refine ⟨var o (nxt v), by rw [next1_var]; rfl, fun η => ?_⟩
        rw [var_ev, under, hl]
      | some g =>
        have hgs : ∀ n ∈ depends [g], n ∈ depends [f] := by
          intro n hn
          rw [mem_depends] at hn
          obtain ⟨g', hg', η, hne⟩ := hn
          simp only [List.mem_singleton] at hg'
          subst hg'
          by_contra hcon
          refine hne (hdep _ (lookup_mem hl) _ _ fun m hm => ?_)
          have : m ≠ n := fun e => hcon (e ▸ hm)
          simp [Env.set, this]
        obtain ⟨r, er, hr⟩ := next1_some (f := g) (by
          intro c hc1 hx hc2
          have := hfresh.1 c (hsub c (hgs c hc1)) (c ++ "_n") (hsub _ (hgs _ hc2))
            (by simp [nxt, hx, isNext_append])
          rw [this] at hx
          rw [isNext_append] at hx
          exact absurd hx (by simp))
        refine ⟨r, by rw [Option.bind_some, er], fun η => ?_⟩
        rw [hr, under, hl]
    have hm : ∀ l : List String, (∀ v ∈ l, v ∈ vars) → ∃ res, (l.mapM fun v =>
        match (sub.lookup v).bind next1 with
        | some g => some (v, g)
        | none => (next1 (var o v)).map (v, ·)) = some res ∧ res.map Prod.fst = l ∧
        ∀ p ∈ res, ∀ η : Env, p.2.ev η = under sub (fun n => η (nxt n)) p.1 := by
      intro l
      induction l with
      | nil => exact fun _ => ⟨[], rfl, rfl, fun p hp => by simp at hp⟩
      | cons a l ih =>
        intro hl
        obtain ⟨res, e1, e2, e3⟩ := ih fun v hv => hl v (by simp [hv])
        obtain ⟨g, e4, e5⟩ := val a (hl a (by simp))
        refine ⟨(a, g) :: res, by rw [List.mapM_cons, e4, e1]; rfl, by simp [e2], fun p hp => ?_⟩
        rcases List.mem_cons.1 hp with rfl | hp
        · exact e5
        · exact e3 p hp
    obtain ⟨res, e1, e2, e3⟩ := hm vars fun _ h => h
    have hu : ∀ (η : Env) (v : String), v ∈ vars → under res η v = under sub (fun n => η (nxt n)) v := by
      intro η v hv
      exact under_mem (η := under sub fun n => η (nxt n)) (fun p hp => e3 p hp η) (by rw [e2]; exact hv)
    refine ⟨res, e1, e2, fun η _ => ?_, fun η hη => ?_⟩
    · rw [← hsat fun n => η (nxt n)]
      exact ev_depends (fs := [f]) (by simp) fun n hn => hu η n (hsub n hn)
    · obtain ⟨ζ, h1, h2⟩ := exists_next hfresh.1 η
      refine ⟨ζ, h2, fun v hv => ?_⟩
      rw [hu ζ v hv, ← congrFun (hkeep η hη) v]
      unfold under
      cases hl : sub.lookup v with
      | none => exact h1 v hv
      | some g => exact hdep _ (lookup_mem hl) _ _ fun n hn => h1 n (hsub n hn)

end Voss.Pre
