import Verif.Pre.Param
/- Lemmas for C86. -/
namespace Voss.Pre
variable {o : Order}
open Fn

theorem under_cons (v : String) (g : Fn o) (σ : List (String × Fn o)) (η : Env) :
    under ((v, g) :: σ) η = (under σ η).set v (g.ev η) := by
  funext n
  unfold under Env.set
  rw [List.lookup_cons]
  by_cases h : n = v
  · simp [h]
  · simp [h, beq_eq_false_iff_ne.2 h]

@[simp] theorem under_nil (η : Env) : under ([] : List (String × Fn o)) η = η := rfl

theorem under_notin {σ : List (String × Fn o)} {n : String} (h : n ∉ σ.map Prod.fst) (η : Env) :
    under σ η n = η n := by
  induction σ with
  | nil => rfl
  | cons p σ ih =>
    obtain ⟨v, g⟩ := p
    simp only [List.map_cons, List.mem_cons, not_or] at h
    rw [under_cons, Env.set, if_neg h.1, ih h.2]

theorem under_ids (pre : List String) (σ : List (String × Fn o)) (η : Env) :
    under (pre.map (fun v => (v, var o v)) ++ σ) η = fun n => if n ∈ pre then η n else under σ η n := by
  induction pre with
  | nil => simp
  | cons v pre ih =>
    rw [List.map_cons, List.cons_append, under_cons, ih]
    funext n
    simp only [Env.set, var_ev, List.mem_cons]
    by_cases h : n = v
    · simp [h]
    · simp [h]

theorem zipE_eq {α β : Type} : ∀ {l : List α} {m : List β}, l.length = m.length → zipE l m = some (l.zip m)
  | [], [], _ => rfl
  | a :: l, b :: m, h => by
    rw [zipE, zipE_eq (by simpa using h)]
    rfl
  | [], _ :: _, h => by simp at h
  | _ :: _, [], h => by simp at h

theorem zip_map_var (l : List String) : l.zip (l.map (var o)) = l.map fun v => (v, var o v) := by
  induction l with
  | nil => rfl
  | cons a l ih => simp [ih]

theorem under_pick (c : Fn o) (η : Env) : ∀ (ns : List String) (l1 l2 : List (Fn o)), l1.length = ns.length →
    l2.length = ns.length →
    under (ns.zip (List.zipWith (Fn.ite c) l1 l2)) η = under (ns.zip (if c.ev η then l1 else l2)) η
  | [], _, _, _, _ => by simp
  | n :: ns, [], _, h, _ => by simp at h
  | n :: ns, _, [], _, h => by simp at h
  | n :: ns, a :: l1, b :: l2, h1, h2 => by
    have ih := under_pick c η ns l1 l2 (by simpa using h1) (by simpa using h2)
    rw [List.zipWith_cons_cons, List.zip_cons_cons, under_cons, ih]
    cases hc : c.ev η
    · simp [under_cons, hc]
    · simp [under_cons, hc]

theorem var_ne_const (v : String) (b : Bool) : var o v ≠ const o b := by
  intro h
  have := congrArg (fun f => f.ev fun _ => !b) h
  simp at this

/-- What `parametric` guarantees. -/
structure Params (o : Order) (rem : List String) (d : Dd) (res : List (Fn o)) : Prop where
  len : res.length = rem.length
  sat : ∀ η, d.ev (under (rem.zip res) η) = true
  keep : ∀ η, d.ev η = true → ∀ n ∈ rem, under (rem.zip res) η n = η n
  dep : ∀ η ζ : Env, (∀ n ∈ rem, η n = ζ n) → ∀ f ∈ res, f.ev η = f.ev ζ

theorem sorted_split {rem : List String} (hs : Sorted o rem) {v : String} (hv : v ∈ rem) :
    rem = rem.take (rem.idxOf v) ++ v :: rem.drop (rem.idxOf v + 1) := by
  have hi : rem.idxOf v < rem.length := List.idxOf_lt_length_of_mem hv
  conv_lhs => rw [← List.take_append_drop (rem.idxOf v) rem]
  rw [List.drop_eq_getElem_cons hi, List.getElem_idxOf hi]

theorem parametric_spec {d : Dd} : ∀ {k : Nat} {rem : List String}, d.Ok o k → d ≠ .leaf false → Sorted o rem →
    (∀ n ∈ d.vars, n ∈ rem) → ∃ res, parametric o rem d = some res ∧ Params o rem d res := by
  induction d with
  | leaf b =>
    intro k rem hd hne hs hv
    cases b
    · exact absurd rfl hne
    by_cases hr : rem = []
    · subst hr
      exact ⟨[], by simp [parametric], rfl, fun _ => rfl, fun _ _ n hn => by simp at hn, fun _ _ _ f hf => by simp at hf⟩
    · refine ⟨rem.map (var o), by simp [parametric, hr], by simp, fun _ => rfl, fun η _ n hn => ?_, ?_⟩
      · rw [zip_map_var, ← List.append_nil (List.map _ _), under_ids]
        simp
      · intro η ζ h f hf
        obtain ⟨v, hv, rfl⟩ := List.mem_map.1 hf
        simp [h v hv]
  | node v H L ihH ihL =>
    intro k rem hd hne hs hv
    obtain ⟨hk, hHL, hH, hL⟩ := hd
    have hvr : v ∈ rem := hv v (by simp [Dd.vars])
    have hr : rem ≠ [] := List.ne_nil_of_mem hvr
    generalize hpre : rem.take (rem.idxOf v) = pre
    generalize hpost : rem.drop (rem.idxOf v + 1) = post
    have hsplit : rem = pre ++ v :: post := by rw [← hpre, ← hpost]; exact sorted_split hs hvr
    have hs' := hs
    rw [hsplit] at hs'
    unfold Sorted at hs'
    rw [List.pairwise_append, List.pairwise_cons] at hs'
    obtain ⟨hs1, ⟨hs2, hs3⟩, hs4⟩ := hs'
    have hin : ∀ {e : Dd}, e.Ok o (o.pos v + 1) → (∀ n ∈ e.vars, n ∈ rem) → ∀ n ∈ e.vars, n ∈ post := by
      intro e he hev n hn
      have h1 := (Dd.vars_matter he hn).1
      have h2 := hev n hn
      rw [hsplit, List.mem_append, List.mem_cons] at h2
      rcases h2 with h2 | h2 | h2
      · have := hs4 n h2 v (by simp); omega
      · subst h2; omega
      · exact h2
    have hH' := hin hH fun n hn => hv n (by simp [Dd.vars, hn])
    have hL' := hin hL fun n hn => hv n (by simp [Dd.vars, hn])
    have hvpost : v ∉ post := fun h => by have := hs2 v h; omega
    have hvpre : v ∉ pre := fun h => by have := hs4 v h v (by simp); omega
    -- the values of the first and the last part
    have fin : ∀ (b : Fn o) (rest : List (Fn o)), rest.length = post.length →
        (∀ η, (Dd.node v H L).ev ((under (post.zip rest) η).set v (b.ev η)) = true) →
        (∀ η, (Dd.node v H L).ev η = true → b.ev η = η v ∧ ∀ n ∈ post, under (post.zip rest) η n = η n) →
        (∀ η ζ : Env, (∀ n ∈ v :: post, η n = ζ n) → ∀ f ∈ b :: rest, f.ev η = f.ev ζ) →
        Params o rem (Dd.node v H L) (pre.map (var o) ++ b :: rest) := by
      intro b rest hlen h1 h2 h3
      have hz : rem.zip (pre.map (var o) ++ b :: rest) = pre.map (fun v => (v, var o v)) ++ (v, b) :: post.zip rest := by
        rw [hsplit, List.zip_append (by simp), zip_map_var, List.zip_cons_cons]
      have hu : ∀ η n, n ∈ v :: post → under (rem.zip (pre.map (var o) ++ b :: rest)) η n =
          ((under (post.zip rest) η).set v (b.ev η)) n := by
        intro η n hn
        have hnp : n ∉ pre := by
          intro h
          have := hs4 n h n hn
          omega
        rw [hz, under_ids]; beta_reduce; rw [if_neg hnp, under_cons]
      refine ⟨by rw [hsplit]; simp [hlen], fun η => ?_, fun η hη n hn => ?_, fun η ζ h f hf => ?_⟩
      · rw [← h1 η]
        refine Dd.ev_vars _ fun n hn => hu η n ?_
        simp only [Dd.vars, List.mem_cons, List.mem_append] at hn ⊢
        rcases hn with hn | hn | hn
        · exact Or.inl hn
        · exact Or.inr (hH' n hn)
        · exact Or.inr (hL' n hn)
      · by_cases hp : n ∈ pre
        · rw [hz, under_ids]; beta_reduce; rw [if_pos hp]
        · rw [hsplit, List.mem_append] at hn
          have hn := hn.resolve_left hp
          rw [hu η n hn, Env.set]
          obtain ⟨e1, e2⟩ := h2 η hη
          split
          · next e => rw [e1, e]
          · next e => exact e2 n ((List.mem_cons.1 hn).resolve_left e)
      · rcases List.mem_append.1 hf with hf | hf
        · obtain ⟨w, hw, rfl⟩ := List.mem_map.1 hf
          simp only [var_ev]
          exact h w (by rw [hsplit]; simp [hw])
        · exact h3 η ζ (fun n hn => h n (by rw [hsplit]; exact List.mem_append_right _ hn)) f hf
    have nodeEv : ∀ (η : Env) (b : Bool), (Dd.node v H L).ev (η.set v b) = (if b then H else L).ev η := by
      intro η b
      cases b
      · simp only [Dd.ev, Env.set, if_true, Bool.false_eq_true, if_false]
        exact Dd.ev_set hL η false
      · simp only [Dd.ev, Env.set, if_true]
        exact Dd.ev_set hH η true
    have keepPost : ∀ {e : Dd} {rest : List (Fn o)}, Params o post e rest → ∀ η, e.ev η = true → ∀ n ∈ post, under (post.zip rest) η n = η n :=
      fun P => P.keep
    unfold parametric
    rw [if_neg hr]
    simp only [hvr, if_true, hpre, hpost]
    by_cases h1 : H = .leaf false
    · have hLne : L ≠ .leaf false := fun e => hHL (h1.trans e.symm)
      obtain ⟨rest, e, P⟩ := ihL hL hLne hs3 hL'
      rw [if_pos h1, e]
      refine ⟨_, rfl, fin _ _ P.len (fun η => ?_) (fun η hη => ?_) fun η ζ h f hf => ?_⟩
      · rw [const_ev, nodeEv]; exact P.sat η
      · have hηv : η v = false := by
          cases hh : η v
          · rfl
          · simp [Dd.ev, hh, h1] at hη
        refine ⟨by rw [const_ev, hηv], P.keep η ?_⟩
        simpa [Dd.ev, hηv] using hη
      · rcases List.mem_cons.1 hf with rfl | hf
        · rfl
        · exact P.dep η ζ (fun n hn => h n (by simp [hn])) f hf
    · rw [if_neg h1]
      by_cases h2 : L = .leaf false
      · obtain ⟨rest, e, P⟩ := ihH hH h1 hs3 hH'
        rw [if_pos h2, e]
        refine ⟨_, rfl, fin _ _ P.len (fun η => ?_) (fun η hη => ?_) fun η ζ h f hf => ?_⟩
        · rw [const_ev, nodeEv]; exact P.sat η
        · have hηv : η v = true := by
            cases hh : η v
            · simp [Dd.ev, hh, h2] at hη
            · rfl
          refine ⟨by rw [const_ev, hηv], P.keep η ?_⟩
          simpa [Dd.ev, hηv] using hη
        · rcases List.mem_cons.1 hf with rfl | hf
          · rfl
          · exact P.dep η ζ (fun n hn => h n (by simp [hn])) f hf
      · rw [if_neg h2]
        obtain ⟨rH, eH, PH⟩ := ihH hH h1 hs3 hH'
        obtain ⟨rL, eL, PL⟩ := ihL hL h2 hs3 hL'
        rw [eH, eL, Option.bind_some, Option.bind_some]
        have hp : pick (var o v) rH rL = some (List.zipWith (Fn.ite (var o v)) rH rL) := by
          unfold pick
          rw [if_neg (var_ne_const v true), if_neg (var_ne_const v false), if_pos (PH.len.trans PL.len.symm)]
        rw [hp]
        refine ⟨_, rfl, fin _ _ (by simp [PH.len, PL.len]) (fun η => ?_) (fun η hη => ?_) fun η ζ h f hf => ?_⟩
        · rw [under_pick _ _ _ _ _ PH.len PL.len, var_ev, nodeEv]
          cases η v
          · exact PL.sat η
          · exact PH.sat η
        · refine ⟨by simp, fun n hn => ?_⟩
          rw [under_pick _ _ _ _ _ PH.len PL.len, var_ev]
          cases hh : η v
          · rw [if_neg (by simp)]
            exact PL.keep η (by simpa [Dd.ev, hh] using hη) n hn
          · rw [if_pos rfl]
            exact PH.keep η (by simpa [Dd.ev, hh] using hη) n hn
        · rcases List.mem_cons.1 hf with rfl | hf
          · simp [h v (by simp)]
          · rw [← List.map_uncurry_zip_eq_zipWith] at hf
            obtain ⟨⟨a, b⟩, hab, rfl⟩ := List.mem_map.1 hf
            obtain ⟨ha, hb⟩ := List.of_mem_zip hab
            have hpost' : ∀ n ∈ post, η n = ζ n := fun n hn => h n (by simp [hn])
            simp [h v (by simp), PH.dep η ζ hpost' a ha, PL.dep η ζ hpost' b hb]

/-- `param` of a satisfiable condition. -/
theorem param_spec {cond : Fn o} (hc : cond ≠ ff o) : ∃ sub, param cond = some sub ∧
    sub.map Prod.fst = depends [cond] ∧ (∀ η, cond.ev (under sub η) = true) ∧
    (∀ η, cond.ev η = true → under sub η = η) ∧
    ∀ p ∈ sub, ∀ η ζ : Env, (∀ n ∈ depends [cond], η n = ζ n) → p.2.ev η = p.2.ev ζ := by
  have hne : cond.1 ≠ .leaf false := fun e => hc (Subtype.ext e)
  have hv : ∀ n ∈ cond.1.vars, n ∈ depends [cond] := fun n hn =>
    mem_sortNames.2 (List.mem_flatMap.2 ⟨cond, by simp, hn⟩)
  obtain ⟨res, e, P⟩ := parametric_spec cond.2 hne (depends_sorted [cond]) hv
  have hm : ((depends [cond]).zip res).map Prod.fst = depends [cond] := by
    rw [List.map_fst_zip]
    exact le_of_eq P.len.symm
  refine ⟨(depends [cond]).zip res, ?_, hm, P.sat, fun η hη => ?_, ?_⟩
  · unfold param
    rw [if_neg hc]
    simp only [e, Option.bind_some]
    exact zipE_eq P.len.symm
  · funext n
    by_cases hn : n ∈ depends [cond]
    · exact P.keep η hη n hn
    · exact under_notin (by rw [hm]; exact hn) η
  · intro p hp η ζ h
    exact P.dep η ζ h p.2 (List.of_mem_zip (a := p.1) (b := p.2) hp).2

end Voss.Pre
