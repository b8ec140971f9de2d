import Verif.Vec.Num

/-! Reading names: what is read is well-formed, and well-formed segments are read back. -/
namespace Voss.Vec

theorem valid_mono : ∀ (a : List Char) (p : Pos) (b : List Char), valid p a = true → valid p (a ++ b) = true
  | [], p, b, h => by cases p <;> simp [valid] at h
  | c :: cs, p, b, h => by
    have ih := fun q => valid_mono cs q b
    cases p <;> simp only [List.cons_append, valid] at h ⊢ <;> (repeat' split at h) <;> simp_all

theorem valid_open : ∀ (a : List Char) (p : Pos) (b : List Char), valid p (a ++ '[' :: b) = valid p (a ++ ['['])
  | [], p, b => by cases p <;> simp [valid]
  | c :: cs, p, b => by
    have ih := fun q => valid_open cs q b
    cases p <;> simp only [List.cons_append, valid, ih]

theorem valid_cons {c : Char} {cs : List Char} (h : valid .item (c :: cs) = true) :
    c = '-' ∨ c.isDigit = true := by
  simp only [valid] at h
  split at h
  · exact .inl ‹_›
  · split at h
    · exact .inr ‹_›
    · simp at h

/-- A valid index is closed. -/
theorem valid_close : ∀ (a : List Char) (p : Pos), valid p a = true → ']' ∈ a
  | [], p, h => by cases p <;> simp [valid] at h
  | c :: cs, p, h => by
    have ih := fun q => valid_close cs q
    cases p <;> simp only [valid] at h <;> (repeat' split at h) <;>
      first | exact List.mem_cons_of_mem _ (ih _ h) | simp_all

/-! ### Text -/

theorem text_append : ∀ s : List Char, (text s).1 ++ (text s).2 = s
  | [] => rfl
  | c :: cs => by
    simp only [text]
    split
    · rfl
    · simp [text_append cs]

theorem text_ne {c : Char} {cs : List Char} : (text (c :: cs)).1 ≠ [] := by
  simp only [text]
  split <;> simp

theorem text_head {c : Char} {cs : List Char} : (text (c :: cs)).1.head? = some c := by
  simp only [text]
  split <;> simp

theorem text_rest : ∀ s : List Char, (text s).2 = [] ∨
    (valid .item (text s).2 = true ∧ ∃ t, (text s).1 = t ++ ['['])
  | [] => .inl rfl
  | c :: cs => by
    simp only [text]
    split
    · rename_i h
      rcases h.2 with h2 | h2
      · exact .inl h2
      · exact .inr ⟨h2, [], by simp [h.1]⟩
    · rcases text_rest cs with h | ⟨h, t, ht⟩
      · exact .inl h
      · exact .inr ⟨h, c :: t, by simp [ht]⟩

theorem text_idem : ∀ s : List Char, text (text s).1 = ((text s).1, [])
  | [] => rfl
  | c :: cs => by
    by_cases h : c = '[' ∧ (cs = [] ∨ valid .item cs = true)
    · simp [text, h]
    · have ih := text_idem cs
      have e : (text (c :: cs)).1 = c :: (text cs).1 := by simp [text, h]
      rw [e]
      by_cases hc : c = '['
      · have hcs : ¬ (cs = [] ∨ valid .item cs = true) := fun x => h ⟨hc, x⟩
        have h1 : (text cs).1 ≠ [] := by
          cases cs with
          | nil => simp at hcs
          | cons d ds => exact text_ne
        have h2 : valid .item (text cs).1 = false := by
          cases hv : valid .item (text cs).1 with
          | false => rfl
          | true =>
            have := valid_mono _ _ (text cs).2 hv
            rw [text_append] at this
            exact absurd (.inr this) hcs
        rw [text]
        simp [h1, h2, ih]
      · rw [text]
        simp [hc, ih]

/-- Text before an index is read as it is. -/
theorem text_open : ∀ (t b : List Char), text (t ++ ['[']) = (t ++ ['['], []) → valid .item b = true →
    text (t ++ '[' :: b) = (t ++ ['['], b)
  | [], b, _, hb => by simp [text, hb]
  | c :: cs, b, h, hb => by
    simp only [List.cons_append, text] at h ⊢
    have hne : cs ++ ['['] ≠ [] := by simp
    have hne' : cs ++ '[' :: b ≠ [] := by simp
    by_cases hc : c = '[' ∧ valid .item (cs ++ ['[']) = true
    · simp [hc] at h
    · have hc' : ¬ (c = '[' ∧ (cs ++ ['['] = [] ∨ valid .item (cs ++ ['[']) = true)) := by
        rintro ⟨h1, h2 | h2⟩
        · exact hne h2
        · exact hc ⟨h1, h2⟩
      have hc'' : ¬ (c = '[' ∧ (cs ++ '[' :: b = [] ∨ valid .item (cs ++ '[' :: b) = true)) := by
        rintro ⟨h1, h2 | h2⟩
        · exact hne' h2
        · rw [valid_open] at h2
          exact hc ⟨h1, h2⟩
      rw [if_neg hc'] at h
      rw [if_neg hc'']
      have h3 : text (cs ++ ['[']) = (cs ++ ['['], []) := by
        have h1 := congrArg Prod.fst h
        have h2 := congrArg Prod.snd h
        simp only [List.cons.injEq, true_and] at h1 h2
        exact Prod.ext h1 h2
      rw [text_open cs b h3 hb]

/-! ### What is read is well-formed -/

theorem mergeTail_int (t : Rng) (cs : List Rng) (ht : isInt t.up = true ∧ isInt t.lo = true)
    (h : ∀ r ∈ cs, isInt r.up = true ∧ isInt r.lo = true) :
    mergeTail t cs ≠ [] ∧ ∀ r ∈ mergeTail t cs, isInt r.up = true ∧ isInt r.lo = true := by
  induction cs generalizing t with
  | nil => simp [mergeTail, ht]
  | cons c cs ih =>
    have hc := h c (by simp)
    have hcs : ∀ r ∈ cs, isInt r.up = true ∧ isInt r.lo = true := fun r hr => h r (by simp [hr])
    simp only [mergeTail]
    split
    · exact ih ⟨t.up, c.lo⟩ ⟨ht.1, hc.2⟩ hcs
    · split
      · exact ih ⟨t.up, c.lo⟩ ⟨ht.1, hc.2⟩ hcs
      · refine ⟨by simp, ?_⟩
        intro r hr
        simp only [List.mem_cons] at hr
        rcases hr with rfl | hr
        · exact ht
        · exact (ih c hc hcs).2 r hr

theorem mergeIndices_int (rs : List Rng) (hne : rs ≠ []) (h : ∀ r ∈ rs, isInt r.up = true ∧ isInt r.lo = true) :
    mergeIndices rs ≠ [] ∧ ∀ r ∈ mergeIndices rs, isInt r.up = true ∧ isInt r.lo = true := by
  cases rs with
  | nil => exact absurd rfl hne
  | cons t cs => exact mergeTail_int t cs (h t (by simp)) (fun r hr => h r (by simp [hr]))

theorem scanInt_int {cs : List Char} {z : Int} {r : List Char} (h : scanInt cs = some (z, r)) : isInt z = true := by
  unfold scanInt at h
  split at h <;>
  · simp only [Option.ite_none_right_eq_some, Option.some.injEq, Prod.mk.injEq] at h
    obtain ⟨h1, h2, _⟩ := h
    rw [← h2]
    exact h1

theorem scanRng_int {cs : List Char} {r : Rng} (h : scanRng cs = some r) : isInt r.up = true ∧ isInt r.lo = true := by
  unfold scanRng at h
  cases h1 : scanInt cs with
  | none => simp [h1] at h
  | some x =>
    obtain ⟨u, r1⟩ := x
    simp only [h1, Option.bind_eq_bind, Option.bind_some] at h
    split at h
    · rename_i r'
      cases h2 : scanInt r' with
      | none => simp [h2] at h
      | some y =>
        obtain ⟨l, r2⟩ := y
        simp only [h2, Option.bind_some, Option.some.injEq] at h
        subst h
        exact ⟨scanInt_int h1, scanInt_int h2⟩
    · simp only [Option.some.injEq] at h
      subst h
      exact ⟨scanInt_int h1, scanInt_int h1⟩

theorem scanAll_int : ∀ (ps : List (List Char)) (rs : List Rng), scanAll ps = some rs →
    rs.length = ps.length ∧ ∀ r ∈ rs, isInt r.up = true ∧ isInt r.lo = true
  | [], rs, h => by
    simp only [scanAll, Option.some.injEq] at h
    subst h
    simp
  | p :: ps, rs, h => by
    simp only [scanAll, Option.bind_eq_bind] at h
    cases h1 : scanRng p with
    | none => simp [h1] at h
    | some r =>
      cases h2 : scanAll ps with
      | none => simp [h1, h2] at h
      | some rs' =>
        simp only [h1, h2, Option.bind_some, Option.some.injEq] at h
        subst h
        obtain ⟨h3, h4⟩ := scanAll_int ps rs' h2
        refine ⟨by simp [h3], ?_⟩
        intro x hx
        simp only [List.mem_cons] at hx
        rcases hx with rfl | hx
        · exact scanRng_int h1
        · exact h4 x hx

theorem takeWhile_notin (b : List Char) (d : Char) : d ∉ b.takeWhile (· != d) := by
  induction b with
  | nil => simp
  | cons c cs ih =>
    simp only [List.takeWhile_cons]
    split
    · rename_i h
      simp only [List.mem_cons, not_or]
      refine ⟨?_, ih⟩
      rintro rfl
      simp at h
    · simp

theorem dropWhile_mem (b : List Char) (d : Char) (h : d ∈ b) : ∃ t, b.dropWhile (· != d) = d :: t := by
  induction b with
  | nil => simp at h
  | cons c cs ih =>
    simp only [List.dropWhile_cons]
    by_cases hc : c = d
    · subst hc
      exact ⟨cs, by simp⟩
    · rw [if_pos (by simpa using hc)]
      apply ih
      simp only [List.mem_cons] at h
      rcases h with rfl | h
      · exact absurd rfl hc
      · exact h

theorem dropWhile_head {b t : List Char} {c d : Char} (h : b.dropWhile (· != d) = c :: t) : c = d := by
  induction b with
  | nil => simp at h
  | cons x xs ih =>
    simp only [List.dropWhile_cons] at h
    split at h
    · exact ih h
    · rename_i hx
      simp only [List.cons.injEq] at h
      rw [← h.1]
      simpa using hx

theorem Sp.cons_ok {x : Seg} {r : Sp} {v : Vec} (h : r.cons x = .ok v) : ∃ v', r = .ok v' ∧ v = x :: v' := by
  cases r with
  | ok v' =>
    simp only [Sp.cons, Sp.ok.injEq] at h
    exact ⟨v', rfl, h.symm⟩
  | bad => simp [Sp.cons] at h
  | ub => simp [Sp.cons] at h

/-- What a rest beginning with a closing bracket gives. -/
theorem splitLoop_close {n : Nat} {t : List Char} {v : Vec} (h : splitLoop n (']' :: t) = .ok v) :
    ∃ u v', v = .txt (']' :: u) :: v' := by
  cases n with
  | zero => simp [splitLoop] at h
  | succ n =>
    rw [splitLoop, if_neg (by simp [valid]), if_neg (by decide)] at h
    obtain ⟨v', _, rfl⟩ := Sp.cons_ok h
    have := text_head (c := ']') (cs := t)
    cases hx : (text (']' :: t)).1 with
    | nil => rw [hx] at this; simp at this
    | cons a as =>
      rw [hx] at this
      simp only [List.head?_cons, Option.some.injEq] at this
      subst this
      exact ⟨as, v', rfl⟩

/-- What a rest that is a valid index gives. -/
theorem splitLoop_valid {n : Nat} {s : List Char} {v : Vec} (h : splitLoop n s = .ok v) (hv : valid .item s = true) :
    ∃ rs v', v = .idx rs :: v' := by
  cases s with
  | nil => simp [valid] at hv
  | cons c cs =>
    cases n with
    | zero => simp [splitLoop] at h
    | succ n =>
      rw [splitLoop, if_pos hv] at h
      split at h
      · simp at h
      · obtain ⟨v', _, rfl⟩ := Sp.cons_ok h
        exact ⟨_, v', rfl⟩

theorem splitLoop_wf : ∀ (n : Nat) (s : List Char) (v : Vec), splitLoop n s = .ok v → WF v
  | n, [], v, h => by
    have : v = [] := by
      cases n <;> simp only [splitLoop, Sp.ok.injEq] at h <;> exact h.symm
    subst this
    trivial
  | 0, c :: cs, v, h => by simp [splitLoop] at h
  | n+1, c :: cs, v, h => by
    rw [splitLoop] at h
    split at h
    · rename_i hv
      split at h
      · simp at h
      · rename_i rs hrs
        obtain ⟨v', hv', rfl⟩ := Sp.cons_ok h
        obtain ⟨h1, h2⟩ := scanAll_int _ _ hrs
        have hne : rs ≠ [] := by
          rintro rfl
          exact pieces_ne _ (List.eq_nil_of_length_eq_zero (by simpa using h1.symm))
        obtain ⟨h3, h4⟩ := mergeIndices_int rs hne h2
        obtain ⟨t, ht⟩ := dropWhile_mem (c :: cs) ']' (valid_close _ _ hv)
        rw [ht] at hv'
        exact ⟨h3, h4, splitLoop_close hv', splitLoop_wf n _ _ hv'⟩
    · rename_i hv
      split at h
      · rename_i hc
        subst hc
        split at h
        · simp at h
        · obtain ⟨v', hv', rfl⟩ := Sp.cons_ok h
          exact ⟨.inl ⟨_, rfl, takeWhile_notin _ _⟩, splitLoop_wf n _ _ hv'⟩
      · rename_i hc
        obtain ⟨v', hv', rfl⟩ := Sp.cons_ok h
        refine ⟨.inr ⟨⟨text_ne, ?_, ?_, text_idem _⟩, ?_⟩, splitLoop_wf n _ _ hv'⟩
        · cases hx : valid .item (text (c :: cs)).1 with
          | false => rfl
          | true =>
            have := valid_mono _ _ (text (c :: cs)).2 hx
            rw [text_append] at this
            exact absurd this hv
        · rw [text_head]
          simpa using hc
        · rcases text_rest (c :: cs) with h1 | ⟨h1, h2⟩
          · rw [h1] at hv'
            cases n <;> simp only [splitLoop, Sp.ok.injEq] at hv' <;> exact .inl hv'.symm
          · exact .inr ⟨h2, splitLoop_valid hv' h1⟩

/-! ### Well-formed segments are read back -/

theorem vecText_cons (x : Seg) (v : Vec) : vecText (x :: v) = x.text ++ vecText v := rfl

theorem takeWhile_append {a : List Char} {d : Char} {b : List Char} (h : d ∉ a) :
    (a ++ d :: b).takeWhile (· != d) = a ∧ (a ++ d :: b).dropWhile (· != d) = d :: b := by
  induction a with
  | nil => simp
  | cons c cs ih =>
    simp only [List.mem_cons, not_or] at h
    obtain ⟨h1, h2⟩ := ih h.2
    have hc : (c != d) = true := by simpa using fun e => h.1 e.symm
    simp [hc, h1, h2]

theorem idx_valid {rs : List Rng} {v : Vec} (h : WF (.idx rs :: v)) : valid .item (vecText (.idx rs :: v)) = true := by
  obtain ⟨h1, _, ⟨t, v', rfl⟩, _⟩ := h
  rw [vecText_cons, vecText_cons, Seg.text, Seg.text, List.cons_append]
  exact valid_rngs rs _ h1

theorem splitLoop_text : ∀ (v : Vec) (n : Nat), WF v → (vecText v).length ≤ n → splitLoop n (vecText v) = .ok (norm v)
  | [], n, _, _ => by cases n <;> rfl
  | .idx rs :: v, n, h, hn => by
    have hval := idx_valid h
    obtain ⟨h1, h2, ⟨t, v', hv'⟩, h4⟩ := h
    have hvt : ∃ u, vecText v = ']' :: u := ⟨t ++ vecText v', by rw [hv', vecText_cons]; rfl⟩
    obtain ⟨u, hu⟩ := hvt
    have ht := takeWhile_append (b := u) (d := ']') (a := rngsText rs) (fun hc => rngsText_noClose rs _ hc rfl)
    rw [vecText_cons] at hval hn ⊢
    simp only [Seg.text] at hval hn ⊢
    have hlen : 0 < (rngsText rs).length := by
      cases hx : rngsText rs with
      | nil =>
        rw [hx, List.nil_append, hu] at hval
        simp [valid] at hval
      | cons a as => simp
    cases n with
    | zero => simp only [List.length_append] at hn; omega
    | succ n =>
      have ih := splitLoop_text v n h4 (by simp only [List.length_append] at hn; omega)
      rw [hu] at hval ih ⊢
      cases hx : rngsText rs with
      | nil => simp [hx] at hlen
      | cons a as =>
        rw [hx] at ht hval
        rw [List.cons_append] at ht hval ⊢
        rw [splitLoop, if_pos hval, ht.1, ht.2, ← hx, scanAll_text rs h1 h2, ih]
        rfl
  | .txt s :: v, n, h, hn => by
    obtain ⟨h1, h2⟩ := h
    rw [vecText_cons] at hn ⊢
    simp only [Seg.text] at hn ⊢
    rcases h1 with ⟨b, rfl, hb⟩ | ⟨h1, h3⟩
    · cases n with
      | zero => simp at hn
      | succ n =>
        have ih := splitLoop_text v n h2 (by simp at hn; omega)
        have ht := takeWhile_append (b := vecText v) hb
        have e : '\\' :: b ++ [' '] ++ vecText v = '\\' :: (b ++ ' ' :: vecText v) := by simp
        rw [e, splitLoop, if_neg (by simp [valid]), if_pos rfl, ht.1, ht.2]
        simp only
        rw [ih]
        rfl
    · obtain ⟨a, as, ha⟩ : ∃ a as, s = a :: as := by
        cases s with
        | nil => exact absurd rfl h1.ne
        | cons a as => exact ⟨a, as, rfl⟩
      have hhd : a ≠ '\\' := by
        have := h1.noEsc
        rw [ha] at this
        simpa using this
      cases n with
      | zero => rw [ha] at hn; simp at hn
      | succ n =>
        have ih := splitLoop_text v n h2 (by rw [ha] at hn; simp at hn; omega)
        rcases h3 with rfl | ⟨⟨t, ht⟩, rs, v', rfl⟩
        · have e1 := h1.noIdx
          have e2 := h1.whole
          have e3 : vecText [] = [] := rfl
          rw [e3] at ih ⊢
          rw [List.append_nil]
          rw [ha] at e1 e2 ⊢
          rw [splitLoop, if_neg (by simp [e1]), if_neg hhd, e2]
          simp only
          rw [ih]
          rfl
        · have hval := idx_valid h2
          have e1 : valid .item (s ++ vecText (.idx rs :: v')) = false := by
            rw [ht, List.append_assoc]
            have := valid_open t .item (vecText (.idx rs :: v'))
            rw [List.singleton_append, this, ← ht]
            exact h1.noIdx
          have e2 : text (s ++ vecText (.idx rs :: v')) = (s, vecText (.idx rs :: v')) := by
            have := text_open t (vecText (.idx rs :: v')) (by rw [← ht]; exact h1.whole) hval
            rw [ht, List.append_assoc, List.singleton_append, this]
          have e3 : s ++ vecText (.idx rs :: v') = a :: (as ++ vecText (.idx rs :: v')) := by rw [ha]; rfl
          rw [e3] at e1 e2 ⊢
          rw [splitLoop, if_neg (by simp [e1]), if_neg hhd, e2]
          simp only
          rw [ih]
          rfl

end Voss.Vec
