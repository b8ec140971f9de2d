import Verif.Vec.Expand

/-! Joining adjacent ranges twice is joining them once. -/
namespace Voss.Vec

/-- Can two ranges be joined? -/
def Joins (t c : Rng) : Prop :=
  (t.up ≥ t.lo ∧ c.up ≥ c.lo ∧ t.lo - 1 = c.up) ∨ (t.up ≤ t.lo ∧ c.up ≤ c.lo ∧ t.lo + 1 = c.up)

/-- No neighbours can be joined. -/
def Normal : List Rng → Prop
  | [] => True
  | [_] => True
  | t :: c :: cs => ¬ Joins t c ∧ Normal (c :: cs)

theorem mergeTail_normal_id (t : Rng) (cs : List Rng) (h : Normal (t :: cs)) : mergeTail t cs = t :: cs := by
  induction cs generalizing t with
  | nil => rfl
  | cons c cs ih =>
    obtain ⟨h1, h2⟩ := h
    simp only [mergeTail]
    rw [if_neg (fun x => h1 (.inl x)), if_neg (fun x => h1 (.inr x)), ih c h2]

theorem mergeTail_normal (t : Rng) (cs : List Rng) :
    ∃ l rs, mergeTail t cs = ⟨t.up, l⟩ :: rs ∧ (t.up ≥ l → t.up ≥ t.lo) ∧ (t.up ≤ l → t.up ≤ t.lo) ∧
      Normal (mergeTail t cs) := by
  induction cs generalizing t with
  | nil => exact ⟨t.lo, [], rfl, id, id, trivial⟩
  | cons c cs ih =>
    simp only [mergeTail]
    split
    · rename_i h
      obtain ⟨l, rs, h1, h2, h3, h4⟩ := ih ⟨t.up, c.lo⟩
      refine ⟨l, rs, h1, fun _ => h.1, ?_, h4⟩
      intro hl
      have := h3 hl
      simp only at this
      omega
    · split
      · rename_i h
        obtain ⟨l, rs, h1, h2, h3, h4⟩ := ih ⟨t.up, c.lo⟩
        refine ⟨l, rs, h1, ?_, fun _ => h.1, h4⟩
        intro hl
        have := h2 hl
        simp only at this
        omega
      · rename_i n1 n2
        obtain ⟨l, rs, h1, h2, h3, h4⟩ := ih c
        refine ⟨t.lo, mergeTail c cs, rfl, id, id, ?_⟩
        rw [h1] at h4 ⊢
        refine ⟨?_, h4⟩
        rintro (⟨a, b, d⟩ | ⟨a, b, d⟩)
        · exact n1 ⟨a, h2 b, d⟩
        · exact n2 ⟨a, h3 b, d⟩

theorem mergeIndices_idem (rs : List Rng) : mergeIndices (mergeIndices rs) = mergeIndices rs := by
  cases rs with
  | nil => rfl
  | cons t cs =>
    obtain ⟨l, rs, h1, _, _, h4⟩ := mergeTail_normal t cs
    simp only [mergeIndices]
    rw [h1] at h4 ⊢
    exact mergeTail_normal_id _ _ h4

/-- What is read has no ranges to join. -/
theorem splitLoop_norm : ∀ (n : Nat) (s : List Char) (v : Vec), splitLoop n s = .ok v → norm v = v
  | n, [], v, h => by
    have : v = [] := by
      cases n <;> simp only [splitLoop, Sp.ok.injEq] at h <;> exact h.symm
    subst this
    rfl
  | 0, c :: cs, v, h => by simp [splitLoop] at h
  | n+1, c :: cs, v, h => by
    rw [splitLoop] at h
    split at h
    · split at h
      · simp at h
      · obtain ⟨v', hv', rfl⟩ := Sp.cons_ok h
        rw [norm_cons_idx, mergeIndices_idem, splitLoop_norm n _ _ hv']
    · split at h
      · split at h
        · simp at h
        · obtain ⟨v', hv', rfl⟩ := Sp.cons_ok h
          rw [norm_cons_txt, splitLoop_norm n _ _ hv']
      · obtain ⟨v', hv', rfl⟩ := Sp.cons_ok h
        rw [norm_cons_txt, splitLoop_norm n _ _ hv']

/-- A name without indices is its own text. -/
theorem splitLoop_plain : ∀ (n : Nat) (s : List Char) (v : Vec), splitLoop n s = .ok v →
    (∀ rs, Seg.idx rs ∉ v) → vecText v = s
  | n, [], v, h, _ => by
    have : v = [] := by
      cases n <;> simp only [splitLoop, Sp.ok.injEq] at h <;> exact h.symm
    subst this
    rfl
  | 0, c :: cs, v, h, _ => by simp [splitLoop] at h
  | n+1, c :: cs, v, h, hp => by
    rw [splitLoop] at h
    split at h
    · split at h
      · simp at h
      · obtain ⟨v', hv', rfl⟩ := Sp.cons_ok h
        exact absurd List.mem_cons_self (hp _)
    · split at h
      · rename_i hc
        subst hc
        split at h
        · simp at h
        · rename_i d rest hd
          obtain ⟨v', hv', rfl⟩ := Sp.cons_ok h
          have hdd := dropWhile_head hd
          subst hdd
          rw [vecText_cons, splitLoop_plain n _ _ hv' (fun rs hr => hp rs (by simp [hr]))]
          have := List.takeWhile_append_dropWhile (p := (· != ' ')) (l := cs)
          rw [hd] at this
          simp only [Seg.text]
          conv => rhs; rw [← this]
          simp
      · obtain ⟨v', hv', rfl⟩ := Sp.cons_ok h
        rw [vecText_cons, splitLoop_plain n _ _ hv' (fun rs hr => hp rs (by simp [hr]))]
        exact text_append _

/-- With an index there is a closing bracket. -/
theorem wf_close : ∀ v : Vec, WF v → ∀ rs, Seg.idx rs ∈ v → ']' ∈ vecText v
  | .idx rs' :: v, ⟨_, _, ⟨t, v', hv'⟩, _⟩, rs, _ => by
    subst hv'
    rw [vecText_cons, vecText_cons]
    simp [Seg.text]
  | .txt s :: v, ⟨_, h⟩, rs, hr => by
    simp only [List.mem_cons, reduceCtorEq, false_or] at hr
    rw [vecText_cons]
    exact List.mem_append_right _ (wf_close v h rs hr)
  | [], _, rs, hr => by simp at hr

theorem close_not_const {s : List Char} (h : ']' ∈ s) : expandConstant s = none := by
  unfold expandConstant
  split
  · rename_i cs
    rw [if_neg]
    rintro ⟨_, h2⟩
    simp only [List.mem_cons] at h
    rcases h with h | h | h
    · simp at h
    · simp at h
    · have := List.all_eq_true.1 h2 _ h
      simp [isConstChar] at this
  · rfl

/-- Selecting keeps the kind of the segments. -/
theorem selects_idx {v b : Vec} (h : Selects v b) : (∃ rs, Seg.idx rs ∈ b) ∨ ((∀ rs, Seg.idx rs ∉ v) ∧ b = v) := by
  induction h with
  | nil => exact .inr ⟨by simp, rfl⟩
  | txt s v b _ ih =>
    rcases ih with ⟨rs, h⟩ | ⟨h1, h2⟩
    · exact .inl ⟨rs, by simp [h]⟩
    · refine .inr ⟨?_, by rw [h2]⟩
      intro rs hr
      simp only [List.mem_cons, reduceCtorEq, false_or] at hr
      exact h1 rs hr
  | idx rs v b r i _ _ _ _ => exact .inl ⟨_, List.mem_cons_self⟩

theorem split_text {v : Vec} (h : WF v) : split (vecText v) = some (norm v) := by
  unfold split
  rw [splitLoop_text v _ h (Nat.le_refl _)]

theorem mdExpand_text {v : Vec} (hw : WF v) (hi : Inners v) (hc : expandConstant (vecText v) = none) :
    mdExpand (vecText v) = some ((expand v).map vecText) := by
  have he := inner_norm v hi
  have hb : ∀ b ∈ expand (norm v), Bit b := by
    have hsp := splitLoop_text v _ hw (Nat.le_refl _)
    intro b hb
    exact (selects_bit ((mem_expand _ _).1 hb) (splitLoop_wf _ _ _ hsp) he).1
  unfold mdExpand
  rw [hc, split_text hw]
  simp only [Option.bind_eq_bind, Option.bind_some, he, Bool.false_eq_true, if_false]
  rw [showAll_bits _ hb, expand_norm]

theorem text_plain : ∀ (s t : List Char), '[' ∉ s → text (s ++ '[' :: t) = (s ++ (text ('[' :: t)).1, (text ('[' :: t)).2)
  | [], t, _ => rfl
  | c :: cs, t, h => by
    simp only [List.mem_cons, not_or] at h
    have hc : ¬ c = '[' := fun e => h.1 e.symm
    rw [List.cons_append, text, if_neg (fun x => hc x.1), text_plain cs t h.2]
    rfl

theorem base_txt {base : List Char} (h : Plain base) : Txt (base ++ ['[']) := by
  obtain ⟨h1, h2, h3, h4⟩ := h
  refine ⟨by simp, ?_, ?_, ?_⟩
  · cases hv : valid .item (base ++ ['[']) with
    | false => rfl
    | true =>
      have := valid_close _ _ hv
      simp [h4] at this
  · cases base with
    | nil => exact absurd rfl h1
    | cons a as => simpa using h2
  · rw [text_plain base [] h3]
    simp [text]

theorem close_txt : Txt [']'] := ⟨by simp, by decide, by decide, by decide⟩

theorem range_wf {base : List Char} (hb : Plain base) {h l : Int} (hr : Inner ⟨h, l⟩) :
    WF [.txt (base ++ ['[']), .idx [⟨h, l⟩], .txt [']']] := by
  have hint : isInt h = true ∧ isInt l = true := by
    obtain ⟨h1, h2⟩ := hr
    simp only [isInt, decide_eq_true_eq] at *
    omega
  exact ⟨.inr ⟨base_txt hb, .inr ⟨⟨base, rfl⟩, _, _, rfl⟩⟩, by simp, by simpa using hint, ⟨[], [], rfl⟩,
    .inr ⟨close_txt, .inl rfl⟩, trivial⟩

theorem written_eq (rs : List Rng) : written rs = rs.flatMap Rng.bits := by
  unfold written
  congr 1
  funext r
  unfold Rng.bits
  simp only [ge_iff_le]
  split
  · rw [show (r.up - r.lo).natAbs = (r.up - r.lo).toNat by omega]
  · rw [show (r.up - r.lo).natAbs = (r.lo - r.up).toNat by omega]

/-- All names of a list. -/
theorem mdExpandAll_eq (ss : List (List Char)) (f : List Char → List (List Char))
    (h : ∀ s ∈ ss, mdExpand s = some (f s)) : mdExpandAll ss = some (ss.flatMap f) := by
  induction ss with
  | nil => rfl
  | cons s ss ih =>
    simp only [mdExpandAll, h s (by simp), ih (fun x hx => h x (by simp [hx]))]
    rfl

end Voss.Vec
