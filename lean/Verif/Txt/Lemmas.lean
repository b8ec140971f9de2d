import Verif.Txt.Spec
import Verif.Lst.Lemmas
import Mathlib.Data.List.Forall2
/-
Lemmas about the string functions.
-/
namespace Voss.Txt

theorem at_zero {x s : List Char} : At x s 0 ↔ x.isPrefixOf s = true := by
  rw [List.isPrefixOf_iff_prefix]
  constructor
  · rintro ⟨a, b, rfl, ha⟩
    rw [List.length_eq_zero_iff.1 ha, List.nil_append]
    exact List.prefix_append _ _
  · rintro ⟨b, rfl⟩
    exact ⟨[], b, rfl, rfl⟩

theorem at_succ {x t : List Char} {c : Char} {i : Nat} : At x (c :: t) (i + 1) ↔ At x t i := by
  constructor
  · rintro ⟨a, b, h, ha⟩
    cases a with
    | nil => simp at ha
    | cons d a =>
      simp only [List.cons_append, List.cons.injEq] at h
      exact ⟨a, b, h.2, by simpa using ha⟩
  · rintro ⟨a, b, rfl, ha⟩
    exact ⟨c :: a, b, rfl, by simp [ha]⟩

theorem at_nil {x : List Char} {i : Nat} : At x [] i ↔ x = [] ∧ i = 0 := by
  constructor
  · rintro ⟨a, b, h, ha⟩
    have := congrArg List.length h
    simp at this
    exact ⟨List.length_eq_zero_iff.1 (by omega), by omega⟩
  · rintro ⟨rfl, rfl⟩
    exact ⟨[], [], rfl, rfl⟩

theorem at_le {x s : List Char} {i : Nat} (h : At x s i) : i + x.length ≤ s.length := by
  obtain ⟨a, b, rfl, ha⟩ := h
  simp [ha]

theorem at_drop {x s : List Char} {k i : Nat} (h : k ≤ s.length) : At x (s.drop k) i ↔ At x s (k + i) := by
  induction k generalizing s with
  | zero => simp
  | succ k ih =>
    cases s with
    | nil => simp at h
    | cons c t =>
      rw [List.drop_succ_cons, ih (by simpa using h), Nat.add_right_comm, at_succ]

theorem at_split {x s : List Char} {i : Nat} (h : At x s i) : s = s.take i ++ x ++ s.drop (i + x.length) := by
  obtain ⟨a, b, rfl, ha⟩ := h
  subst ha
  simp

theorem strstr_some {s x : List Char} {i : Nat} (h : strstr s x = some i) : At x s i ∧ ∀ j, At x s j → i ≤ j := by
  induction s generalizing i with
  | nil =>
    unfold strstr at h
    split at h
    · cases h
      exact ⟨at_zero.2 (by assumption), fun j _ => Nat.zero_le j⟩
    · simp at h
  | cons c t ih =>
    unfold strstr at h
    split at h
    · cases h
      exact ⟨at_zero.2 (by assumption), fun j _ => Nat.zero_le j⟩
    · rename_i hp
      simp only [Option.map_eq_some_iff] at h
      obtain ⟨k, hk, rfl⟩ := h
      obtain ⟨h1, h2⟩ := ih hk
      refine ⟨at_succ.2 h1, ?_⟩
      intro j hj
      cases j with
      | zero => exact absurd (at_zero.1 hj) hp
      | succ j => exact Nat.succ_le_succ (h2 j (at_succ.1 hj))

theorem strstr_none {s x : List Char} : strstr s x = none ↔ ¬ Occurs x s := by
  induction s with
  | nil =>
    unfold strstr
    split
    · rename_i hp
      exact ⟨fun h => by simp at h, fun h => absurd ⟨0, at_zero.2 hp⟩ h⟩
    · rename_i hp
      refine ⟨fun _ => ?_, fun _ => rfl⟩
      rintro ⟨i, hi⟩
      obtain ⟨rfl, rfl⟩ := at_nil.1 hi
      simp at hp
  | cons c t ih =>
    unfold strstr
    split
    · rename_i hp
      exact ⟨fun h => by simp at h, fun h => absurd ⟨0, at_zero.2 hp⟩ h⟩
    · rename_i hp
      simp only [Option.map_eq_none_iff]
      rw [ih]
      constructor
      · rintro h ⟨i, hi⟩
        cases i with
        | zero => exact hp (at_zero.1 hi)
        | succ i => exact h ⟨i, at_succ.1 hi⟩
      · rintro h ⟨i, hi⟩
        exact h ⟨i + 1, at_succ.2 hi⟩

theorem strstr_iff {s x : List Char} {i : Nat} : strstr s x = some i ↔ At x s i ∧ ∀ j, At x s j → i ≤ j := by
  refine ⟨strstr_some, ?_⟩
  rintro ⟨h1, h2⟩
  cases h : strstr s x with
  | none => exact absurd ⟨i, h1⟩ (strstr_none.1 h)
  | some k =>
    obtain ⟨k1, k2⟩ := strstr_some h
    rw [Nat.le_antisymm (k2 i h1) (h2 k k1)]

theorem strcmp_eq {s t : List Char} : strcmp s t = .eq ↔ s = t := by
  induction s generalizing t with
  | nil => cases t <;> simp [strcmp]
  | cons a s ih =>
    cases t with
    | nil => simp [strcmp]
    | cons b t =>
      simp only [strcmp]
      split
      · rename_i h; rw [ih, h]; simp
      · rename_i h
        constructor
        · intro h'; split at h' <;> simp at h'
        · intro h'; simp at h'; exact absurd h'.1 h

theorem toNat_inj {a b : Char} (h : a.toNat = b.toNat) : a = b := Char.ext (UInt32.toNat_inj.1 h)

theorem strcmp_swap (s t : List Char) : strcmp t s = (strcmp s t).swap := by
  induction s generalizing t with
  | nil => cases t <;> rfl
  | cons a s ih =>
    cases t with
    | nil => rfl
    | cons b t =>
      simp only [strcmp]
      by_cases h : a = b
      · subst h; simp [ih]
      · rw [if_neg h, if_neg (fun e => h e.symm)]
        have : a.toNat ≠ b.toNat := fun e => h (toNat_inj e)
        by_cases h' : a.toNat < b.toNat
        · rw [if_pos h', if_neg (by omega)]; rfl
        · rw [if_neg h', if_pos (by omega)]; rfl

theorem strcmp_lt_iff {s t : List Char} : strcmp s t = .lt ↔
    (∃ x, x ≠ [] ∧ t = s ++ x) ∨ ∃ p a b s' t', s = p ++ a :: s' ∧ t = p ++ b :: t' ∧ a.toNat < b.toNat := by
  induction s generalizing t with
  | nil =>
    cases t with
    | nil => simp [strcmp]
    | cons b t => simp [strcmp]
  | cons a s ih =>
    cases t with
    | nil => simp [strcmp]
    | cons b t =>
      simp only [strcmp]
      by_cases h : a = b
      · subst h
        rw [if_pos rfl, ih]
        constructor
        · rintro (⟨x, hx, rfl⟩ | ⟨p, c, d, s', t', rfl, rfl, hcd⟩)
          · exact Or.inl ⟨x, hx, rfl⟩
          · exact Or.inr ⟨a :: p, c, d, s', t', rfl, rfl, hcd⟩
        · rintro (⟨x, hx, h⟩ | ⟨p, c, d, s', t', h1, h2, hcd⟩)
          · simp at h
            exact Or.inl ⟨x, hx, h⟩
          · cases p with
            | nil =>
              simp only [List.nil_append, List.cons.injEq] at h1 h2
              rw [← h1.1, ← h2.1] at hcd
              exact absurd hcd (by omega)
            | cons e p =>
              simp only [List.cons_append, List.cons.injEq] at h1 h2
              exact Or.inr ⟨p, c, d, s', t', h1.2, h2.2, hcd⟩
      · rw [if_neg h]
        constructor
        · intro h'
          split at h'
          · exact Or.inr ⟨[], a, b, s, t, rfl, rfl, by assumption⟩
          · simp at h'
        · rintro (⟨x, hx, h'⟩ | ⟨p, c, d, s', t', h1, h2, hcd⟩)
          · simp at h'; exact absurd h'.1.symm h
          · cases p with
            | nil =>
              simp only [List.nil_append, List.cons.injEq] at h1 h2
              rw [if_pos (by rw [h1.1, h2.1]; exact hcd)]
            | cons e p =>
              simp only [List.cons_append, List.cons.injEq] at h1 h2
              exact absurd (h1.1.trans h2.1.symm) h

theorem strncmp_eq (p s : List Char) : strncmp p s p.length = .eq ↔ p <+: s := by
  induction p generalizing s with
  | nil => simp [strncmp]
  | cons a p ih =>
    cases s with
    | nil => simp [strncmp]
    | cons b s =>
      simp only [List.length_cons, strncmp]
      split
      · rename_i h; subst h; rw [ih, List.cons_prefix_cons]; simp
      · rename_i h
        rw [List.cons_prefix_cons]
        constructor
        · intro h'; split at h' <;> simp at h'
        · rintro ⟨h', -⟩; exact absurd h' h

/-! ### Splitting -/

theorem splitLoop_spec {sep : List Char} (hs : sep ≠ []) : ∀ (n : Nat) (cur : List Char) (b : Bool), cur.length < n →
    join sep (splitLoop sep n cur b) = cur ∧ Pieces sep (splitLoop sep n cur b) ∧
    (splitLoop sep n cur b = [] ↔ cur = [] ∧ b = false) := by
  have hl : 0 < sep.length := List.length_pos_iff.2 hs
  intro n
  induction n with
  | zero => intro cur b h; omega
  | succ n ih =>
    intro cur b h
    rw [splitLoop]
    split
    · rename_i i hi
      obtain ⟨h1, h2⟩ := strstr_some hi
      have hle := at_le h1
      obtain ⟨k1, k2, k3⟩ := ih (cur.drop (i + sep.length)) true (by rw [List.length_drop]; omega)
      have hne : splitLoop sep n (cur.drop (i + sep.length)) true ≠ [] := fun e => by simpa using k3.1 e
      cases hsp : splitLoop sep n (cur.drop (i + sep.length)) true with
      | nil => exact absurd hsp hne
      | cons q ps =>
        rw [hsp] at k1 k2
        refine ⟨?_, ⟨?_, k2⟩, by simp; intro e; rw [e] at hle; simp only [List.length_nil] at hle; omega⟩
        · rw [join, k1]; exact (at_split h1).symm
        · intro j hj
          rw [List.length_take, Nat.min_eq_left (by omega)]
          apply h2
          obtain ⟨a, c, hac, rfl⟩ := hj
          refine ⟨a, c ++ cur.drop (i + sep.length), ?_, rfl⟩
          rw [← List.append_assoc, ← hac]
          exact at_split h1
    · rename_i hi
      have := strstr_none.1 hi
      split
      · rename_i hb
        refine ⟨rfl, this, ?_⟩
        simp only [Bool.or_eq_true, Bool.not_eq_true', List.isEmpty_eq_false_iff] at hb
        simp
        intro e
        rcases hb with hb | hb
        · exact absurd e hb
        · exact hb
      · rename_i hb
        simp at hb
        simp [join, Pieces, hb]

theorem pieces_unique {sep : List Char} (hs : sep ≠ []) : ∀ (l k : List (List Char)), l ≠ [] → k ≠ [] → Pieces sep l →
    Pieces sep k → join sep l = join sep k → l = k := by
  have first : ∀ p r, (∀ i, At sep (p ++ sep) i → p.length ≤ i) → strstr (p ++ sep ++ r) sep = some p.length := by
    intro p r hp
    rw [strstr_iff]
    refine ⟨⟨p, r, rfl, rfl⟩, ?_⟩
    rintro j ⟨a, b, hab, rfl⟩
    rcases Nat.lt_or_ge a.length p.length with h | h
    · apply hp
      have hpre : a ++ sep <+: p ++ sep := by
        refine List.prefix_of_prefix_length_le (l₃ := p ++ sep ++ r) ⟨b, hab.symm⟩ ⟨r, rfl⟩ (by simp; omega)
      obtain ⟨c, hc⟩ := hpre
      exact ⟨a, c, hc.symm, rfl⟩
    · exact h
  intro l
  induction l with
  | nil => intro k h; simp at h
  | cons p ps ih =>
    intro k _ hk hl hk' hj
    cases k with
    | nil => simp at hk
    | cons q qs =>
      cases ps with
      | nil =>
        cases qs with
        | nil => simp [join] at hj; rw [hj]
        | cons q' qs =>
          exfalso
          rw [join, join] at hj
          apply hl
          rw [hj]
          exact ⟨q.length, q, _, rfl, rfl⟩
      | cons p' ps =>
        cases qs with
        | nil =>
          exfalso
          rw [join, join] at hj
          apply hk'
          rw [← hj]
          exact ⟨p.length, p, _, rfl, rfl⟩
        | cons q' qs =>
          rw [join, join] at hj
          have e1 := first p (join sep (p' :: ps)) hl.1
          have e2 := first q (join sep (q' :: qs)) hk'.1
          rw [hj, e2] at e1
          simp only [Option.some.injEq] at e1
          have hpq : p = q := by
            rw [List.append_assoc, List.append_assoc] at hj
            exact (List.append_inj hj e1.symm).1
          subst hpq
          rw [ih (q' :: qs) (by simp) (by simp) hl.2 hk'.2 (List.append_cancel_left hj)]

/-! ### Trimming -/

theorem trimBack_spec (f : List Char) (h : ∃ c ∈ f, isspace c = false) :
    ∃ b, f = b ++ trimBack f ∧ (∀ c ∈ b, isspace c = true) ∧ ∃ c t, trimBack f = c :: t ∧ isspace c = false := by
  induction f with
  | nil => simp at h
  | cons c cs ih =>
    rw [trimBack]
    split
    · rename_i hc
      simp only [Bool.and_eq_true] at hc
      obtain ⟨b, h1, h2, h3⟩ := ih (by
        obtain ⟨d, hd, hd'⟩ := h
        rcases List.mem_cons.1 hd with rfl | hd
        · rw [hd'] at hc; simp at hc
        · exact ⟨d, hd, hd'⟩)
      refine ⟨c :: b, by rw [List.cons_append, ← h1], ?_, h3⟩
      intro d hd
      rcases List.mem_cons.1 hd with rfl | hd
      · exact hc.1
      · exact h2 d hd
    · rename_i hc
      refine ⟨[], rfl, by simp, c, cs, rfl, ?_⟩
      cases hs : isspace c with
      | false => rfl
      | true =>
        simp [hs] at hc
        subst hc
        simp [hs] at h

/-! ### The last occurrence -/

theorem lastOcc_spec {s x : List Char} (hx : x ≠ []) : ∀ n f, s.length < n + f + 1 → At x s f →
    ∃ k, lastOcc s x n f = some k ∧ At x s k ∧ ∀ j, At x s j → j ≤ k := by
  have hl : 0 < x.length := List.length_pos_iff.2 hx
  intro n
  induction n with
  | zero => intro f h hf; have := at_le hf; omega
  | succ n ih =>
    intro f h hf
    have hle := at_le hf
    rw [lastOcc, if_neg (by omega)]
    split
    · rename_i hi
      refine ⟨f, rfl, hf, ?_⟩
      intro j hj
      rcases Nat.lt_or_ge f j with hlt | hge
      · exfalso
        apply strstr_none.1 hi
        exact ⟨j - (f + 1), (at_drop (by omega)).2 (by rwa [Nat.add_sub_cancel' (by omega)])⟩
      · exact hge
    · rename_i i hi
      have := (at_drop (by omega)).1 (strstr_some hi).1
      exact ih (f + 1 + i) (by omega) this

theorem strstr_empty (s : List Char) : strstr s [] = some 0 := by
  unfold strstr
  simp

theorem lastOcc_empty (s : List Char) : ∀ n f, lastOcc s [] n f = none := by
  intro n
  induction n with
  | zero => intro f; rfl
  | succ n ih =>
    intro f
    rw [lastOcc]
    split
    · rfl
    · rw [strstr_empty]; exact ih _

/-! ### Clusters -/

theorem clusterLoop_spec {sz : Nat} (h0 : 0 < sz) : ∀ (n k : Nat) (s : List Char), s.length < n → s.length = k * sz →
    (clusterLoop sz n s).flatten = s ∧ (∀ p ∈ clusterLoop sz n s, p.length = sz) ∧ (clusterLoop sz n s).length = k := by
  intro n
  induction n with
  | zero => intro k s h; omega
  | succ n ih =>
    intro k s h hk
    cases s with
    | nil =>
      simp only [List.length_nil] at hk
      rw [clusterLoop]
      rcases Nat.mul_eq_zero.1 hk.symm with hk | hk
      · simp [hk]
      · omega
    | cons c t =>
      rw [clusterLoop]
      cases k with
      | zero => simp at hk
      | succ k =>
        rw [Nat.succ_mul] at hk
        obtain ⟨h1, h2, h3⟩ := ih k ((c :: t).drop sz) (by rw [List.length_drop]; omega) (by rw [List.length_drop]; omega)
        refine ⟨?_, ?_, by rw [List.length_cons, h3]⟩
        · rw [List.flatten_cons, h1, List.take_append_drop]
        · intro p hp
          rcases List.mem_cons.1 hp with rfl | hp
          · rw [List.length_take]; omega
          · exact h2 p hp

/-! ### Joining -/

theorem implodeLoop_eq : ∀ (l : List (List Char)) (res : List Char),
    implodeLoop l res.length res = (if (res ++ l.flatten).length ≤ 129999 ∨ l = [] then .ok (res ++ l.flatten) else .fail) := by
  intro l
  induction l with
  | nil => intro res; simp [implodeLoop]
  | cons s l ih =>
    intro res
    rw [implodeLoop]
    have e : ((res ++ s).length : Int) = res.length + s.length := by simp
    have hb : blockSize - 1 = 129999 := rfl
    rw [hb, ← e, ih (res ++ s)]
    simp only [List.flatten_cons, List.append_assoc, reduceCtorEq, or_false]
    simp only [List.length_append]
    cases l with
    | nil =>
      by_cases h : res.length + s.length ≤ 129999
      · rw [if_neg (by simp; omega), if_pos (Or.inr rfl), if_pos (by simp; omega)]
      · rw [if_pos (by simp; omega), if_neg (by simp; omega)]
    | cons s' l =>
      by_cases h : res.length + s.length ≤ 129999
      · rw [if_neg (by simp; omega)]
        refine if_congr ?_ rfl rfl
        simp
      · rw [if_pos (by simp; omega), if_neg (by simp; omega)]

/-! ### Tcl lists -/

theorem tcl_cons (c : Char) (cs : List Char) (level : Int) (cur : List Char) (out : List (List Char)) :
    tclLoop (c :: cs) level cur out =
    if c = ' ' then
      if level = 0 then tclLoop cs level [] (out ++ [cur]) else tclLoop cs level (cur ++ [c]) out
    else if c = '\\' then
      match cs with
      | [] => none
      | d :: cs' => tclLoop cs' level (cur ++ [c, d]) out
    else if c = '{' then
      if level = 0 then tclLoop cs (level + 1) [] out else tclLoop cs (level + 1) (cur ++ [c]) out
    else if c = '}' then
      if level > 1 then tclLoop cs (level - 1) (cur ++ [c]) out
      else match cs with
        | [] => some (out ++ [cur])
        | d :: cs' => if d = ' ' then tclLoop cs' (level - 1) [] (out ++ [cur]) else tclLoop (d :: cs') (level - 1) [] (out ++ [cur])
    else tclLoop cs level (cur ++ [c]) out := by
  cases cs <;> rfl

theorem tcl_nil (level : Int) (cur : List Char) (out : List (List Char)) :
    tclLoop [] level cur out = some (if cur = [] then out else out ++ [cur]) := rfl

theorem tcl_braces {w : List Char} (h : Braces w) : ∀ (rest cur : List Char) (lev : Int) (out : List (List Char)), 1 ≤ lev →
    tclLoop (w ++ rest) lev cur out = tclLoop rest lev (cur ++ w) out := by
  induction h with
  | nil => intro rest cur lev out _; simp
  | @plain c t h1 h2 h3 _ ih =>
    intro rest cur lev out hl
    rw [List.cons_append, tcl_cons]
    have : cur ++ c :: t = (cur ++ [c]) ++ t := by simp
    rw [this, ← ih rest (cur ++ [c]) lev out hl]
    by_cases hc : c = ' '
    · rw [if_pos hc, if_neg (by omega)]
    · rw [if_neg hc, if_neg h3, if_neg h1, if_neg h2]
  | @esc c t _ ih =>
    intro rest cur lev out hl
    rw [List.cons_append, List.cons_append, tcl_cons, if_neg (by decide), if_pos rfl]
    simp only
    rw [ih _ _ _ _ hl]
    simp
  | @group a b _ _ ih1 ih2 =>
    intro rest cur lev out hl
    have e : '{' :: a ++ '}' :: b ++ rest = '{' :: (a ++ ('}' :: (b ++ rest))) := by simp
    rw [e, tcl_cons, if_neg (by decide), if_neg (by decide), if_pos rfl, if_neg (by omega), ih1 _ _ _ _ (by omega), tcl_cons,
      if_neg (by decide), if_neg (by decide), if_neg (by decide), if_pos rfl, if_pos (by omega), ih2 _ _ _ _ (by omega)]
    simp [Int.add_sub_cancel]

theorem tcl_bare {w : List Char} (h : ∀ c ∈ w, c ≠ ' ' ∧ c ≠ '{' ∧ c ≠ '}' ∧ c ≠ '\\') :
    ∀ (rest cur : List Char) (out : List (List Char)), tclLoop (w ++ rest) 0 cur out = tclLoop rest 0 (cur ++ w) out := by
  induction w with
  | nil => intro rest cur out; simp
  | cons c w ih =>
    intro rest cur out
    obtain ⟨h1, h2, h3, h4⟩ := h c (by simp)
    rw [List.cons_append, tcl_cons, if_neg h1, if_neg h4, if_neg h2, if_neg h3, ih (fun d hd => h d (by simp [hd]))]
    simp

theorem tcl_written {w t : List Char} (h : Written w t) (out : List (List Char)) :
    tclLoop t 0 [] out = some (out ++ [w]) ∧ ∀ rest, tclLoop (t ++ ' ' :: rest) 0 [] out = tclLoop rest 0 [] (out ++ [w]) := by
  cases h with
  | bare hb =>
    constructor
    · have := tcl_bare hb.2 [] [] out
      rw [List.append_nil] at this
      rw [this, tcl_nil, List.nil_append, if_neg hb.1]
    · intro rest
      rw [tcl_bare hb.2, tcl_cons, if_pos rfl, if_pos rfl, List.nil_append]
  | braced hb =>
    constructor
    · rw [List.cons_append, tcl_cons, if_neg (by decide), if_neg (by decide), if_pos rfl, if_pos rfl, tcl_braces hb _ _ _ _ (by omega),
        tcl_cons, if_neg (by decide), if_neg (by decide), if_neg (by decide), if_pos rfl, if_neg (by omega)]
      simp
    · intro rest
      have e : '{' :: w ++ ['}'] ++ ' ' :: rest = '{' :: (w ++ '}' :: ' ' :: rest) := by simp
      rw [e, tcl_cons, if_neg (by decide), if_neg (by decide), if_pos rfl, if_pos rfl, tcl_braces hb _ _ _ _ (by omega),
        tcl_cons, if_neg (by decide), if_neg (by decide), if_neg (by decide), if_pos rfl, if_neg (by omega)]
      simp

theorem tcl_list {ws ts : List (List Char)} (h : List.Forall₂ Written ws ts) : ∀ out : List (List Char),
    tclLoop (join [' '] ts) 0 [] out = some (out ++ ws) := by
  induction h with
  | nil => intro out; simp [join, tcl_nil]
  | @cons w t ws ts hw hr ih =>
    intro out
    cases ts with
    | nil =>
      cases hr
      rw [join]
      exact (tcl_written hw out).1
    | cons t' ts =>
      rw [join]
      have e : t ++ [' '] ++ join [' '] (t' :: ts) = t ++ ' ' :: join [' '] (t' :: ts) := by simp
      rw [e, (tcl_written hw out).2, ih]
      simp

end Voss.Txt
