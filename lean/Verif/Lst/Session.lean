import Verif.Lst.Lemmas
/-
Lemmas on lists evaluated on demand and on the tables of `assoc`, `rev_assoc`, `mem` and `el`.
-/
namespace Voss.Lst

section
variable {α σ : Type} {heap : σ → Cell α σ}

theorem Walk.append {s t u : σ} {l k : List α} (h : Walk heap s l t) (h' : Walk heap t k u) : Walk heap s (l ++ k) u := by
  induction h with
  | here s => exact h'
  | next e _ ih => exact .next e (ih h')

theorem Walk.snoc {s t u : σ} {l : List α} {a : α} (h : Walk heap s l t) (e : heap t = .cons a u) :
    Walk heap s (l ++ [a]) u := h.append (.next e (.here u))

/-- Two walks from one node: one goes on where the other ends. -/
theorem Walk.split {s t : σ} {l : List α} (h : Walk heap s l t) : ∀ {k : List α} {u : σ}, Walk heap s k u →
    l.length ≤ k.length → ∃ r, k = l ++ r ∧ Walk heap t r u := by
  induction h with
  | here s => intro k u h' _; exact ⟨k, rfl, h'⟩
  | next e _ ih =>
    intro k u h' hl
    cases h' with
    | here => simp at hl
    | next e' w' =>
      rw [e] at e'
      cases e'
      obtain ⟨r, hr, hw⟩ := ih w' (by simpa using hl)
      exact ⟨r, by rw [hr]; rfl, hw⟩

theorem Walk.nil_of_nil {s u : σ} {l : List α} (h : Walk heap s l u) (e : heap s = .nil) : l = [] ∧ u = s := by
  cases h with
  | here => exact ⟨rfl, rfl⟩
  | next e' _ => rw [e] at e'; cases e'

theorem Walk.nil_of_fail {s u : σ} {l : List α} {m : String} (h : Walk heap s l u) (e : heap s = .fail m) : l = [] ∧ u = s := by
  cases h with
  | here => exact ⟨rfl, rfl⟩
  | next e' _ => rw [e] at e'; cases e'

theorem Walk.good {s u : σ} {a : α} {l : List α} (h : Walk heap s (a :: l) u) : Good heap s := by
  intro m hm
  cases h with
  | next e' _ => rw [hm] at e'; cases e'

/-- The whole list extends every walk. -/
theorem Holds.extend {s t : σ} {l k : List α} (h : Holds heap s l) (w : Walk heap s k t) :
    ∃ r, l = k ++ r ∧ Holds heap t r := by
  obtain ⟨u, hu, hn⟩ := h
  by_cases hl : k.length ≤ l.length
  · obtain ⟨r, hr, hw⟩ := w.split hu hl
    exact ⟨r, hr, u, hw, hn⟩
  · obtain ⟨r, hr, hw⟩ := hu.split w (by omega)
    obtain ⟨h0, h1⟩ := hw.nil_of_nil hn
    subst h0
    rw [List.append_nil] at hr
    subst hr
    exact absurd (Nat.le_refl _) hl

/-! ### firstn, butfirstn, find -/

theorem firstnLoop_eq {s t : σ} {l : List α} (w : Walk heap s l t) (hg : l = [] ∨ Good heap t) : ∀ res,
    firstnLoop heap l.length s res = .ok (res ++ l) := by
  induction w with
  | here s => intro res; simp [firstnLoop]
  | @next s t u a l e w' ih =>
    intro res
    rw [List.length_cons, firstnLoop, e]
    simp only
    have hu : Good heap u := by
      rcases hg with h | h
      · simp at h
      · exact h
    have ht : Good heap t := by
      cases w' with
      | here => exact hu
      | next e' _ => intro m hm; rw [hm] at e'; cases e'
    have ih := ih (Or.inr hu) (res ++ [a])
    cases hc : heap t with
    | fail m => exact absurd hc (ht m)
    | nil => simp only; rw [ih]; simp
    | cons _ _ => simp only; rw [ih]; simp

theorem firstnLoop_bad {s t : σ} {l : List α} (w : Walk heap s l t) : ∀ n res,
    (heap t = .nil → l.length < n → firstnLoop heap n s res = .own) ∧
    (∀ m, heap t = .fail m → l ≠ [] → l.length ≤ n → firstnLoop heap n s res = .fail m) := by
  induction w with
  | here s =>
    intro n res
    refine ⟨fun h hl => ?_, fun m h hl => absurd rfl hl⟩
    cases n with
    | zero => simp at hl
    | succ n => rw [firstnLoop, h]
  | @next s t u a l e w' ih =>
    intro n res
    cases n with
    | zero => exact ⟨fun _ hl => by simp at hl, fun m _ _ hl => by simp at hl⟩
    | succ n =>
      rw [firstnLoop, e]
      simp only
      refine ⟨fun h hl => ?_, fun m h _ hl => ?_⟩
      · have ih := (ih n (res ++ [a])).1 h (by simpa using hl)
        cases hc : heap t with
        | fail m' =>
          obtain ⟨h0, h1⟩ := w'.nil_of_fail hc
          subst h1
          rw [h] at hc; cases hc
        | nil => simp only; exact ih
        | cons _ _ => simp only; exact ih
      · cases hc : heap t with
        | fail m' =>
          obtain ⟨h0, h1⟩ := w'.nil_of_fail hc
          subst h1
          rw [h] at hc; cases hc; rfl
        | nil =>
          obtain ⟨h0, h1⟩ := w'.nil_of_nil hc
          subst h1
          rw [h] at hc; cases hc
        | cons b v =>
          simp only
          refine (ih n (res ++ [a])).2 m h ?_ (by simpa using hl)
          rintro rfl
          cases w'
          rw [h] at hc; cases hc

theorem butfirstnLoop_eq {s t : σ} {l : List α} (w : Walk heap s l t) (hg : l = [] ∨ Good heap t) :
    butfirstnLoop heap l.length s = .ok t := by
  induction w with
  | here s => rfl
  | @next s t u a l e w' ih =>
    rw [List.length_cons, butfirstnLoop, e]
    simp only
    have hu : Good heap u := by
      rcases hg with h | h
      · simp at h
      · exact h
    have ht : Good heap t := by
      cases w' with
      | here => exact hu
      | next e' _ => intro m hm; rw [hm] at e'; cases e'
    have ih := ih (Or.inr hu)
    cases hc : heap t with
    | fail m => exact absurd hc (ht m)
    | nil => exact ih
    | cons _ _ => exact ih

theorem butfirstnLoop_bad {s t : σ} {l : List α} (w : Walk heap s l t) : ∀ n,
    (heap t = .nil → l.length < n → butfirstnLoop heap n s = .own) ∧
    (∀ m, heap t = .fail m → l ≠ [] → l.length ≤ n → butfirstnLoop heap n s = .fail m) := by
  induction w with
  | here s =>
    intro n
    refine ⟨fun h hl => ?_, fun m h hl => absurd rfl hl⟩
    cases n with
    | zero => simp at hl
    | succ n => rw [butfirstnLoop, h]
  | @next s t u a l e w' ih =>
    intro n
    cases n with
    | zero => exact ⟨fun _ hl => by simp at hl, fun m _ _ hl => by simp at hl⟩
    | succ n =>
      rw [butfirstnLoop, e]
      simp only
      refine ⟨fun h hl => ?_, fun m h _ hl => ?_⟩
      · have ih := (ih n).1 h (by simpa using hl)
        cases hc : heap t with
        | fail m' =>
          obtain ⟨h0, h1⟩ := w'.nil_of_fail hc
          subst h1
          rw [h] at hc; cases hc
        | nil => exact ih
        | cons _ _ => exact ih
      · cases hc : heap t with
        | fail m' =>
          obtain ⟨h0, h1⟩ := w'.nil_of_fail hc
          subst h1
          rw [h] at hc; cases hc; rfl
        | nil =>
          obtain ⟨h0, h1⟩ := w'.nil_of_nil hc
          subst h1
          rw [h] at hc; cases hc
        | cons b v =>
          simp only
          refine (ih n).2 m h ?_ (by simpa using hl)
          rintro rfl
          cases w'
          rw [h] at hc; cases hc

/-- `find` and `find_first0` get past elements that do not satisfy the predicate. -/
theorem find_skip {p : α → PRes} {s t : σ} {l : List α} (w : Walk heap s l t) (hl : ∀ e ∈ l, p e = .zero)
    (hg : Good heap t) : ∀ n, find heap p (n + l.length) s = find heap p n t := by
  induction w with
  | here s => intro n; rfl
  | @next s t u a l e w' ih =>
    intro n
    have : n + (a :: l).length = (n + l.length) + 1 := by simp; omega
    rw [this, find, e]
    simp only
    rw [hl a (by simp)]
    simp only
    have ih := ih (fun x hx => hl x (by simp [hx])) hg n
    have ht : Good heap t := by
      cases w' with
      | here => exact hg
      | next e' _ => intro m hm; rw [hm] at e'; cases e'
    cases hc : heap t with
    | fail m => exact absurd hc (ht m)
    | nil => exact ih
    | cons _ _ => exact ih

theorem findFirst_skip {p : α → PRes} {s t : σ} {l : List α} (w : Walk heap s l t) (hl : ∀ e ∈ l, p e = .zero)
    (hg : Good heap t) : ∀ n (i : Int), findFirst heap p (n + l.length) s i = findFirst heap p n t (i + l.length) := by
  induction w with
  | here s => intro n i; simp
  | @next s t u a l e w' ih =>
    intro n i
    have : n + (a :: l).length = (n + l.length) + 1 := by simp; omega
    have e2 : i + ((a :: l).length : Nat) = (i + 1) + (l.length : Nat) := by simp; omega
    rw [this, findFirst, e, e2]
    simp only
    rw [hl a (by simp)]
    simp only
    have ih := ih (fun x hx => hl x (by simp [hx])) hg n (i + 1)
    have ht : Good heap t := by
      cases w' with
      | here => exact hg
      | next e' _ => intro m hm; rw [hm] at e'; cases e'
    cases hc : heap t with
    | fail m => exact absurd hc (ht m)
    | nil => exact ih
    | cons _ _ => exact ih

/-! ### Tables of association lists -/

/-- The table of list `s`: it has the first entry for each key of a part of the list, and `next` is the node after
this part. -/
def TabOk (eq : α → α → Bool) (get : α → α × α) (heap : σ → Cell α σ) (s : σ) (r : Tab α σ) : Prop :=
  ∃ P, Walk heap s P r.next ∧ ∀ key, look eq r.tbl key = (P.find? (fun e => eq key (get e).1)).map (fun e => (get e).2)

theorem look_cons (eq : α → α → Bool) (k v : α) (tbl : List (α × α)) (key : α) :
    look eq ((k, v) :: tbl) key = if eq key k then some v else look eq tbl key := by
  unfold look
  rw [List.find?_cons]
  simp only
  cases eq key k <;> rfl

theorem scan_ok {eq : α → α → Bool} (he : Equiv eq) (get : α → α × α) (key : α) (s : σ) (l : List α)
    (hl : Holds heap s l) : ∀ n (r : Tab α σ) (P : List α), Walk heap s P r.next →
    (∀ key, look eq r.tbl key = (P.find? (fun e => eq key (get e).1)).map (fun e => (get e).2)) →
    look eq r.tbl key = none → l.length < n + P.length →
    TabOk eq get heap s (scan eq get heap key n r).1 ∧ (scan eq get heap key n r).2 = assocSpec eq get key l := by
  intro n
  induction n with
  | zero =>
    intro r P hw _ _ hlen
    obtain ⟨rest, hr, -⟩ := hl.extend hw
    rw [hr, List.length_append] at hlen
    omega
  | succ n ih =>
    intro r P hw htab hkey hlen
    obtain ⟨rest, hr, hh⟩ := hl.extend hw
    have hnoP : P.find? (fun e => eq key (get e).1) = none := by
      rw [htab] at hkey
      cases hf : P.find? (fun e => eq key (get e).1) with
      | none => rfl
      | some e => rw [hf] at hkey; simp at hkey
    rw [scan]
    cases hc : heap r.next with
    | nil =>
      simp only
      refine ⟨⟨P, hw, htab⟩, ?_⟩
      obtain ⟨u, hu, -⟩ := hh
      obtain ⟨h0, -⟩ := hu.nil_of_nil hc
      subst h0
      rw [List.append_nil] at hr
      rw [hr]
      unfold assocSpec
      rw [hnoP]
    | fail m =>
      obtain ⟨u, hu, hn⟩ := hh
      obtain ⟨-, h1⟩ := hu.nil_of_fail hc
      subst h1
      rw [hn] at hc; cases hc
    | cons e t =>
      simp only
      have hw' : Walk heap s (P ++ [e]) t := hw.snoc hc
      have htab' : ∀ key', look eq (if (look eq r.tbl (get e).1).isNone then ((get e).1, (get e).2) :: r.tbl else r.tbl) key' =
          ((P ++ [e]).find? (fun x => eq key' (get x).1)).map (fun x => (get x).2) := by
        intro key'
        rw [List.find?_append, List.find?_singleton]
        have hP := htab key'
        have hlk := htab (get e).1
        split
        · rename_i hn
          rw [look_cons]
          cases hk : eq key' (get e).1 with
          | false =>
            simp only [Bool.false_eq_true, if_false, Option.or_none]
            exact hP
          | true =>
            simp only [if_true]
            -- no entry of `P` has an equal key
            have : P.find? (fun x => eq key' (get x).1) = none := by
              rw [List.find?_eq_none]
              intro x hx hkx
              rw [hlk, Option.isNone_iff_eq_none, Option.map_eq_none_iff, List.find?_eq_none] at hn
              exact hn x hx (he.trans _ _ _ (he.symm _ _ hk) hkx)
            rw [this]; rfl
        · rename_i hn
          rw [hP]
          cases hk : eq key' (get e).1 with
          | false => simp
          | true =>
            simp only [if_true]
            have : ∃ x, P.find? (fun x => eq key' (get x).1) = some x := by
              rw [hlk] at hn
              cases hf : P.find? (fun x => eq (get e).1 (get x).1) with
              | none => rw [hf] at hn; simp at hn
              | some x =>
                have h1 := List.mem_of_find?_eq_some hf
                have h2 := List.find?_some hf
                rw [← Option.isSome_iff_exists, List.find?_isSome]
                exact ⟨x, h1, he.trans _ _ _ hk h2⟩
            obtain ⟨x, hx⟩ := this
            rw [hx]; rfl
      split
      · rename_i hk
        refine ⟨⟨P ++ [e], hw', htab'⟩, ?_⟩
        have : l.find? (fun x => eq key (get x).1) = some e := by
          obtain ⟨rest', hr', -⟩ := hl.extend hw'
          rw [hr', List.find?_append, List.find?_append, hnoP, List.find?_singleton, hk]
          rfl
        unfold assocSpec
        rw [this]
      · rename_i hk
        simp only [Bool.not_eq_true] at hk
        refine ih ⟨_, t⟩ (P ++ [e]) hw' htab' ?_ (by simp; omega)
        have h1 := htab' key
        rw [List.find?_append, hnoP, List.find?_singleton, hk] at h1
        exact h1

theorem assocLike_ok {eq : α → α → Bool} (he : Equiv eq) (get : α → α × α) (key : α) (s : σ) (l : List α)
    (hl : Holds heap s l) (n : Nat) (hn : l.length < n) (r? : Option (Tab α σ)) (hr : ∀ r, r? = some r → TabOk eq get heap s r) :
    TabOk eq get heap s (assocLike eq get heap n key s r?).1 ∧ (assocLike eq get heap n key s r?).2 = assocSpec eq get key l := by
  have key' : ∀ r : Tab α σ, TabOk eq get heap s r →
      TabOk eq get heap s (match look eq r.tbl key with | some v => (r, Res.ok v) | none => scan eq get heap key n r).1 ∧
      (match look eq r.tbl key with | some v => (r, Res.ok v) | none => scan eq get heap key n r).2 = assocSpec eq get key l := by
    intro r hok
    cases hlk : look eq r.tbl key with
    | none =>
      obtain ⟨P, hw, htab⟩ := hok
      exact scan_ok he get key s l hl n r P hw htab hlk (by omega)
    | some v =>
      refine ⟨hok, ?_⟩
      obtain ⟨P, hw, htab⟩ := hok
      rw [htab] at hlk
      cases hf : P.find? (fun e => eq key (get e).1) with
      | none => rw [hf] at hlk; simp at hlk
      | some e =>
        rw [hf] at hlk
        simp only [Option.map_some, Option.some.injEq] at hlk
        obtain ⟨rest, hrest, -⟩ := hl.extend hw
        unfold assocSpec
        rw [hrest, List.find?_append, hf]
        simp [hlk]
  unfold assocLike
  cases r? with
  | none => exact key' ⟨[], s⟩ ⟨[], .here s, fun _ => rfl⟩
  | some r => exact key' r (hr r rfl)

/-! ### The table of `el` -/

/-- Positions, from `k + 1`, with their elements. -/
def numbered : Nat → List α → List (Int × α)
  | _, [] => []
  | k, e :: t => ((k : Int) + 1, e) :: numbered (k + 1) t

/-- The table of list `s`: the elements of a part of the list with their positions, and the node after it, which
is not a failure. -/
def ElOk (heap : σ → Cell α σ) (s : σ) (r : ElTab α σ) : Prop :=
  ∃ P : List α, Walk heap s P r.next ∧ Good heap r.next ∧ r.tbl.length = P.length ∧
    ∀ i : Int, (r.tbl.find? (fun x => i == x.1)).map (·.2) = if 1 ≤ i then P[(i - 1).toNat]? else none

theorem elLoop_ok (i : Int) (s : σ) : ∀ (n : Nat) (r : ElTab α σ) (P : List α),
    Walk heap s P r.next → Good heap r.next → r.tbl.length = P.length →
    (∀ i : Int, (r.tbl.find? (fun x => i == x.1)).map (·.2) = if 1 ≤ i then P[(i - 1).toNat]? else none) →
    (P.length : Int) < i → i < n + P.length →
    ∀ eq pair, ElOk heap s (elLoop heap i n r P.length).1 ∧
      Right eq pair heap (.el i s) ((elLoop heap i n r P.length).2.map .elem) := by
  intro n
  induction n with
  | zero => intro r P _ _ _ _ h1 h2; omega
  | succ n ih =>
    intro r P hw hg hlen htab h1 h2 eq pair
    rw [elLoop]
    cases hc : heap r.next with
    | nil => exact ⟨⟨P, hw, hg, hlen, htab⟩, .elShort ⟨_, hw, hc⟩ h1⟩
    | fail m => exact absurd hc (hg m)
    | cons e t =>
      simp only
      have hw' := hw.snoc hc
      have hlen' : (((P.length : Int) + 1, e) :: r.tbl).length = (P ++ [e]).length := by simp [hlen]
      have htab' : ∀ i : Int, ((((P.length : Int) + 1, e) :: r.tbl).find? (fun x => i == x.1)).map (·.2) =
          if 1 ≤ i then (P ++ [e])[(i - 1).toNat]? else none := by
        intro i
        rw [List.find?_cons]
        simp only
        by_cases hi : i = (P.length : Int) + 1
        · subst hi
          rw [beq_self_eq_true, if_pos (by omega)]
          have : (P.length : Int) + 1 - 1 = (P.length : Int) := by omega
          rw [this]
          simp
        · rw [beq_false_of_ne hi]
          simp only
          rw [htab]
          by_cases hp : 1 ≤ i
          · rw [if_pos hp, if_pos hp]
            by_cases hq : i < (P.length : Int) + 1
            · rw [List.getElem?_append_left (by omega)]
            · rw [List.getElem?_eq_none (by omega), List.getElem?_eq_none (by simp; omega)]
          · rw [if_neg hp, if_neg hp]
      have main : Good heap t → ∀ (r' : ElTab α σ), r' = ⟨((P.length : Int) + 1, e) :: r.tbl, t⟩ →
          ElOk heap s (if (P.length : Int) + 1 = i then (r', Res.ok e) else elLoop heap i n r' ((P.length : Int) + 1)).1 ∧
          Right eq pair heap (.el i s) ((if (P.length : Int) + 1 = i then (r', Res.ok e) else elLoop heap i n r' ((P.length : Int) + 1)).2.map .elem) := by
        intro hgt r' hr'
        subst hr'
        split
        · rename_i hi
          exact ⟨⟨P ++ [e], hw', hgt, hlen', htab'⟩, .el hw' hgt hi.symm⟩
        · rename_i hi
          have e1 : (P.length : Int) + 1 = ((P ++ [e]).length : Int) := by simp
          have := ih ⟨_, t⟩ (P ++ [e]) hw' hgt hlen' htab' (by simp; omega) (by simp; omega) eq pair
          rwa [← e1] at this
      cases hct : heap t with
      | fail m =>
        exact ⟨⟨P, hw, hg, hlen, htab⟩, .elFail hw' hct (by simp; omega)⟩
      | nil => exact main (fun m hm => by rw [hct] at hm; cases hm) _ rfl
      | cons _ _ => exact main (fun m hm => by rw [hct] at hm; cases hm) _ rfl

theorem elLike_ok (i : Int) (s : σ) (hi : 0 < i) (n : Nat) (hn : i < n) (hs : Good heap s) (r? : Option (ElTab α σ))
    (hr : ∀ r, r? = some r → ElOk heap s r) (eq : α → α → Bool) (pair : α → α × α) :
    ElOk heap s (elLike heap n i s r?).1 ∧ Right eq pair heap (.el i s) ((elLike heap n i s r?).2.map .elem) := by
  have key' : ∀ r : ElTab α σ, ElOk heap s r →
      ElOk heap s (match r.tbl.find? (fun x : Int × α => i == x.1) with | some x => (r, Res.ok x.2) | none => elLoop heap i n r r.tbl.length).1 ∧
      Right eq pair heap (.el i s) ((match r.tbl.find? (fun x : Int × α => i == x.1) with | some x => (r, Res.ok x.2) | none => elLoop heap i n r r.tbl.length).2.map .elem) := by
    intro r hok
    obtain ⟨P, hw, hg, hlen, htab⟩ := hok
    have hi' := htab i
    rw [if_pos (by omega)] at hi'
    cases hf : r.tbl.find? (fun x => i == x.1) with
    | none =>
      rw [hf] at hi'
      have hle : (P.length : Int) < i := by
        have := hi'.symm
        simp only [Option.map_none] at this
        have := List.getElem?_eq_none_iff.1 this
        omega
      simp only
      rw [hlen]
      exact elLoop_ok i s n r P hw hg hlen htab hle (by omega) eq pair
    | some x =>
      refine ⟨⟨P, hw, hg, hlen, htab⟩, ?_⟩
      rw [hf] at hi'
      simp only [Option.map_some] at hi'
      obtain ⟨hlt, hget⟩ := List.getElem?_eq_some_iff.1 hi'.symm
      -- the part of the list up to the element
      have hsplit : P = P.take (i - 1).toNat ++ [x.2] ++ P.drop ((i - 1).toNat + 1) := by
        rw [← hget, List.take_append_getElem, List.take_append_drop]
      have hwalk : ∀ (A B : List α) (s : σ), Walk heap s (A ++ B) r.next → ∃ t, Walk heap s A t ∧ Walk heap t B r.next := by
        intro A
        induction A with
        | nil => intro B s h; exact ⟨s, .here s, h⟩
        | cons a A ih =>
          intro B s h
          cases h with
          | next e w =>
            obtain ⟨t, h1, h2⟩ := ih B _ w
            exact ⟨t, .next e h1, h2⟩
      rw [hsplit] at hw
      obtain ⟨t, h1, h2⟩ := hwalk _ _ s hw
      refine .el (t := t) h1 ?_ ?_
      · cases h2d : P.drop ((i - 1).toNat + 1) with
        | nil => rw [h2d] at h2; cases h2; exact hg
        | cons b B => rw [h2d] at h2; exact h2.good
      · rw [List.length_take, Nat.min_eq_left (by omega)]
        omega
  unfold elLike
  cases r? with
  | none => exact key' ⟨[], s⟩ ⟨[], .here s, hs, rfl, fun i => by simp⟩
  | some r => exact key' r (hr r rfl)

/-! ### Sessions -/

/-- All tables are right. -/
structure TblsOk (eq : α → α → Bool) (pair : α → α × α) (heap : σ → Cell α σ) (T : Tbls α σ) : Prop where
  assoc : ∀ s r, T.assoc s = some r → TabOk eq pair heap s r
  rassoc : ∀ s r, T.rassoc s = some r → TabOk eq (fun e => ((pair e).2, (pair e).1)) heap s r
  mem : ∀ s r, T.mem s = some r → TabOk eq (fun e => (e, e)) heap s r
  el : ∀ s r, T.el s = some r → ElOk heap s r

theorem put_ok {β : Type} [DecidableEq σ] {P : σ → β → Prop} {f : σ → Option β} {s : σ} {r : β}
    (h : ∀ x y, f x = some y → P x y) (hr : P s r) : ∀ x y, put f s r x = some y → P x y := by
  intro x y hxy
  unfold put at hxy
  split at hxy
  · rename_i hx
    cases hxy
    rw [hx]
    exact hr
  · exact h x y hxy

theorem memRes_spec (eq : α → α → Bool) (key : α) (l : List α) :
    memRes (assocSpec eq (fun e => (e, e)) key l) = .ok (.bool (l.any (fun e => eq key e))) := by
  unfold assocSpec
  cases hf : l.find? (fun e => eq key e) with
  | none =>
    have : l.any (fun e => eq key e) = false := by
      rw [List.any_eq_false]
      intro x hx
      rw [List.find?_eq_none] at hf
      exact hf x hx
    rw [this]; rfl
  | some e =>
    have : l.any (fun e => eq key e) = true := by
      rw [List.any_eq_true]
      exact ⟨e, List.mem_of_find?_eq_some hf, List.find?_some hf⟩
    rw [this]; rfl

theorem call_ok [DecidableEq σ] {eq : α → α → Bool} (he : Equiv eq) (pair : α → α × α) (n : Nat) (T : Tbls α σ)
    (hT : TblsOk eq pair heap T) (c : Call α σ) (hc : Sensible heap n c) :
    TblsOk eq pair heap (call eq pair heap n T c).1 ∧ Right eq pair heap c (call eq pair heap n T c).2 := by
  cases c with
  | assoc key s =>
    obtain ⟨l, hl, hn⟩ := hc
    obtain ⟨h1, h2⟩ := assocLike_ok he pair key s l hl n hn (T.assoc s) (fun r hr => hT.assoc s r hr)
    refine ⟨⟨put_ok hT.assoc h1, hT.rassoc, hT.mem, hT.el⟩, ?_⟩
    show Right eq pair heap _ ((assocLike eq pair heap n key s (T.assoc s)).2.map .elem)
    rw [h2]
    exact .assoc hl
  | rassoc key s =>
    obtain ⟨l, hl, hn⟩ := hc
    obtain ⟨h1, h2⟩ := assocLike_ok he (fun e => ((pair e).2, (pair e).1)) key s l hl n hn (T.rassoc s) (fun r hr => hT.rassoc s r hr)
    refine ⟨⟨hT.assoc, put_ok hT.rassoc h1, hT.mem, hT.el⟩, ?_⟩
    show Right eq pair heap _ ((assocLike eq _ heap n key s (T.rassoc s)).2.map .elem)
    rw [h2]
    exact .rassoc hl
  | mem key s =>
    obtain ⟨l, hl, hn⟩ := hc
    obtain ⟨h1, h2⟩ := assocLike_ok he (fun e => (e, e)) key s l hl n hn (T.mem s) (fun r hr => hT.mem s r hr)
    refine ⟨⟨hT.assoc, hT.rassoc, put_ok hT.mem h1, hT.el⟩, ?_⟩
    show Right eq pair heap _ (memRes (assocLike eq _ heap n key s (T.mem s)).2)
    rw [h2, memRes_spec]
    exact .mem hl
  | el i s =>
    obtain ⟨hi, hn, hs⟩ := hc
    rw [call, getInt_of hi]
    simp only
    split
    · rename_i h0
      exact ⟨hT, .elNeg h0⟩
    · rename_i h0
      obtain ⟨h1, h2⟩ := elLike_ok i s (by omega) n hn hs (T.el s) (fun r hr => hT.el s r hr) eq pair
      exact ⟨⟨hT.assoc, hT.rassoc, hT.mem, put_ok hT.el h1⟩, h2⟩

theorem Walk.keep {heap' : σ → Cell α σ} {s t : σ} {l : List α} (w : Walk heap s l t)
    (h : ∀ k u, Walk heap s k u → heap' u = heap u) : Walk heap' s l t := by
  induction w with
  | here s => exact .here s
  | next e _ ih =>
    refine .next ((h _ _ (.here _)).trans e) (ih ?_)
    intro k u w
    exact h _ _ (.next e w)

theorem gc_ok {eq : α → α → Bool} {pair : α → α × α} {T : Tbls α σ} (hT : TblsOk eq pair heap T) {dead : σ → Bool}
    {heap' : σ → Cell α σ}
    (h : ∀ s, T.HasRec s → dead s = false → ∀ l t, Walk heap s l t → heap' t = heap t) :
    TblsOk eq pair heap' (gc dead T) := by
  have keep : ∀ {get : α → α × α} {s : σ} {r : Tab α σ}, T.HasRec s → dead s = false → TabOk eq get heap s r → TabOk eq get heap' s r := by
    rintro get s r h1 h2 ⟨P, hw, ht⟩
    exact ⟨P, hw.keep (h s h1 h2), ht⟩
  constructor
  · intro s r hr
    unfold gc at hr
    simp only at hr
    split at hr
    · cases hr
    · rename_i hd
      exact keep (Or.inl (by rw [hr]; simp)) (by simpa using hd) (hT.assoc s r hr)
  · intro s r hr
    unfold gc at hr
    simp only at hr
    split at hr
    · cases hr
    · rename_i hd
      exact keep (Or.inr (Or.inl (by rw [hr]; simp))) (by simpa using hd) (hT.rassoc s r hr)
  · intro s r hr
    unfold gc at hr
    simp only at hr
    split at hr
    · cases hr
    · rename_i hd
      exact keep (Or.inr (Or.inr (Or.inl (by rw [hr]; simp)))) (by simpa using hd) (hT.mem s r hr)
  · intro s r hr
    unfold gc at hr
    simp only at hr
    split at hr
    · cases hr
    · rename_i hd
      have hrec : T.HasRec s := Or.inr (Or.inr (Or.inr (by rw [hr]; simp)))
      have hd' : dead s = false := by simpa using hd
      obtain ⟨P, hw, hg, hlen, ht⟩ := hT.el s r hr
      refine ⟨P, hw.keep (h s hrec hd'), ?_, hlen, ht⟩
      intro m hm
      rw [h s hrec hd' _ _ hw] at hm
      exact hg m hm

theorem session_ok [DecidableEq σ] {eq : α → α → Bool} (he : Equiv eq) {pair : α → α × α} {n : Nat}
    {T : Tbls α σ} {log : List ((σ → Cell α σ) × Call α σ × Res (Val α))} (h : Session eq pair n heap T log) :
    TblsOk eq pair heap T ∧ ∀ x ∈ log, Right eq pair x.1 x.2.1 x.2.2 := by
  induction h with
  | start heap =>
    refine ⟨⟨?_, ?_, ?_, ?_⟩, by simp⟩ <;> intro s r hr <;> simp [Tbls.init] at hr
  | call c _ hl ih =>
    obtain ⟨h1, h2⟩ := call_ok he pair n _ ih.1 c hl
    refine ⟨h1, ?_⟩
    intro x hx
    rcases List.mem_append.1 hx with hx | hx
    · exact ih.2 x hx
    · simp only [List.mem_singleton] at hx
      rw [hx]
      exact h2
  | collect dead heap' _ hl ih => exact ⟨gc_ok ih.1 hl, ih.2⟩

end
end Voss.Lst
