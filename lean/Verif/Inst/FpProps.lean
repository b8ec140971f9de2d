import Mathlib.Data.List.Sort
import Verif.Inst.FpSpec

/-
C82: fingerprints of circuits.
-/
namespace Voss.Inst
open Hier

/-! ### Lemmas -/

theorem fpOp_comm (pr : Nat → W64) (o : Op) (h : o.sym) (a b : W64) : fpOp pr o a b = fpOp pr o b a := by
  cases o <;> simp only [Op.sym] at h <;> simp only [fpOp, BitVec.add_comm a b]

mutual
theorem fpW_same (pr : Nat → W64) : ∀ {a b : W}, Same a b → fpW pr a = fpW pr b
  | _, _, .x _ => rfl
  | _, _, .const _ _ => rfl
  | _, _, .named _ _ _ _ => by rw [fpW, fpW]
  | _, _, .var _ _ _ => by rw [fpW, fpW]
  | _, _, .evar _ _ _ => by rw [fpW, fpW]
  | _, _, .kind _ _ _ => by rw [fpW, fpW]
  | _, _, .kind' _ _ _ => by rw [fpW, fpW]
  | _, _, .not h => by rw [fpW, fpW, fpW_same pr h]
  | _, _, .op _ h k => by rw [fpW, fpW, fpW_same pr h, fpW_same pr k]
  | _, _, .swap _ hs h k => by rw [fpW, fpW, fpW_same pr h, fpW_same pr k, fpOp_comm pr _ hs]
  | _, _, .pred _ _ h => by rw [fpW, fpW, fpW_same pr h]
  | _, _, .sx _ h => by rw [fpW, fpW, fpW_same pr h]
  | _, _, .zx _ h => by rw [fpW, fpW, fpW_same pr h]
  | _, _, .ite h k l => by rw [fpW, fpW, fpW_same pr h, fpW_same pr k, fpW_same pr l]
  | _, _, .slice _ h => by rw [fpW, fpW, fpW_same pr h]
  | _, _, .nslice _ _ _ h => by rw [fpW, fpW, fpW_same pr h]
  | _, _, .unnamed _ _ h => by rw [fpW, fpW, fpW_same pr h]
  | _, _, .upd _ _ _ h k => by rw [fpW, fpW, fpW_same pr h, fpW_same pr k]
  | _, _, .cat h => by rw [fpW, fpW, fpList_same pr h]
  | _, _, .read _ _ _ h k => by rw [fpW, fpW, fpW_same pr h, fpW_same pr k]
  | _, _, .write _ _ _ h k l => by rw [fpW, fpW, fpW_same pr h, fpW_same pr k, fpW_same pr l]
  | _, _, .delay _ _ _ _ _ h k => by rw [fpW, fpW, fpW_same pr h, fpList_same pr k]
theorem fpList_same (pr : Nat → W64) : ∀ {as bs : List W}, SameAll as bs → ∀ {i sum}, fpList pr i sum as = fpList pr i sum bs
  | _, _, .nil => rfl
  | _, _, .cons h k => by rw [fpList, fpList, fpW_same pr h, fpList_same pr k]
end

theorem fpFn_same (pr : Nat → W64) {a b : Fn} (h : SameFn a b) : fpFn pr a = fpFn pr b := by
  cases h with
  | update h k => simp only [fpFn, fpTop, fpW_same pr h, fpW_same pr k]
  | phase h k => simp only [fpFn, fpTop, fpW_same pr h, fpW_same pr k]

/-- The sum of a list. -/
def total (l : List W64) : W64 := l.foldr (· + ·) 0

theorem total_perm {l l' : List W64} (h : l.Perm l') : total l = total l' := by
  induction h with
  | nil => rfl
  | cons x _ ih => simp only [total, List.foldr_cons] at ih ⊢; rw [ih]
  | swap x y l => simp only [total, List.foldr_cons]; rw [← BitVec.add_assoc, ← BitVec.add_assoc, BitVec.add_comm x y]
  | trans _ _ ih ih' => exact ih.trans ih'

theorem foldl_total (pr : Nat → W64) (l : List Fn) (s : W64) :
    l.foldl (fun sum f => sum + fpFn pr f) s = s + total (l.map (fpFn pr)) := by
  induction l generalizing s with
  | nil => simp [total]
  | cons f l ih => rw [List.foldl_cons, ih, List.map_cons, BitVec.add_assoc]; rfl

/-- A list of options, all or nothing. -/
def allSome {α} : List (Option α) → Option (List α)
  | [] => some []
  | o :: os => do let a ← o; let r ← allSome os; some (a :: r)

theorem allSome_perm {α} {l l' : List (Option α)} (h : l.Perm l') :
    (allSome l = none ∧ allSome l' = none) ∨ ∃ a b, allSome l = some a ∧ allSome l' = some b ∧ a.Perm b := by
  induction h with
  | nil => exact .inr ⟨[], [], rfl, rfl, .refl _⟩
  | cons x _ ih =>
    cases x with
    | none => exact .inl ⟨rfl, rfl⟩
    | some x =>
      rcases ih with ⟨h1, h2⟩ | ⟨a, b, h1, h2, h3⟩
      · exact .inl ⟨by simp [allSome, h1], by simp [allSome, h2]⟩
      · exact .inr ⟨x :: a, x :: b, by simp [allSome, h1], by simp [allSome, h2], h3.cons x⟩
  | swap x y l =>
    cases x with
    | none => exact .inl ⟨by cases y <;> simp [allSome], by simp [allSome]⟩
    | some x =>
      cases y with
      | none => exact .inl ⟨by simp [allSome], by simp [allSome]⟩
      | some y =>
        cases h : allSome l with
        | none => exact .inl ⟨by simp [allSome, h], by simp [allSome, h]⟩
        | some r => exact .inr ⟨y :: x :: r, x :: y :: r, by simp [allSome, h], by simp [allSome, h], .swap x y r⟩
  | trans _ _ ih ih' =>
    rcases ih with ⟨h1, h2⟩ | ⟨a, b, h1, h2, h3⟩
    · rcases ih' with ⟨k1, k2⟩ | ⟨c, d, k1, k2, k3⟩
      · exact .inl ⟨h1, k2⟩
      · rw [h2] at k1; exact absurd k1 (by simp)
    · rcases ih' with ⟨k1, k2⟩ | ⟨c, d, k1, k2, k3⟩
      · rw [h2] at k1; exact absurd k1 (by simp)
      · rw [h2] at k1
        obtain rfl := Option.some.inj k1
        exact .inr ⟨a, d, h1, k2, h3.trans k3⟩

theorem map_eq_of_forall₂ {α β} (f : α → β) {l l' : List α} (h : List.Forall₂ (fun a b => f a = f b) l l') :
    l.map f = l'.map f := by
  induction h with
  | nil => rfl
  | cons h _ ih => rw [List.map_cons, List.map_cons, h, ih]

theorem InSomeOrder.map {α β} {r : α → α → Prop} {l l' : List α} (h : InSomeOrder r l l') (f : α → β)
    (hr : ∀ a b, r a b → f a = f b) : (l.map f).Perm (l'.map f) := by
  obtain ⟨m, h1, h2⟩ := h
  rw [← map_eq_of_forall₂ f (h2.imp fun a b => hr a b)]
  exact h1.map f

theorem sizes_eq (ns : List Name) : sizes ns = allSome (ns.map Vec.mdSize) := by
  induction ns with
  | nil => rfl
  | cons n ns ih => simp only [sizes, List.map_cons, allSome, ih]

theorem fpNames_same (pr : Nat → W64) (sort : List Nat → List Nat) (hs : Sorts sort) {a b : List Name} (h : SameSizes a b) :
    fpNames pr sort a = fpNames pr sort b := by
  simp only [fpNames, sizes_eq]
  rcases allSome_perm (h.map Vec.mdSize fun _ _ h => h) with ⟨h1, h2⟩ | ⟨x, y, h1, h2, h3⟩
  · rw [h1, h2]
  · rw [h1, h2]
    have : sort x = sort y :=
      List.Perm.eq_of_pairwise (fun a b _ _ h k => Nat.le_antisymm h k) (hs x).2 (hs y).2 ((hs x).1.trans (h3.trans (hs y).1.symm))
    simp only [Option.map_some, this]

theorem findSignature_eq (as : List (Name × Name)) :
    findSignature as = match firstFp as with | none => some 0 | some v => (atol v).map (BitVec.ofInt 64) := by
  induction as with
  | nil => rfl
  | cons a as ih =>
    obtain ⟨k, v⟩ := a
    simp only [findSignature, firstFp, List.find?_cons]
    by_cases h : k = "FP".toList
    · simp [h]
    · have : (k == "FP".toList) = false := by simpa using h
      rw [if_neg h, this, ih]; rfl

theorem fpKid_same (pr : Nat → W64) (sort : List Nat → List Nat) (hs : Sorts sort) {a b : Kid} (h : SameKid a b) :
    fpKid pr sort a = fpKid pr sort b := by
  have h1 : findSignature a.attrs = findSignature b.attrs := by rw [findSignature_eq, findSignature_eq, h.fp]
  simp only [fpKid, fpFormal, h1, fpNames_same pr sort hs h.inps, fpNames_same pr sort hs h.outs, fpNames_same pr sort hs h.ints]

theorem fpKids_eq (pr : Nat → W64) (sort : List Nat → List Nat) (ks : List Kid) (s : W64) :
    fpKids pr sort s ks = (allSome (ks.map (fpKid pr sort))).map fun l => s + total l := by
  induction ks generalizing s with
  | nil => simp [fpKids, allSome, total]
  | cons k ks ih =>
    simp only [fpKids, List.map_cons, allSome]
    cases fpKid pr sort k with
    | none => rfl
    | some a =>
      simp only [Option.bind_eq_bind, Option.bind_some]
      rw [ih]
      cases allSome (ks.map (fpKid pr sort)) with
      | none => rfl
      | some r => simp only [Option.map_some, Option.bind_some, total, List.foldr_cons, BitVec.add_assoc]

theorem fpContent_same (pr : Nat → W64) (sort : List Nat → List Nat) (hs : Sorts sort) {a b : Content Fn} (h : SameContent a b) :
    fpContent pr sort a = fpContent pr sort b := by
  cases h with
  | leaf h =>
    simp only [fpContent, foldl_total]
    rw [total_perm (h.map (fpFn pr) fun _ _ => fpFn_same pr)]
  | hier h =>
    simp only [fpContent, fpKids_eq]
    rcases allSome_perm (h.map (fpKid pr sort) fun _ _ => fpKid_same pr sort hs) with ⟨h1, h2⟩ | ⟨x, y, h1, h2, h3⟩
    · rw [h1, h2]
    · simp only [h1, h2, Option.map_some, total_perm h3]

/-! ### Reading back -/

theorem isDigit_ofNat (d : Nat) (h : d < 10) : (Char.ofNat (48 + d)).isDigit = true ∧ (Char.ofNat (48 + d)).toNat = 48 + d := by
  have : ∀ d : Fin 10, (Char.ofNat (48 + d.1)).isDigit = true ∧ (Char.ofNat (48 + d.1)).toNat = 48 + d.1 := by decide
  exact this ⟨d, h⟩

theorem digits_all (fuel n : Nat) : ∀ c ∈ digits fuel n, c.isDigit = true := by
  induction fuel generalizing n with
  | zero => intro c hc; exact absurd hc List.not_mem_nil
  | succ f ih =>
    intro c hc
    rw [digits] at hc
    rcases List.mem_cons.1 hc with rfl | hc
    · exact (isDigit_ofNat _ (Nat.mod_lt _ (by decide))).1
    · split at hc
      · exact absurd hc List.not_mem_nil
      · exact ih _ c hc

theorem digits_val (fuel n : Nat) (h : n < 10 ^ fuel) :
    (digits fuel n).foldr (fun c (a : Int) => 10 * a + (c.toNat - '0'.toNat : Nat)) 0 = n := by
  induction fuel generalizing n with
  | zero => simp only [Nat.pow_zero, Nat.lt_one_iff] at h; subst h; rfl
  | succ f ih =>
    have hd := isDigit_ofNat (n % 10) (Nat.mod_lt _ (by decide))
    rw [digits, List.foldr_cons, hd.2]
    have h0 : '0'.toNat = 48 := rfl
    by_cases hz : n / 10 = 0
    · rw [if_pos hz, List.foldr_nil, h0]; omega
    · rw [if_neg hz, ih (n / 10) (by rw [Nat.pow_succ] at h; omega), h0]; omega

theorem takeWhile_all {α} (p : α → Bool) (l : List α) (h : ∀ a ∈ l, p a = true) : l.takeWhile p = l := by
  induction l with
  | nil => rfl
  | cons a l ih => rw [List.takeWhile_cons, if_pos (h a (by simp)), ih fun b hb => h b (by simp [hb])]

theorem digits_ne (fuel n : Nat) (c : Char) (hc : c.isDigit = false) : (digits fuel n).reverse.head? ≠ some c := by
  intro h
  have : c ∈ (digits fuel n).reverse := List.mem_of_mem_head? h
  rw [digits_all fuel n c (List.mem_reverse.1 this)] at hc
  exact absurd hc (by simp)

/-- Fingerprints are read as they were printed. -/
theorem atol_show (w : W64) : atol (showLong w) = some w.toInt := by
  have hlt : w.toInt.natAbs < 10 ^ 30 := by
    have h1 := BitVec.le_two_mul_toInt (x := w)
    have h2 := BitVec.two_mul_toInt_lt (x := w)
    omega
  have hr := BitVec.le_two_mul_toInt (x := w)
  have hr' := BitVec.two_mul_toInt_lt (x := w)
  have hval : (List.takeWhile Char.isDigit (digits 30 w.toInt.natAbs).reverse).foldl
      (fun (a : Int) c => 10 * a + (c.toNat - '0'.toNat : Nat)) 0 = w.toInt.natAbs := by
    rw [takeWhile_all _ _ fun c hc => digits_all _ _ c (List.mem_reverse.1 hc), List.foldl_reverse, digits_val _ _ hlt]
  simp only [showLong]
  by_cases hz : w.toInt < 0
  · rw [if_pos hz]
    simp only [atol, List.head?_cons, beq_self_eq_true, if_true, List.drop_succ_cons, List.drop_zero]
    rw [hval, if_pos (by omega)]
    congr 1; omega
  · rw [if_neg hz]
    have hn : ((digits 30 w.toInt.natAbs).reverse.head? == some '-') = false := by
      have := digits_ne 30 w.toInt.natAbs '-' (by decide)
      simpa using this
    simp only [atol, hn, Bool.false_eq_true, if_false]
    rw [hval, if_pos (by omega)]
    congr 1; omega

/-! ### C82 -/

/-- **The fingerprint depends on the structure only.**  Circuits that differ in names of signals, in the order of ports,
internals, functions and instances, and in the order of the arguments of symmetric operators have the same fingerprint, for
every table of factors. -/
theorem c82_structure (pr : Nat → W64) (sort : List Nat → List Nat) (hs : Sorts sort) (a b : Inst Fn) (h : SameInst a b) :
    fpInst pr sort a = fpInst pr sort b := by
  simp only [fpInst, fpFormal, fpNames_same pr sort hs h.inps, fpNames_same pr sort hs h.outs, fpNames_same pr sort hs h.ints,
    fpContent_same pr sort hs h.content]

/-- **Fingerprints can be stored.**  The attribute of an instance that holds a fingerprint is read as this fingerprint. -/
theorem c82_stored (w : W64) (as bs : List (Name × Name)) (h : ∀ a ∈ as, a.1 ≠ "FP".toList) :
    findSignature (as ++ ("FP".toList, showLong w) :: bs) = some w := by
  induction as with
  | nil => simp [findSignature, atol_show]
  | cons a as ih =>
    obtain ⟨k, v⟩ := a
    rw [List.cons_append, findSignature, if_neg (h (k, v) (by simp))]
    exact ih fun b hb => h b (by simp [hb])

/-- A leaf with two inputs and one output. -/
def gate2 (e : W) : Inst Fn :=
  ⟨"g".toList, [⟨"a".toList, []⟩, ⟨"b".toList, []⟩], [⟨"z".toList, []⟩], [], .leaf [.update (.var 1 "z".toList) e]⟩

def va : W := .var 1 "a".toList
def vb : W := .var 1 "b".toList

/-- **Violated: the same fingerprint does not mean the same function.**  Factors commute, so that a NAND gate has the
fingerprint of a NOR gate, whatever the table of factors; a search (C81) finds one for the other. -/
theorem c82_function_violated (pr : Nat → W64) (sort : List Nat → List Nat) :
    fpInst pr sort (gate2 (.not (.op .and va vb))) = fpInst pr sort (gate2 (.op .and (.not va) (.not vb))) ∧
      ∃ env, val env (.not (.op .and va vb)) ≠ val env (.op .and (.not va) (.not vb)) := by
  constructor
  · have : fpW pr (.not (.op .and va vb)) = fpW pr (.op .and (.not va) (.not vb)) := by
      simp only [fpW, fpOp, pm, va, vb, BitVec.add_mul, BitVec.mul_assoc, BitVec.mul_comm (pr 8)]
    simp only [fpInst, gate2, fpContent, List.foldl_cons, List.foldl_nil, fpFn, fpTop, this]
  · exact ⟨fun n => n == "a".toList, by decide⟩

/-! ### Examples -/

/-- Insertion sort, to have an instance of the parameter. -/
theorem sorts_insertion : Sorts (List.insertionSort (· ≤ ·)) :=
  fun l => ⟨List.perm_insertionSort _ l, List.pairwise_insertionSort _ l⟩

/-- Some primes. -/
def primes10 (n : Nat) : W64 := [2, 3, 5, 7, 11, 13, 17, 19, 23, 29].getD n 1

/-- The hypotheses hold of an `and` gate and one with other names, exchanged arguments and ports. -/
example : SameInst (gate2 (.op .and va vb))
    ⟨"h".toList, [⟨"y".toList, []⟩, ⟨"x".toList, []⟩], [⟨"o".toList, []⟩], [],
      .leaf [.update (.var 1 "o".toList) (.op .and (.var 1 "y".toList) (.evar 1 "x".toList))]⟩ := by
  refine ⟨⟨_, .refl _, ?_⟩, ⟨_, .refl _, ?_⟩, ⟨_, .refl _, .nil⟩, .leaf ⟨_, .refl _, ?_⟩⟩
  · exact .cons (by decide +kernel) (.cons (by decide +kernel) .nil)
  · exact .cons (by decide +kernel) .nil
  · exact .cons (.update (.var _ _ _) (.swap _ trivial (.kind _ _ _) (.var _ _ _))) .nil

/-- A fingerprint: 1 · 3 + 1 · 5 for the inputs, 1 · 3 for the output, and 1 · 17 + 23 · 34 for the function. -/
example : fpInst primes10 (List.insertionSort (· ≤ ·)) (gate2 (.op .and va vb)) = some 810 := by decide +kernel

end Voss.Inst
