import Verif.Sim.ExactLemmas2
import Verif.Sim.Limited
/-
C34, C35 and C38: circuit primitives.

Handles are arbitrary; `den h ρ` is the value of a handle under an assignment `ρ` of the symbolic
variables, `Exact o den` says that the operations compute the Boolean connectives (C14 for BDDs, C24 for
AND-inverter expressions).  `d.at den ρ` is a pair of rails under `ρ`.
-/
namespace Voss.Sim
open Voss.Bv (uv tc uv_lt)

variable {F Env : Type}

/-- The relation "the handle is true wherever the Boolean is". -/
theorem rel_limited (o : Ops F) (den : F → Env → Bool) (h : Exact o den) (big : F → Bool) (ρ : Env) :
    RelOps (fun f (b : Bool) => b = true → den f ρ = true) (limited big o) boolOps where
  zero := by intro h; simp [boolOps] at h
  one := by intro _; exact h.one ρ
  and := by
    intro a b a' b' h1 h2 h3
    simp only [limited]
    split
    · exact h.one ρ
    · rw [h.and]
      simp only [boolOps, Bool.and_eq_true] at h3 ⊢
      exact ⟨h1 h3.1, h2 h3.2⟩
  or := by
    intro a b a' b' h1 h2 h3
    simp only [limited]
    split
    · exact h.one ρ
    · rw [h.or]
      simp only [boolOps, Bool.or_eq_true] at h3 ⊢
      exact h3.imp h1 h2

theorem rel_exact (o : Ops F) (den : F → Env → Bool) (h : Exact o den) (ρ : Env) :
    RelOps (fun f (b : Bool) => den f ρ = b) o boolOps where
  zero := h.zero ρ
  one := h.one ρ
  and := by rintro a b _ _ rfl rfl; exact h.and a b ρ
  or := by rintro a b _ _ rfl rfl; exact h.or a b ρ

theorem exact_bool : Exact (Env := Unit) boolOps (fun b _ => b) :=
  ⟨fun _ => rfl, fun _ => rfl, fun _ _ => rfl, fun _ _ _ => rfl, fun _ _ _ => rfl⟩

theorem rd_at (den : F → Env → Bool) (ρ : Env) (a : DR F) (b : DR Bool) :
    RD (fun f (b : Bool) => den f ρ = b) a b ↔ a.at den ρ = b := by
  constructor
  · rintro ⟨h1, h2⟩; simp [DR.at, h1, h2]
  · rintro rfl; exact ⟨rfl, rfl⟩

theorem rw_at (den : F → Env → Bool) (ρ : Env) (as : List (DR F)) (bs : List (DR Bool)) :
    RW (fun f (b : Bool) => den f ρ = b) as bs ↔ as.map (DR.at den ρ) = bs := by
  constructor
  · intro h
    induction h with
    | nil => rfl
    | cons h1 _ ih => rw [List.map_cons, (rd_at den ρ _ _).1 h1, ih]
  · rintro rfl
    induction as with
    | nil => exact .nil
    | cons a as ih => exact .cons ((rd_at den ρ _ _).2 rfl) ih

/-- Evaluation under an assignment is evaluation of the Boolean pairs. -/
theorem eval_at (o : Ops F) (den : F → Env → Bool) (h : Exact o den) (p : Prim) (size : Nat) (inps : List (DR F)) (ρ : Env) :
    (p.eval o size inps).map (fun outs => outs.map (DR.at den ρ)) = p.eval boolOps size (inps.map (DR.at den ρ)) := by
  by_cases hp : p = .latLeq
  · subst hp
    unfold Prim.eval
    rw [List.length_map]
    split
    · rfl
    · have hc : ∀ a b : DR F, (latCell o a b).at den ρ = latCell boolOps (a.at den ρ) (b.at den ρ) := by
        intro a b
        simp only [latCell, DR.at, h.and, h.or, h.not]
        rfl
      simp only [Option.map_some, List.map_zipWith, hc, ← List.map_take, ← List.map_drop, List.zipWith_map]
  · rcases eval_rel (rel_exact o den h ρ) p hp size ((rw_at den ρ inps _).2 rfl) with ⟨e1, e2⟩ | ⟨v, w, e1, e2, e3⟩
    · rw [e1, e2]; rfl
    · rw [e1, e2, Option.map_some, (rw_at den ρ v w).1 e3]

/-! ### C34 -/

/-- C34 (shifts up to the width the 32-bit counters can handle): on inputs whose values under the
assignment are known, every primitive yields the intended word. -/
theorem c34_exact_partial (o : Ops F) (den : F → Env → Bool) (h : Exact o den) (p : Prim) (size : Nat) (inps : List (DR F)) (ρ : Env)
    (w : List Bool) (hin : inps.map (DR.at den ρ) = w.map enc) (hlen : p.inputs size ≤ inps.length)
    (hwf : p.WF size) (hs : p.SizeOK size) :
    ∃ outs, p.eval o size inps = some outs ∧ outs.map (DR.at den ρ) = (wordOp p size w).map encT := by
  have hl : w.length = inps.length := by have := congrArg List.length hin; simpa using this.symm
  have h1 := eval_at o den h p size inps ρ
  rw [hin] at h1
  rw [show w.map enc = encW w from rfl, eval_enc p size w (by omega) hwf hs] at h1
  obtain ⟨outs, e1, e2⟩ := Option.map_eq_some_iff.1 h1
  exact ⟨outs, e1, e2⟩

/-- Addition of two 3-bit words with symbolic handles: `Env = Bool`, the handle is a function. -/
example : let o : Ops (Bool → Bool) := ⟨fun _ => false, fun _ => true, fun a x => !a x, fun a b x => a x && b x, fun a b x => a x || b x⟩
    ∃ outs, Prim.add.eval o 2 [⟨id, not⟩, ⟨fun _ => true, fun _ => false⟩, ⟨fun _ => false, fun _ => true⟩, ⟨id, not⟩] = some outs ∧
      outs.map (DR.at (fun f ρ => f ρ) true) = [⟨false, true⟩, ⟨false, true⟩] ∧
      outs.map (DR.at (fun f ρ => f ρ) false) = [⟨false, true⟩, ⟨true, false⟩] := ⟨_, rfl, by decide, by decide⟩

example : wordOp .mul 4 [false, true, false, true, false, false, true, true] = [some true, some true, some true, some true] := by decide +kernel
example : wordOp .div 4 [true, true, false, true, false, false, true, true] = [some false, some true, some false, some false] := by decide +kernel
example : wordOp (.memRead 2 3 2) 2 [false, true, true, true, true, false, false, true] = [some true, some false] := by decide +kernel
example : wordOp (.memRead 2 3 2) 2 [true, true, true, true, true, false, false, true] = [none, none] := by decide +kernel

theorem amount_mod : ∀ (b : List Bool), b.length < 2^31 → amount b % 2^32 = uv b % 2^32 ∧ (32 ≤ b.length → amount b < 2^32) ∧ (b.length ≤ 32 → amount b < 2^b.length)
  | [], _ => by simp [amount, uv]
  | b :: bs, h => by
    obtain ⟨h1, h2, h3⟩ := amount_mod bs (by simp at h; omega)
    have hsa : shiftAmt bs.length % 2^32 = 2^bs.length % 2^32 := by simp [shiftAmt]
    refine ⟨?_, ?_, ?_⟩
    · rw [amount, uv, Nat.add_mod, h1, Nat.add_mod (if b then 2^bs.length else 0)]
      cases b
      · simp
      · simp only [if_true, hsa]
    · intro hl
      rw [amount]
      rcases Nat.lt_or_ge bs.length 32 with h4 | h4
      · have h5 := h3 (by omega)
        have e : bs.length = 31 := by simp at hl; omega
        rw [e] at h5 ⊢
        have : shiftAmt 31 = 2^31 := by decide
        cases b <;> simp [this] <;> omega
      · have h5 := h2 h4
        have : shiftAmt bs.length = 0 := by
          unfold shiftAmt
          obtain ⟨d, hd⟩ : ∃ d, bs.length = 32 + d := ⟨bs.length - 32, by omega⟩
          rw [hd, pow_add, Nat.mul_mod_right]
        cases b <;> simp [this] <;> omega
    · intro hl
      have h4 : bs.length < 32 := by simp at hl; omega
      have h5 := h3 (by omega)
      have : shiftAmt bs.length = 2^bs.length := by
        unfold shiftAmt; exact Nat.mod_eq_of_lt (Nat.pow_lt_pow_right (by omega) h4)
      rw [amount, List.length_cons, pow_succ]
      cases b <;> simp [this] <;> omega

/-- C34, what wide shifts compute: a left shift of more than 32 bits uses only the low 32 bits of the
shift amount. -/
theorem c34_shl_wide_partial (o : Ops F) (den : F → Env → Bool) (h : Exact o den) (size : Nat) (inps : List (DR F)) (ρ : Env)
    (a b : List Bool) (ha : a.length = size) (hb : b.length = size) (hin : inps.map (DR.at den ρ) = (a ++ b).map enc)
    (hs : 32 < size) (hs2 : size < 2^31) :
    ∃ outs, Prim.shl.eval o size inps = some outs ∧ outs.map (DR.at den ρ) = (natBits size (uv a * 2^(uv b % 2^32))).map enc := by
  have hl : inps.length = 2 * size := by have := congrArg List.length hin; simp [ha, hb] at this; omega
  have h1 := eval_at o den h .shl size inps ρ
  rw [hin] at h1
  have h2 : Prim.shl.eval boolOps size ((a ++ b).map enc) = some (encW (natBits size (uv a * 2^(uv b % 2^32)))) := by
    unfold Prim.eval
    rw [if_neg (by simp [Prim.inputs, ha, hb]; omega)]
    simp only [← List.map_take, ← List.map_drop]
    rw [List.take_append_of_le_length (by omega), List.take_of_length_le (by omega), List.drop_append_of_le_length (by omega),
      List.drop_eq_nil_of_le (by omega), List.nil_append, List.take_of_length_le (by omega)]
    have := shlLoop_enc a (by omega) b
    obtain ⟨g1, g2, _⟩ := amount_mod b (by omega)
    have hm : amount b = uv b % 2^32 := by rw [← g1, Nat.mod_eq_of_lt (g2 (by omega))]
    rw [hm, ha] at this
    exact congrArg some this
  rw [h2] at h1
  obtain ⟨outs, e1, e2⟩ := Option.map_eq_some_iff.1 h1
  exact ⟨outs, e1, e2⟩

/-- C34 is violated for wide shifts: shifting the 33-bit word 1 left by `2^32` should give 0 but gives
the word unchanged. -/
theorem c34_violated :
    let a := List.replicate 32 false ++ [true]
    let b := true :: List.replicate 32 false
    uv b = 2^32 ∧ Prim.shl.eval boolOps 33 ((a ++ b).map enc) = some (a.map enc) ∧
      natBits 33 (uv a * 2^uv b) ≠ a := by
  have hb : uv (true :: List.replicate 32 false) = 2^32 := by decide +kernel
  have ha : uv (List.replicate 32 false ++ [true]) = 1 := by decide +kernel
  have key : ∀ k, 33 ≤ k → natBits 33 (1 * 2^k) ≠ List.replicate 32 false ++ [true] := by
    intro k hk hc
    have := congrArg uv hc
    rw [uv_natBits, ha, Nat.one_mul] at this
    have h0 : (2:Nat)^k % 2^33 = 0 := Nat.mod_eq_zero_of_dvd (Nat.pow_dvd_pow 2 hk)
    omega
  have h33 : 33 ≤ uv (true :: List.replicate 32 false) := by rw [hb]; decide
  refine ⟨hb, by decide +kernel, ?_⟩
  rw [ha]
  exact key _ h33

theorem sshr_ub (v : List (DR F)) (f : DR F) (hv : v ≠ []) : sshrFun v (2^31) f = none := by
  unfold sshrFun
  rw [if_pos]
  rw [List.any_eq_true]
  refine ⟨0, by simp; exact List.length_pos_iff.2 hv, ?_⟩
  have : toInt32 (2^31) = -2^31 := by decide
  rw [this]; decide

/-- C34: right shifts of words of 32 bits and more always run into signed overflow, whatever the operands. -/
theorem c34_shr_undefined (o : Ops F) (size : Nat) (hs : 32 ≤ size) (inps : List (DR F)) :
    Prim.shr.eval o size inps = none ∧ Prim.ashr.eval o size inps = none := by
  have loop : ∀ (ar : Bool) (cur bs : List (DR F)), cur ≠ [] → 32 ≤ bs.length → shrLoop o ar cur bs = none := by
    intro ar cur bs hc hb
    have len : ∀ (bs c : List (DR F)), shrLoop o ar cur bs = some c → c.length = cur.length := by
      intro bs
      induction bs with
      | nil => intro c h; simp [shrLoop] at h; rw [h]
      | cons b bs ih =>
        intro c h
        rw [shrLoop] at h
        cases h1 : shrLoop o ar cur bs with
        | none => rw [h1] at h; simp at h
        | some c1 =>
          rw [h1] at h
          simp only [Option.bind_eq_bind, Option.bind_some] at h
          have h0 := ih c1 h1
          cases h2 : sshrFun c1 (shiftAmt bs.length) (if ar then c1.headD (dr0 o) else dr0 o) with
          | none => rw [h2] at h; simp at h
          | some t =>
            rw [h2] at h
            simp only [Option.bind_some, Option.some.injEq] at h
            have ht : t.length = c1.length := by
              unfold sshrFun at h2
              split at h2
              · simp at h2
              · rw [← Option.some.inj h2]; simp
            rw [← h]; simp [iteFn, ht, h0]
    induction bs with
    | nil => simp at hb
    | cons b bs ih =>
      rw [shrLoop]
      rcases Nat.lt_or_ge bs.length 32 with h | h
      · have e : bs.length = 31 := by simp at hb; omega
        cases h1 : shrLoop o ar cur bs with
        | none => rfl
        | some c =>
          have hc2 : c ≠ [] := by
            have := len bs c h1
            intro hn; rw [hn] at this; simp at this
            exact hc (List.length_eq_zero_iff.1 this.symm)
          simp only [Option.bind_eq_bind, Option.bind_some]
          rw [e, show shiftAmt 31 = 2^31 by decide, sshr_ub c _ hc2]
          rfl
      · rw [ih h]; rfl
  unfold Prim.eval
  by_cases hl : inps.length < 2 * size
  · simp [Prim.inputs, hl]
  · rw [if_neg (by simpa [Prim.inputs] using hl), if_neg (by simpa [Prim.inputs] using hl)]
    have h1 : inps.take size ≠ [] := by
      intro h; have := congrArg List.length h; rw [List.length_take, List.length_nil] at this; omega
    have h2 : 32 ≤ ((inps.drop size).take size).length := by simp; omega
    exact ⟨loop false _ _ h1 h2, loop true _ _ h1 h2⟩

/-! ### C35 -/

theorem weaker_iff (d e : DR Bool) : RD (fun f (b : Bool) => b = true → f = true) d e ↔ Weaker d e := by
  unfold RD Weaker Admits
  constructor
  · intro h b; cases b
    · exact h.2
    · exact h.1
  · intro h; exact ⟨h true, h false⟩

theorem admits_weaker (d : DR Bool) (b : Bool) : Admits d b ↔ Weaker d (enc b) := by
  unfold Weaker Admits enc
  cases b
  · constructor
    · intro h b; cases b <;> simp; exact h
    · intro h; exact h false rfl
  · constructor
    · intro h b; cases b <;> simp; exact h
    · intro h; exact h true rfl

theorem forall2_weaker (ds es : List (DR Bool)) : RW (fun f (b : Bool) => b = true → f = true) ds es ↔ WeakerW ds es := by
  constructor
  · intro h; exact h.imp fun a b h => (weaker_iff a b).1 h
  · intro h; exact List.Forall₂.imp (fun a b h => (weaker_iff a b).2 h) h

theorem admitsW_weaker : ∀ (ds : List (DR Bool)) (w : List Bool), AdmitsW ds w ↔ WeakerW ds (w.map enc) := by
  intro ds w
  unfold AdmitsW WeakerW
  rw [List.forall₂_map_right_iff]
  constructor
  · intro h; exact h.imp fun a b h => (admits_weaker a b).1 h
  · intro h; exact h.imp fun a b h => (admits_weaker a b).2 h

/-- The relation between handles under an assignment and Booleans is the relation between the pairs. -/
theorem rw_at_weaker (den : F → Env → Bool) (ρ : Env) (as : List (DR F)) (bs : List (DR Bool)) :
    RW (fun f (b : Bool) => b = true → den f ρ = true) as bs ↔ WeakerW (as.map (DR.at den ρ)) bs := by
  rw [← forall2_weaker]
  unfold RW
  rw [List.forall₂_map_left_iff]
  exact Iff.rfl

/-- Any operations the relation lemma applies to give sound results. -/
theorem sound_of_rel (o : Ops F) (den : F → Env → Bool) (ρ : Env)
    (H : RelOps (fun f (b : Bool) => b = true → den f ρ = true) o boolOps) (p : Prim) (hp : p ≠ .latLeq) (size : Nat)
    (inps : List (DR F)) (w : List Bool) (hin : AdmitsW (inps.map (DR.at den ρ)) w)
    (hlen : p.inputs size ≤ inps.length) (hwf : p.WF size) (hs : p.SizeOK size) :
    ∃ outs, p.eval o size inps = some outs ∧
      ∀ v, List.Forall₂ Possible (wordOp p size w) v → AdmitsW (outs.map (DR.at den ρ)) v := by
  have hl : inps.length = w.length := by have := hin.length_eq; simpa using this
  have h1 := eval_rel H p hp size ((rw_at_weaker den ρ inps _).2 ((admitsW_weaker _ _).1 hin))
  rw [show w.map enc = encW w from rfl, eval_enc p size w (by omega) hwf hs] at h1
  rcases h1 with ⟨_, e2⟩ | ⟨v, v', e1, e2, e3⟩
  · simp at e2
  · refine ⟨v, e1, ?_⟩
    rw [← Option.some.inj e2] at e3
    have e4 := (rw_at_weaker den ρ v _).1 e3
    intro x hx
    rw [admitsW_weaker]
    have e5 : WeakerW (encTW (wordOp p size w)) (x.map enc) := by
      unfold WeakerW encTW
      rw [List.forall₂_map_left_iff, List.forall₂_map_right_iff]
      apply List.Forall₂.imp _ hx
      rintro t b (rfl | rfl)
      · intro c _; cases c <;> rfl
      · intro c h; exact h
    have trans : ∀ {a b c : List (DR Bool)}, WeakerW a b → WeakerW b c → WeakerW a c := by
      intro a b c h1 h2
      induction h1 generalizing c with
      | nil => exact h2
      | cons h _ ih => cases h2 with
        | cons h3 h4 => exact .cons (fun x hx => h x (h3 x hx)) (ih h4)
    exact trans e4 e5

/-- C35, soundness (the lattice comparison and over-wide shifts excepted): if the inputs admit a word,
the outputs admit every possible result for that word. -/
theorem c35_sound_partial (o : Ops F) (den : F → Env → Bool) (h : Exact o den) (p : Prim) (hp : p ≠ .latLeq) (size : Nat)
    (inps : List (DR F)) (ρ : Env) (w : List Bool) (hin : AdmitsW (inps.map (DR.at den ρ)) w)
    (hlen : p.inputs size ≤ inps.length) (hwf : p.WF size) (hs : p.SizeOK size) :
    ∃ outs, p.eval o size inps = some outs ∧
      ∀ v, List.Forall₂ Possible (wordOp p size w) v → AdmitsW (outs.map (DR.at den ρ)) v := by
  refine sound_of_rel o den ρ ?_ p hp size inps w hin hlen hwf hs
  have hr := rel_exact o den h ρ
  exact
    { zero := fun hb => by simp [boolOps] at hb
      one := fun _ => hr.one
      and := fun h1 h2 h3 => by
        simp only [boolOps, Bool.and_eq_true] at h3
        rw [h.and, h1 h3.1, h2 h3.2]; rfl
      or := fun h1 h2 h3 => by
        simp only [boolOps, Bool.or_eq_true] at h3
        rw [h.or]
        rcases h3 with h3 | h3
        · rw [h1 h3]; rfl
        · rw [h2 h3, Bool.or_true] }

/-- With input X in one operand of a 2-bit addition the result admits both sums. -/
example : Prim.add.eval boolOps 2 [⟨false, true⟩, ⟨true, true⟩, ⟨false, true⟩, ⟨true, false⟩] = some [⟨true, true⟩, ⟨true, true⟩] := by decide
example : AdmitsW [⟨false, true⟩, ⟨true, true⟩, ⟨false, true⟩, ⟨true, false⟩] [false, true, false, true] ∧
    AdmitsW [⟨false, true⟩, ⟨true, true⟩, ⟨false, true⟩, ⟨true, false⟩] [false, false, false, true] := by
  simp [AdmitsW, Admits]

/-- C35, monotonicity: less defined inputs give less defined outputs. -/
theorem c35_mono (p : Prim) (hp : p ≠ .latLeq) (o : Ops F) (den : F → Env → Bool) (h : Exact o den) (size : Nat)
    (ds es : List (DR F)) (ρ : Env) (hw : WeakerW (ds.map (DR.at den ρ)) (es.map (DR.at den ρ))) :
    (p.eval o size ds = none ∧ p.eval o size es = none) ∨
    ∃ vs us, p.eval o size ds = some vs ∧ p.eval o size es = some us ∧
      WeakerW (vs.map (DR.at den ρ)) (us.map (DR.at den ρ)) := by
  have H : RelOps (fun a b : Bool => b = true → a = true) boolOps boolOps :=
    { zero := fun hb => hb
      one := fun hb => hb
      and := fun h1 h2 h3 => by
        simp only [boolOps, Bool.and_eq_true] at h3 ⊢
        exact ⟨h1 h3.1, h2 h3.2⟩
      or := fun h1 h2 h3 => by
        simp only [boolOps, Bool.or_eq_true] at h3 ⊢
        exact h3.imp h1 h2 }
  have h1 := eval_rel H p hp size ((forall2_weaker _ _).2 hw)
  rw [← eval_at o den h, ← eval_at o den h] at h1
  rcases h1 with ⟨e1, e2⟩ | ⟨v, u, e1, e2, e3⟩
  · exact Or.inl ⟨Option.map_eq_none_iff.1 e1, Option.map_eq_none_iff.1 e2⟩
  · obtain ⟨v', f1, rfl⟩ := Option.map_eq_some_iff.1 e1
    obtain ⟨u', f2, rfl⟩ := Option.map_eq_some_iff.1 e2
    exact Or.inr ⟨v', u', f1, f2, (forall2_weaker _ _).1 e3⟩

/-- C35: the lattice comparison is not monotone (as its comment in fsm.c says). -/
theorem c35_latleq_not_monotone :
    WeakerW [⟨true, true⟩, ⟨true, false⟩] [⟨true, false⟩, ⟨true, false⟩] ∧
    Prim.latLeq.eval boolOps 1 [⟨true, true⟩, ⟨true, false⟩] = some [⟨false, true⟩] ∧
    Prim.latLeq.eval boolOps 1 [⟨true, false⟩, ⟨true, false⟩] = some [⟨true, false⟩] ∧
    ¬ WeakerW [⟨false, true⟩] [⟨true, false⟩] := by
  refine ⟨?_, by decide, by decide, ?_⟩
  · refine .cons ?_ (.cons ?_ .nil)
    · intro b; cases b <;> simp [Admits]
    · intro b h; exact h
  · intro h
    cases h with
    | cons h _ => exact absurd (h true rfl) (by simp [Admits])

/-- What the lattice comparison decides: every value admitted by the first operand is admitted by the
second. -/
theorem c35_latleq (a b : DR Bool) : (latCell boolOps a b = enc true ↔ Weaker b a) ∧ (latCell boolOps a b = enc false ↔ ¬ Weaker b a) := by
  have hw : Weaker b a ↔ (a.h = true → b.h = true) ∧ (a.l = true → b.l = true) := by
    rw [← weaker_iff]; rfl
  rw [hw]
  obtain ⟨ah, al⟩ := a
  obtain ⟨bh, bl⟩ := b
  cases ah <;> cases al <;> cases bh <;> cases bl <;> decide

/-! ### C38 -/

/-- C38 for one primitive (whole runs are part of C36): with any size limit, the results are at most as
defined as the exact ones, also when the inputs were already weakened. -/
theorem c38_weaken_partial (o : Ops F) (den : F → Env → Bool) (h : Exact o den) (big : F → Bool) (p : Prim) (hp : p ≠ .latLeq)
    (size : Nat) (ds es : List (DR F)) (ρ : Env) (hw : WeakerW (ds.map (DR.at den ρ)) (es.map (DR.at den ρ))) :
    (p.eval (limited big o) size ds = none ∧ p.eval o size es = none) ∨
    ∃ vs us, p.eval (limited big o) size ds = some vs ∧ p.eval o size es = some us ∧
      WeakerW (vs.map (DR.at den ρ)) (us.map (DR.at den ρ)) := by
  have h1 := eval_rel (rel_limited o den h big ρ) p hp size ((rw_at_weaker den ρ ds _).2 hw)
  rw [← eval_at o den h] at h1
  rcases h1 with ⟨e1, e2⟩ | ⟨v, u, e1, e2, e3⟩
  · exact Or.inl ⟨e1, Option.map_eq_none_iff.1 e2⟩
  · obtain ⟨u', f2, rfl⟩ := Option.map_eq_some_iff.1 e2
    exact Or.inr ⟨v, u', e1, f2, (rw_at_weaker den ρ v _).1 e3⟩

/-- C38: so a result computed under a limit still admits every possible result. -/
theorem c38_sound_partial (o : Ops F) (den : F → Env → Bool) (h : Exact o den) (big : F → Bool) (p : Prim) (hp : p ≠ .latLeq)
    (size : Nat) (inps : List (DR F)) (ρ : Env) (w : List Bool) (hin : AdmitsW (inps.map (DR.at den ρ)) w)
    (hlen : p.inputs size ≤ inps.length) (hwf : p.WF size) (hs : p.SizeOK size) :
    ∃ outs, p.eval (limited big o) size inps = some outs ∧
      ∀ v, List.Forall₂ Possible (wordOp p size w) v → AdmitsW (outs.map (DR.at den ρ)) v :=
  sound_of_rel (limited big o) den ρ (rel_limited o den h big ρ) p hp size inps w hin hlen hwf hs

/-- C38 fails for the lattice comparison: weakening an input turns a definite "no" into a definite "yes". -/
theorem c38_latleq_violated :
    WeakerW [⟨true, false⟩, ⟨true, true⟩] [⟨true, false⟩, ⟨false, true⟩] ∧
    Prim.latLeq.eval boolOps 1 [⟨true, false⟩, ⟨true, true⟩] = some [⟨true, false⟩] ∧
    Prim.latLeq.eval boolOps 1 [⟨true, false⟩, ⟨false, true⟩] = some [⟨false, true⟩] := by
  refine ⟨.cons (fun b h => h) (.cons ?_ .nil), by decide, by decide⟩
  intro b; cases b <;> simp [Admits]

end Voss.Sim
