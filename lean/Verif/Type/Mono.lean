import Verif.Type.Infer
/-
Helper lemmas: more fuel gives the same result.
-/
namespace Voss.TC

def OLe {α : Type} (a b : Option α) : Prop := a = none ∨ a = b
def RLe {α : Type} (a b : Res α) : Prop := a = .out ∨ a = b

theorem OLe.refl {α : Type} (a : Option α) : OLe a a := .inr rfl
theorem RLe.refl {α : Type} (a : Res α) : RLe a a := .inr rfl

theorem OLe.bind {α β : Type} {a b : Option α} {f g : α → Option β} (h : OLe a b) (h2 : ∀ x, OLe (f x) (g x)) : OLe (a >>= f) (b >>= g) := by
  rcases h with rfl | rfl
  · exact .inl rfl
  · cases a with
    | none => exact .inl rfl
    | some x => exact h2 x

theorem RLe.bind {α β : Type} {a b : Res α} {f g : α → Res β} (h : RLe a b) (h2 : ∀ x, RLe (f x) (g x)) : RLe (a >>= f) (b >>= g) := by
  rcases h with rfl | rfl
  · exact .inl rfl
  · cases a with
    | ok x => exact h2 x
    | fail => exact .inr rfl
    | ub => exact .inr rfl
    | out => exact .inl rfl

theorem OLe.ofOption {α : Type} {a b : Option α} (h : OLe a b) : RLe (Res.ofOption a) (Res.ofOption b) := by
  rcases h with rfl | rfl
  · exact .inl rfl
  · exact .inr rfl

theorem resolve_mono (b : Nat → Option Ty) : ∀ {n m : Nat} (t : Ty), n ≤ m → OLe (resolve b n t) (resolve b m t)
  | 0, _, _, _ => .inl rfl
  | n + 1, 0, _, h => absurd h (by omega)
  | n + 1, m + 1, .con o ts, _ => .inr rfl
  | n + 1, m + 1, .var v, h => by
    simp only [resolve]
    cases b v with
    | none => exact .inr rfl
    | some t => exact resolve_mono b t (by omega)

theorem occurs_mono (b : Nat → Option Ty) (v : Nat) : ∀ (n : Nat) {m : Nat}, n ≤ m →
    (∀ t, OLe (occurs b v n t) (occurs b v m t)) ∧ ∀ ts, OLe (occursIn b v n ts) (occursIn b v m ts) := by
  intro n
  induction n with
  | zero => exact fun _ => ⟨fun _ => .inl rfl, fun _ => .inl rfl⟩
  | succ n ih =>
    intro m h
    obtain ⟨m, rfl⟩ : ∃ k, m = k + 1 := ⟨m - 1, by omega⟩
    obtain ⟨i1, i2⟩ := ih (m := m) (by omega)
    constructor
    · intro t
      simp only [occurs]
      refine OLe.bind (resolve_mono b t (by omega)) fun x => ?_
      cases x with
      | var w => exact .inr rfl
      | con o ts => exact i2 ts
    · intro ts
      cases ts with
      | nil => exact .inr rfl
      | cons t ts =>
        simp only [occursIn]
        refine OLe.bind (i1 t) fun x => ?_
        cases x
        · exact i2 ts
        · exact .inr rfl

theorem unify_mono : ∀ (n : Nat) {m : Nat}, n ≤ m →
    (∀ s t1 t2, RLe (unify n s t1 t2) (unify m s t1 t2)) ∧ ∀ s ts1 ts2, RLe (unifyAll n s ts1 ts2) (unifyAll m s ts1 ts2) := by
  intro n
  induction n with
  | zero => exact fun _ => ⟨fun _ _ _ => .inl rfl, fun _ _ _ => .inl rfl⟩
  | succ n ih =>
    intro m h
    obtain ⟨m, rfl⟩ : ∃ k, m = k + 1 := ⟨m - 1, by omega⟩
    have hm : n ≤ m := by omega
    obtain ⟨i1, i2⟩ := ih hm
    constructor
    · intro s t1 t2
      rw [unify_succ, unify_succ]
      refine RLe.bind (resolve_mono _ t1 hm).ofOption fun r1 => ?_
      refine RLe.bind (resolve_mono _ t2 hm).ofOption fun r2 => ?_
      cases r1 with
      | var v =>
        simp only [uBody]
        exact RLe.bind ((occurs_mono _ v n hm).1 r2).ofOption fun x => .inr rfl
      | con o ts =>
        cases r2 with
        | var v => exact i1 s _ _
        | con o' ts' =>
          simp only [uBody]
          split
          · exact .inr rfl
          · exact i2 s _ _
    · intro s ts1 ts2
      cases ts1 with
      | nil => exact .inr rfl
      | cons t ts =>
        cases ts2 with
        | nil => exact .inr rfl
        | cons t' ts' =>
          simp only [unifyAll]
          refine RLe.bind (i1 s t t') fun x => ?_
          obtain ⟨b, s'⟩ := x
          cases b
          · exact .inr rfl
          · exact i2 s' ts ts'

theorem copy_mono (b : Nat → Option Ty) : ∀ (n : Nat) {m : Nat}, n ≤ m →
    (∀ memo k t, OLe (copy b n memo k t) (copy b m memo k t)) ∧ ∀ memo k ts, OLe (copyAll b n memo k ts) (copyAll b m memo k ts) := by
  intro n
  induction n with
  | zero => exact fun _ => ⟨fun _ _ _ => .inl rfl, fun _ _ _ => .inl rfl⟩
  | succ n ih =>
    intro m h
    obtain ⟨m, rfl⟩ : ∃ k, m = k + 1 := ⟨m - 1, by omega⟩
    have hm : n ≤ m := by omega
    obtain ⟨i1, i2⟩ := ih hm
    constructor
    · intro memo k t
      simp only [copy]
      refine OLe.bind (resolve_mono b t hm) fun x => ?_
      cases x with
      | var w => exact .inr rfl
      | con o ts => exact OLe.bind (i2 memo k ts) fun x => .inr rfl
    · intro memo k ts
      cases ts with
      | nil => exact .inr rfl
      | cons t ts =>
        simp only [copyAll]
        refine OLe.bind (i1 memo k t) fun x => ?_
        exact OLe.bind (i2 _ _ ts) fun x => .inr rfl

theorem inst_mono {n m : Nat} (h : n ≤ m) (s : St) (t : Ty) : RLe (inst n s t) (inst m s t) := by
  simp only [inst]
  exact RLe.bind ((copy_mono s.bind n h).1 _ _ t).ofOption fun x => .inr rfl

theorem unify!_mono {n m : Nat} (h : n ≤ m) (s : St) (t1 t2 : Ty) : RLe (unify! n s t1 t2) (unify! m s t1 t2) := by
  simp only [unify!]
  exact RLe.bind ((unify_mono n h).1 s t1 t2) fun x => .inr rfl

theorem mkArrow_mono {n m : Nat} (h : n ≤ m) (s : St) (a b : Ty) : RLe (mkArrow n s a b) (mkArrow m s a b) := by
  simp only [mkArrow]
  exact RLe.bind (resolve_mono _ b h).ofOption fun x => RLe.bind (resolve_mono _ a h).ofOption fun y => .inr rfl

theorem mkList_mono {n m : Nat} (h : n ≤ m) (s : St) (a : Ty) : RLe (mkList n s a) (mkList m s a) := by
  simp only [mkList]
  exact RLe.bind (resolve_mono _ a h).ofOption fun y => .inr rfl

theorem appTail_mono {n m : Nat} (h : n ≤ m) (s : St) (f a : Ty) : RLe (appTail n s f a) (appTail m s f a) := by
  simp only [appTail]
  refine RLe.bind (RLe.refl _) fun x => RLe.bind (unify!_mono h s a x.1) fun s' => ?_
  exact RLe.bind (resolve_mono _ x.2 h).ofOption fun y => .inr rfl

theorem inferApp_mono {n m : Nat} (h : n ≤ m) (s : St) (tf ta : Ty) : RLe (inferApp n s tf ta) (inferApp m s tf ta) := by
  simp only [inferApp]
  refine RLe.bind (resolve_mono _ tf h).ofOption fun rf => RLe.bind (resolve_mono _ ta h).ofOption fun ra => ?_
  cases rf with
  | con o ts => exact appTail_mono h s _ _
  | var v =>
    refine RLe.bind (mkArrow_mono h _ _ _) fun x => RLe.bind (unify!_mono h _ _ _) fun s' => ?_
    refine RLe.bind (resolve_mono _ (.var v) h).ofOption fun y => ?_
    exact appTail_mono h s' y ra

theorem infer_mono {n m : Nat} (h : n ≤ m) : ∀ (e : Tm) s env, RLe (infer n s env e) (infer m s env e)
  | .var _, _, _ => .inr rfl
  | .lit _, _, _ => .inr rfl
  | .const t, s, _ => inst_mono h s t
  | .ov v t, s, env => by
    simp only [infer]
    exact RLe.bind (inst_mono h s t) fun _ => .inr rfl
  | .app f a, s, env => by
    simp only [infer]
    exact RLe.bind (infer_mono h f s env) fun x => RLe.bind (infer_mono h a _ env) fun y => inferApp_mono h _ _ _
  | .nil, s, env => by
    simp only [infer]
    exact RLe.bind (mkList_mono h _ _) fun _ => .inr rfl
  | .cons a b, s, env => by
    simp only [infer]
    refine RLe.bind (infer_mono h a s env) fun x => RLe.bind (infer_mono h b _ env) fun y => ?_
    refine RLe.bind (mkList_mono h _ _) fun z => RLe.bind (unify!_mono h _ _ _) fun s' => ?_
    exact RLe.bind (resolve_mono _ _ h).ofOption fun _ => .inr rfl
  | .lam x b, s, env => by
    simp only [infer]
    refine RLe.bind (infer_mono h b _ _) fun x => ?_
    exact RLe.bind (mkArrow_mono h _ _ _) fun _ => .inr rfl
  | .hint e t, s, env => by
    simp only [infer]
    refine RLe.bind (infer_mono h e s env) fun x => RLe.bind (unify!_mono h _ _ _) fun s' => ?_
    exact RLe.bind (resolve_mono _ _ h).ofOption fun _ => .inr rfl

theorem typeCheck_mono {n m : Nat} (h : n ≤ m) (s : St) (e : Tm) : RLe (typeCheck n s e) (typeCheck m s e) := by
  simp only [typeCheck]
  exact RLe.bind (infer_mono h e _ _) fun x => RLe.bind (inst_mono h _ _) fun _ => .inr rfl

/-- A result obtained with some fuel is the final one. -/
theorem Ev.det {α : Type} {f : Nat → Res α} {a : Res α} (h : Ev f a) (hm : ∀ {n m}, n ≤ m → RLe (f n) (f m)) {n : Nat} (hn : f n ≠ .out) : f n = a := by
  obtain ⟨n0, h0⟩ := h
  rcases hm (Nat.le_max_left n n0) with e | e
  · exact absurd e hn
  · rw [e, h0 _ (Nat.le_max_right _ _)]

end Voss.TC
