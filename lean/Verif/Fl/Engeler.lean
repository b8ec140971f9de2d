import Verif.Fl.Spec
/-
The graph model of the lambda calculus with pairs, integers, strings and Booleans: a non-trivial
combinatory algebra in which all laws of `Spec` hold.  It shows that the theorems about the compiler
are not vacuous, and it is the model in which the refutations are stated.
-/
namespace Voss.Fl.Engeler

/-- Tokens: finite pieces of information about a value. -/
inductive Tok where
  | int (n : Int) | str (s : Name) | bool (b : Bool) | nil | pair | pf | prim (n : Nat)
  | l (t : Tok) | r (t : Tok)
  | arr (as : List Tok) (t : Tok)

/-- Values are sets of tokens. -/
abbrev D := Tok → Prop

/-- The set of the tokens of a list. -/
def fin (as : List Tok) : D := fun t => t ∈ as

def app (f x : D) : D := fun t => ∃ as : List Tok, (∀ u ∈ as, x u) ∧ f (.arr as t)

def lam (f : D → D) : D
  | .arr as t => f (fin as) t
  | _ => False

/-- Continuity. -/
def Cont (f : D → D) : Prop := ∀ x t, f x t ↔ ∃ as : List Tok, (∀ u ∈ as, x u) ∧ f (fin as) t

theorem Cont.mono {f : D → D} (h : Cont f) {x y : D} (hxy : ∀ t, x t → y t) {t : Tok} (ht : f x t) : f y t := by
  obtain ⟨as, h1, h2⟩ := (h x t).mp ht
  exact (h y t).mpr ⟨as, fun u hu => hxy u (h1 u hu), h2⟩

theorem cont_iff {f : D → D} : Cont f ↔ (∀ x y t, (∀ u, x u → y u) → f x t → f y t) ∧
    ∀ x t, f x t → ∃ as : List Tok, (∀ u ∈ as, x u) ∧ f (fin as) t := by
  constructor
  · intro h
    exact ⟨fun x y t hxy ht => h.mono hxy ht, fun x t => (h x t).mp⟩
  · intro ⟨h1, h2⟩ x t
    exact ⟨h2 x t, fun ⟨as, ha, ht⟩ => h1 _ _ _ ha ht⟩

theorem cont_id : Cont fun x => x :=
  fun x t => ⟨fun h => ⟨[t], by simpa using h, by simp [fin]⟩, fun ⟨_, ha, ht⟩ => ha t ht⟩

theorem cont_const (d : D) : Cont fun _ => d :=
  fun _ _ => ⟨fun h => ⟨[], by simp, h⟩, fun ⟨_, _, h⟩ => h⟩

/-- Finitely many facts about continuous functions of `x` follow from one finite part of `x`. -/
theorem Cont.all {f : D → D} (h : Cont f) {x : D} : ∀ us : List Tok, (∀ u ∈ us, f x u) →
    ∃ as : List Tok, (∀ u ∈ as, x u) ∧ ∀ u ∈ us, f (fin as) u
  | [], _ => ⟨[], by simp, by simp⟩
  | u :: us, hu => by
    obtain ⟨a, h1, h2⟩ := (h x u).mp (hu u (by simp))
    obtain ⟨b, h3, h4⟩ := h.all us (fun v hv => hu v (by simp [hv]))
    refine ⟨a ++ b, ?_, ?_⟩
    · intro v hv
      rcases List.mem_append.mp hv with hv | hv
      · exact h1 v hv
      · exact h3 v hv
    · intro v hv
      rcases List.mem_cons.mp hv with hv | hv
      · subst hv; exact h.mono (fun t ht => List.mem_append_left _ ht) h2
      · exact h.mono (fun t ht => List.mem_append_right _ ht) (h4 v hv)

/-- Two facts from one finite part. -/
theorem Cont.both {f g : D → D} (hf : Cont f) (hg : Cont g) {x : D} {us : List Tok} {t : Tok}
    (h1 : ∀ u ∈ us, f x u) (h2 : g x t) :
    ∃ as : List Tok, (∀ u ∈ as, x u) ∧ (∀ u ∈ us, f (fin as) u) ∧ g (fin as) t := by
  obtain ⟨a, a1, a2⟩ := hf.all us h1
  obtain ⟨b, b1, b2⟩ := (hg x t).mp h2
  refine ⟨a ++ b, ?_, ?_, ?_⟩
  · intro v hv
    rcases List.mem_append.mp hv with hv | hv
    · exact a1 v hv
    · exact b1 v hv
  · intro v hv; exact hf.mono (fun t ht => List.mem_append_left _ ht) (a2 v hv)
  · exact hg.mono (fun t ht => List.mem_append_right _ ht) b2

theorem cont_app {f g : D → D} (hf : Cont f) (hg : Cont g) : Cont fun x => app (f x) (g x) := by
  rw [cont_iff]
  constructor
  · intro x y t hxy ⟨us, h1, h2⟩
    exact ⟨us, fun u hu => hg.mono hxy (h1 u hu), hf.mono hxy h2⟩
  · intro x t ⟨us, h1, h2⟩
    obtain ⟨as, a1, a2, a3⟩ := hg.both hf h1 h2
    exact ⟨as, a1, us, a2, a3⟩

theorem cont_lam {f : D → D → D} (hf : ∀ y, Cont fun x => f x y) : Cont fun x => lam (f x) := by
  rw [cont_iff]
  constructor
  · intro x y t hxy ht
    cases t <;> try exact ht
    exact (hf _).mono hxy ht
  · intro x t ht
    cases t <;> try exact ht.elim
    exact (hf _ x _).mp ht

/-- Values from single tokens of one argument. -/
def op1 (R : Tok → Tok → Prop) (x : D) : D := fun t => ∃ u, x u ∧ R u t

/-- Values from single tokens of two arguments. -/
def op2 (R : Tok → Tok → Tok → Prop) (x y : D) : D := fun t => ∃ u v, x u ∧ y v ∧ R u v t

def union (x y : D) : D := fun t => x t ∨ y t

theorem cont_op1 (R : Tok → Tok → Prop) {f : D → D} (hf : Cont f) : Cont fun x => op1 R (f x) := by
  rw [cont_iff]
  constructor
  · intro x y t hxy ⟨u, h1, h2⟩
    exact ⟨u, hf.mono hxy h1, h2⟩
  · intro x t ⟨u, h1, h2⟩
    obtain ⟨as, a1, a2⟩ := (hf x u).mp h1
    exact ⟨as, a1, u, a2, h2⟩

theorem cont_op2 (R : Tok → Tok → Tok → Prop) {f g : D → D} (hf : Cont f) (hg : Cont g) :
    Cont fun x => op2 R (f x) (g x) := by
  rw [cont_iff]
  constructor
  · intro x y t hxy ⟨u, v, h1, h2, h3⟩
    exact ⟨u, v, hf.mono hxy h1, hg.mono hxy h2, h3⟩
  · intro x t ⟨u, v, h1, h2, h3⟩
    obtain ⟨as, a1, a2, a3⟩ := hf.both hg (us := [u]) (by simpa using h1) h2
    exact ⟨as, a1, u, v, a2 u (by simp), a3, h3⟩

theorem cont_union {f g : D → D} (hf : Cont f) (hg : Cont g) : Cont fun x => union (f x) (g x) := by
  rw [cont_iff]
  constructor
  · intro x y t hxy h
    rcases h with h | h
    · exact .inl (hf.mono hxy h)
    · exact .inr (hg.mono hxy h)
  · intro x t h
    rcases h with h | h
    · obtain ⟨as, a1, a2⟩ := (hf x t).mp h; exact ⟨as, a1, .inl a2⟩
    · obtain ⟨as, a1, a2⟩ := (hg x t).mp h; exact ⟨as, a1, .inr a2⟩

theorem beta {f : D → D} (hf : Cont f) (x : D) : app (lam f) x = f x := by
  funext t
  exact propext ((hf x t).symm)

/-- Continuity of everything built from variables, application, abstraction and the operations above. -/
macro "cont" : tactic => `(tactic| repeat' first
  | exact cont_id
  | exact cont_const _
  | refine cont_app ?_ ?_
  | (refine cont_lam fun _ => ?_)
  | refine cont_op1 _ ?_
  | refine cont_op2 _ ?_ ?_
  | refine cont_union ?_ ?_)

/-! ### The operations -/


def one (u : Tok) : D := fun t => t = u

def pair (x y : D) : D := union (one .pair) (union (op1 (fun u t => t = .l u) x) (op1 (fun u t => t = .r u) y))

/-- `x` if there is a token `u` in `c`. -/
def when (u : Tok) (c x : D) : D := op2 (fun v w t => v = u ∧ w = t) c x

def cond (c x y : D) : D := union (when (.bool true) c x) (when (.bool false) c y)

def pcatch (x y : D) : D := union (op1 (fun u t => u = t ∧ u ≠ .pf) x) (when .pf x y)

def equalT : Tok → Tok → Tok → Prop
  | .int m, .int n, t => t = .bool (decide (m = n))
  | .bool m, .bool n, t => t = .bool (m == n)
  | _, _, _ => False

def constrEqT : Tok → Tok → Tok → Prop
  | .str m, .str n, t => t = .bool (decide (m = n))
  | .pair, .str _, t => t = .bool false
  | _, _, _ => False

def identicalT : Tok → Tok → Tok → Prop
  | .bool m, .bool n, t => t = .bool (m == n)
  | _, _, _ => False

def emptyT : Tok → Tok → Prop
  | .nil, t => t = .bool true
  | .pair, t => t = .bool false
  | _, _ => False

def isConsT : Tok → Tok → Prop
  | .nil, t => t = .bool false
  | .pair, t => t = .bool true
  | _, _ => False

def isTupleT : Tok → Tok → Prop
  | .str _, t => t = .bool false
  | .pair, t => t = .bool true
  | _, _ => False

def headT : Tok → Tok → Prop
  | .l u, t => t = u
  | _, _ => False

def tailT : Tok → Tok → Prop
  | .r u, t => t = u
  | _, _ => False

/-- Two sample primitives: addition (0) and conjunction (1). -/
def plusT : Tok → Tok → Tok → Prop
  | .int m, .int n, t => t = .int (m + n)
  | _, _, _ => False

def andT : Tok → Tok → Tok → Prop
  | .bool m, .bool n, t => t = .bool (m && n)
  | _, _, _ => False

def con : Con → D
  | .S => lam fun f => lam fun g => lam fun x => app (app f x) (app g x)
  | .S' => lam fun m => lam fun n => lam fun o => lam fun p => app (app m (app n p)) (app o p)
  | .K => lam fun x => lam fun _ => x
  | .I => lam fun x => x
  | .C => lam fun f => lam fun x => lam fun y => app (app f y) x
  | .C' => lam fun m => lam fun n => lam fun o => lam fun p => app (app m (app n p)) o
  | .B => lam fun f => lam fun g => lam fun x => app f (app g x)
  | .Bstar => lam fun c => lam fun f => lam fun g => lam fun x => app c (app f (app g x))
  | .B' => lam fun c => lam fun f => lam fun g => lam fun x => app (app c f) (app g x)
  | .Y => lam fun f => app (lam fun x => app f (app x x)) (lam fun x => app f (app x x))
  | .cond => lam fun c => lam fun x => lam fun y => cond c x y
  | .pfail => one .pf
  | .pcatch => lam fun x => lam fun y => pcatch x y
  | .error => lam fun _ _ => False
  | .namedArg => lam fun x => lam fun _ => lam fun _ => x
  | .seq => lam fun _ => lam fun y => y
  | .equal => lam fun x => lam fun y => op2 equalT x y
  | .constrEq => lam fun x => lam fun y => op2 constrEqT x y
  | .identical => lam fun x => lam fun y => op2 identicalT x y
  | .empty => lam fun x => op1 emptyT x
  | .isCons => lam fun x => op1 isConsT x
  | .isTuple => lam fun x => op1 isTupleT x
  | .head => lam fun x => op1 headT x
  | .tail => lam fun x => op1 tailT x
  | .fst => lam fun x => op1 headT x
  | .snd => lam fun x => op1 tailT x
  | .cons => lam fun x => lam fun y => pair x y
  | .tuple => lam fun x => lam fun y => pair x y
  | .nil => one .nil
  | .int n => one (.int n)
  | .str s => one (.str s)
  | .tt => one (.bool true)
  | .ff => one (.bool false)
  | .prim 0 => lam fun x => lam fun y => op2 plusT x y
  | .prim 1 => lam fun x => lam fun y => op2 andT x y
  | .prim n => one (.prim n)

/-- The algebra. -/
def alg : Alg D where
  app := app
  con := con
  law_S f g x := by
    simp only [con]
    rw [beta, beta, beta] <;> cont
  law_S' m n o p := by
    simp only [con]
    rw [beta, beta, beta, beta] <;> cont
  law_K x y := by
    simp only [con]
    rw [beta, beta] <;> cont
  law_I x := by
    simp only [con]
    rw [beta]; cont
  law_C f x y := by
    simp only [con]
    rw [beta, beta, beta] <;> cont
  law_C' m n o p := by
    simp only [con]
    rw [beta, beta, beta, beta] <;> cont
  law_B f g x := by
    simp only [con]
    rw [beta, beta, beta] <;> cont
  law_Bstar c f g x := by
    simp only [con]
    rw [beta, beta, beta, beta] <;> cont
  law_B' c f g x := by
    simp only [con]
    rw [beta, beta, beta, beta] <;> cont
  law_Y f := by
    have h : app (con .Y) f = app (lam fun x => app f (app x x)) (lam fun x => app f (app x x)) := by
      simp only [con]
      rw [beta]; cont
    show app (con .Y) f = app f (app (con .Y) f)
    rw [h]
    have h2 : app (lam fun x => app f (app x x)) (lam fun x => app f (app x x)) =
        app f (app (lam fun x => app f (app x x)) (lam fun x => app f (app x x))) := by
      generalize hw : (lam fun x => app f (app x x)) = w
      have : app (lam fun x => app f (app x x)) w = app f (app w w) := by rw [beta]; cont
      rw [hw] at this
      exact this
    exact h2

theorem bool_eq (b : Bool) : alg.bool b = one (.bool b) := by cases b <;> rfl

theorem app_cons (x y : D) : app (app (con .cons) x) y = pair x y := by
  simp only [con]
  unfold pair
  rw [beta, beta] <;> cont

theorem op1_one (R : Tok → Tok → Prop) (a b : Tok) (h : ∀ t, R a t ↔ t = b) : op1 R (one a) = one b := by
  funext t
  refine propext ⟨?_, fun ht => ⟨a, rfl, (h t).mpr ht⟩⟩
  rintro ⟨u, rfl, h2⟩
  exact (h t).mp h2

theorem op2_one (R : Tok → Tok → Tok → Prop) (a a' b : Tok) (h : ∀ t, R a a' t ↔ t = b) :
    op2 R (one a) (one a') = one b := by
  funext t
  refine propext ⟨?_, fun ht => ⟨a, a', rfl, rfl, (h t).mpr ht⟩⟩
  rintro ⟨u, v, rfl, rfl, h2⟩
  exact (h t).mp h2

theorem op1_pair (R : Tok → Tok → Prop) (x y : D) (b : Tok) (h : ∀ t, R .pair t ↔ t = b)
    (hl : ∀ u t, ¬ R (.l u) t) (hr : ∀ u t, ¬ R (.r u) t) : op1 R (pair x y) = one b := by
  funext t
  refine propext ⟨?_, fun ht => ⟨.pair, .inl rfl, (h t).mpr ht⟩⟩
  rintro ⟨u, h1, h2⟩
  rcases h1 with h1 | ⟨v, _, h1⟩ | ⟨v, _, h1⟩ <;> subst h1
  · exact (h t).mp h2
  · exact (hl _ _ h2).elim
  · exact (hr _ _ h2).elim

theorem op1_head (x y : D) : op1 headT (pair x y) = x := by
  funext t
  refine propext ⟨?_, fun ht => ⟨.l t, .inr (.inl ⟨t, ht, rfl⟩), rfl⟩⟩
  rintro ⟨u, h1, h2⟩
  rcases h1 with h1 | ⟨v, hv, h1⟩ | ⟨v, _, h1⟩ <;> subst h1
  · exact h2.elim
  · cases h2; exact hv
  · exact h2.elim

theorem op1_tail (x y : D) : op1 tailT (pair x y) = y := by
  funext t
  refine propext ⟨?_, fun ht => ⟨.r t, .inr (.inr ⟨t, ht, rfl⟩), rfl⟩⟩
  rintro ⟨u, h1, h2⟩
  rcases h1 with h1 | ⟨v, _, h1⟩ | ⟨v, hv, h1⟩ <;> subst h1
  · exact h2.elim
  · exact h2.elim
  · cases h2; exact hv

theorem when_same (u : Tok) (x : D) : when u (one u) x = x := by
  funext t
  refine propext ⟨?_, fun ht => ⟨u, t, rfl, ht, rfl, rfl⟩⟩
  rintro ⟨_, _, _, h, _, rfl⟩
  exact h

theorem when_other {u v : Tok} (x : D) (h : u ≠ v) : when u (one v) x = fun _ => False := by
  funext t
  refine propext ⟨?_, False.elim⟩
  rintro ⟨_, _, h1, _, h2, _⟩
  exact h (h2.symm.trans h1)

theorem union_empty (x : D) : union x (fun _ => False) = x := by
  funext t; simp [union]

theorem empty_union (x : D) : union (fun _ => False) x = x := by
  funext t; simp [union]

/-- The laws of the primitives hold. -/
def data : Data alg where
  proper x := ¬ x .pf
  cond_bool b x y := by
    rw [bool_eq]
    show app (app (app (con .cond) _) x) y = _
    simp only [con]
    unfold cond when
    rw [beta, beta, beta] <;> try cont
    show union (when (.bool true) (one (.bool b)) x) (when (.bool false) (one (.bool b)) y) = _
    cases b
    · rw [when_other _ (by simp), when_same, empty_union]; rfl
    · rw [when_same, when_other _ (by simp), union_empty]; rfl
  equal_int m n := by
    rw [bool_eq]
    show app (app (con .equal) (con (.int m))) (con (.int n)) = _
    simp only [con]
    rw [beta, beta, op2_one] <;> try cont
    exact fun t => Iff.rfl
  constrEq_str m n := by
    rw [bool_eq]
    show app (app (con .constrEq) (con (.str m))) (con (.str n)) = _
    simp only [con]
    rw [beta, beta, op2_one] <;> try cont
    exact fun t => Iff.rfl
  constrEq_pair x y s := by
    rw [bool_eq]
    show app (app (con .constrEq) (app (app (con .cons) x) y)) (con (.str s)) = _
    rw [app_cons]
    simp only [con]
    rw [beta, beta] <;> try cont
    funext t
    refine propext ⟨?_, fun ht => ⟨.pair, .str s, .inl rfl, rfl, ht⟩⟩
    rintro ⟨u, v, h1, rfl, h2⟩
    rcases h1 with h1 | ⟨v, _, h1⟩ | ⟨v, _, h1⟩ <;> subst h1
    · exact h2
    · exact h2.elim
    · exact h2.elim
  identical_bool m n := by
    rw [bool_eq, bool_eq, bool_eq]
    show app (app (con .identical) _) _ = _
    simp only [con]
    rw [beta, beta, op2_one] <;> try cont
    exact fun t => Iff.rfl
  tuple_cons x y := rfl
  empty_nil := by
    rw [bool_eq]
    show app (con .empty) (con .nil) = _
    simp only [con]
    rw [beta, op1_one] <;> try cont
    exact fun t => Iff.rfl
  empty_cons x y := by
    rw [bool_eq]
    show app (con .empty) (app (app (con .cons) x) y) = _
    rw [app_cons]
    simp only [con]
    rw [beta, op1_pair] <;> first | cont | skip
    all_goals first | exact fun t => Iff.rfl | exact fun u t h => h
  isCons_nil := by
    rw [bool_eq]
    show app (con .isCons) (con .nil) = _
    simp only [con]
    rw [beta, op1_one] <;> try cont
    exact fun t => Iff.rfl
  isCons_cons x y := by
    rw [bool_eq]
    show app (con .isCons) (app (app (con .cons) x) y) = _
    rw [app_cons]
    simp only [con]
    rw [beta, op1_pair] <;> first | cont | skip
    all_goals first | exact fun t => Iff.rfl | exact fun u t h => h
  isTuple_str s := by
    rw [bool_eq]
    show app (con .isTuple) (con (.str s)) = _
    simp only [con]
    rw [beta, op1_one] <;> try cont
    exact fun t => Iff.rfl
  isTuple_cons x y := by
    rw [bool_eq]
    show app (con .isTuple) (app (app (con .cons) x) y) = _
    rw [app_cons]
    simp only [con]
    rw [beta, op1_pair] <;> first | cont | skip
    all_goals first | exact fun t => Iff.rfl | exact fun u t h => h
  head_cons x y := by
    show app (con .head) (app (app (con .cons) x) y) = _
    rw [app_cons]
    simp only [con]
    rw [beta, op1_head]; cont
  tail_cons x y := by
    show app (con .tail) (app (app (con .cons) x) y) = _
    rw [app_cons]
    simp only [con]
    rw [beta, op1_tail]; cont
  fst_cons x y := by
    show app (con .fst) (app (app (con .cons) x) y) = _
    rw [app_cons]
    simp only [con]
    rw [beta, op1_head]; cont
  snd_cons x y := by
    show app (con .snd) (app (app (con .cons) x) y) = _
    rw [app_cons]
    simp only [con]
    rw [beta, op1_tail]; cont
  pcatch_pfail y := by
    show app (app (con .pcatch) (con .pfail)) y = _
    simp only [con]
    unfold pcatch when
    rw [beta, beta] <;> try cont
    show union _ (when .pf (one .pf) y) = y
    rw [when_same]
    funext t
    refine propext ⟨?_, .inr⟩
    rintro (⟨u, h1, _, h2⟩ | h)
    · exact (h2 h1).elim
    · exact h
  pcatch_proper x y hx := by
    show app (app (con .pcatch) x) y = _
    simp only [con]
    unfold pcatch when
    rw [beta, beta] <;> try cont
    funext t
    refine propext ⟨?_, fun ht => .inl ⟨t, ht, rfl, fun h => hx (h ▸ ht)⟩⟩
    rintro (⟨u, h1, h2, _⟩ | ⟨u, v, h1, _, h2, _⟩)
    · exact h2 ▸ h1
    · exact (hx (h2 ▸ h1)).elim
  namedArg x y z := by
    show app (app (app (con .namedArg) x) y) z = _
    simp only [con]
    rw [beta, beta, beta] <;> cont
  seq x y := by
    show app (app (con .seq) x) y = _
    simp only [con]
    rw [beta, beta] <;> cont
  proper_int n := by intro h; cases h
  proper_str n := by intro h; cases h
  proper_bool b := by rw [bool_eq]; intro h; cases h
  proper_nil := by intro h; cases h
  proper_cons x y := by
    show ¬ (app (app (con .cons) x) y) .pf
    rw [app_cons]
    rintro (h | ⟨_, _, h⟩ | ⟨_, _, h⟩) <;> cases h

/-- Different constants have different values. -/
theorem int_inj {m n : Int} (h : alg.con (.int m) = alg.con (.int n)) : m = n := by
  have : one (.int n) (.int m) := by
    have h1 : one (.int m) = one (.int n) := h
    rw [← h1]; rfl
  cases this; rfl

end Voss.Fl.Engeler
