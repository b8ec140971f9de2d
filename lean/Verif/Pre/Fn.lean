import Mathlib.Data.List.Basic
import Mathlib.Tactic.Common
import Verif.Bv.Model
/-
Boolean functions as the standard library of fl (src/bin/fl/preamble.fl) sees them.

The library never looks inside the BDD package (new_bdd.c); it uses variables, the connectives, conditional
expressions, substitution, quantification, `depends`, `top_cofactor` and `==`.  That these primitives compute
what the definitions below say is the subject of C14-C19 and C54.  Here a Boolean function is its reduced
ordered decision tree: by C14 this is exactly what a handle of the package stands for (the package stores the
tree as a directed graph with inverted edges, which the library cannot observe).  Variables are named and
ordered by `Order`; an order gives every name the place that it has or will get when it is first used.
Reordering of variables while a library function runs is not modelled (`param` switches it off).
-/
namespace Voss.Pre

/-- An assignment of values to names. -/
abbrev Env := String → Bool

def Env.set (η : Env) (v : String) (b : Bool) : Env := fun n => if n = v then b else η n

/-- new_bdd.c:48-75: the variable table; `pos` is the position of a variable in the ordering. -/
structure Order where
  pos : String → Nat
  inj : ∀ a b, pos a = pos b → a = b

/-- Decision trees; the first branch is taken when the variable is true. -/
inductive Dd where
  | leaf (b : Bool)
  | node (v : String) (hi lo : Dd)
  deriving DecidableEq

namespace Dd

def ev : Dd → Env → Bool
  | leaf b, _ => b
  | node v h l, η => if η v then h.ev η else l.ev η

/-- Ordered and reduced, and every variable at position `k` or later. -/
def Ok (o : Order) (k : Nat) : Dd → Prop
  | leaf _ => True
  | node v h l => k ≤ o.pos v ∧ h ≠ l ∧ h.Ok o (o.pos v + 1) ∧ l.Ok o (o.pos v + 1)

theorem Ok.mono {o : Order} {k j : Nat} (h : j ≤ k) {d : Dd} (hd : d.Ok o k) : d.Ok o j := by
  cases d with
  | leaf b => trivial
  | node v a b => exact ⟨le_trans h hd.1, hd.2.1, hd.2.2⟩

theorem ev_congr {o : Order} {d : Dd} {k : Nat} (hd : d.Ok o k) {η ζ : Env}
    (h : ∀ n, k ≤ o.pos n → η n = ζ n) : d.ev η = d.ev ζ := by
  induction d generalizing k with
  | leaf b => rfl
  | node v a b iha ihb =>
    obtain ⟨h1, _, ha, hb⟩ := hd
    simp only [ev, h v h1]
    rw [iha ha fun n hn => h n (by omega), ihb hb fun n hn => h n (by omega)]

theorem ev_set {o : Order} {d : Dd} {v : String} (hd : d.Ok o (o.pos v + 1)) (η : Env) (b : Bool) :
    d.ev (η.set v b) = d.ev η := by
  refine ev_congr hd fun n hn => ?_
  unfold Env.set
  rw [if_neg (by rintro rfl; omega)]

/-- Canonicity: a function has one reduced ordered tree. -/
theorem canon {o : Order} : ∀ {d e : Dd} {k : Nat}, d.Ok o k → e.Ok o k → (∀ η, d.ev η = e.ev η) → d = e
  | leaf a, leaf b, _, _, _, h => by have := h fun _ => false; simp only [ev] at this; rw [this]
  | leaf a, node v x y, k, _, he, h => by
    exfalso
    refine he.2.1 (canon he.2.2.1 he.2.2.2 fun η => ?_)
    have h1 := h (η.set v true)
    have h2 := h (η.set v false)
    have e1 := ev_set he.2.2.1 η true
    have e2 := ev_set he.2.2.2 η false
    rw [← e1, ← e2]
    simp only [ev, Env.set, if_true, Bool.false_eq_true, if_false] at h1 h2 ⊢
    exact h1.symm.trans h2
  | node v x y, leaf a, k, he, _, h => by
    exfalso
    refine he.2.1 (canon he.2.2.1 he.2.2.2 fun η => ?_)
    have h1 := h (η.set v true)
    have h2 := h (η.set v false)
    have e1 := ev_set he.2.2.1 η true
    have e2 := ev_set he.2.2.2 η false
    rw [← e1, ← e2]
    simp only [ev, Env.set, if_true, Bool.false_eq_true, if_false] at h1 h2 ⊢
    exact h1.trans h2.symm
  | node v x y, node w x' y', k, hd, he, h => by
    rcases Nat.lt_trichotomy (o.pos v) (o.pos w) with hlt | heq | hgt
    · exfalso
      have he' : (node w x' y').Ok o (o.pos v + 1) := ⟨hlt, he.2⟩
      refine hd.2.1 (canon hd.2.2.1 hd.2.2.2 fun η => ?_)
      have h1 := h (η.set v true)
      have h2 := h (η.set v false)
      rw [ev_set he'] at h1 h2
      have e1 := ev_set hd.2.2.1 η true
      have e2 := ev_set hd.2.2.2 η false
      rw [← e1, ← e2]
      simp only [ev, Env.set, if_true, Bool.false_eq_true, if_false] at h1 h2 ⊢
      exact h1.trans h2.symm
    · have hvw : v = w := o.inj _ _ heq
      subst hvw
      have key : ∀ (b : Bool) (η : Env), (if b then x else y).ev η = (if b then x' else y').ev η := by
        intro b η
        have h1 := h (η.set v b)
        cases b
        · rw [if_neg (by simp), if_neg (by simp), ← ev_set hd.2.2.2 η false, ← ev_set he.2.2.2 η false]
          simpa only [ev, Env.set, if_true, Bool.false_eq_true, if_false] using h1
        · rw [if_pos rfl, if_pos rfl, ← ev_set hd.2.2.1 η true, ← ev_set he.2.2.1 η true]
          simpa only [ev, Env.set, if_true, Bool.false_eq_true, if_false] using h1
      have e1 : x = x' := canon hd.2.2.1 he.2.2.1 fun η => key true η
      have e2 : y = y' := canon hd.2.2.2 he.2.2.2 fun η => key false η
      rw [e1, e2]
    · exfalso
      have hd' : (node v x y).Ok o (o.pos w + 1) := ⟨hgt, hd.2⟩
      refine he.2.1 (canon he.2.2.1 he.2.2.2 fun η => ?_)
      have h1 := h (η.set w true)
      have h2 := h (η.set w false)
      rw [ev_set hd'] at h1 h2
      have e1 := ev_set he.2.2.1 η true
      have e2 := ev_set he.2.2.2 η false
      rw [← e1, ← e2]
      simp only [ev, Env.set, if_true, Bool.false_eq_true, if_false] at h1 h2 ⊢
      exact h1.symm.trans h2
termination_by d e => sizeOf d + sizeOf e

/-- A node, unless both branches are the same. -/
def mk (v : String) (h l : Dd) : Dd := if h = l then h else node v h l

theorem mk_ev (v : String) (h l : Dd) (η : Env) : (mk v h l).ev η = if η v then h.ev η else l.ev η := by
  unfold mk
  split
  · next e => subst e; simp
  · rfl

theorem mk_ok {o : Order} {v : String} {h l : Dd} {k : Nat} (hk : k ≤ o.pos v) (h1 : h.Ok o (o.pos v + 1))
    (h2 : l.Ok o (o.pos v + 1)) : (mk v h l).Ok o k := by
  unfold mk
  split
  · exact h1.mono (by omega)
  · next e => exact ⟨hk, e, h1, h2⟩

/-- The tree of the function `G` that depends on the variables `vs` only. -/
def build (G : Env → Bool) : List String → Env → Dd
  | [], η => leaf (G η)
  | v :: vs, η => mk v (build G vs (η.set v true)) (build G vs (η.set v false))

theorem build_ok {o : Order} (G : Env → Bool) : ∀ (vs : List String) (η : Env) (k : Nat),
    vs.Pairwise (fun a b => o.pos a < o.pos b) → (∀ v ∈ vs, k ≤ o.pos v) → (build G vs η).Ok o k
  | [], _, _, _, _ => trivial
  | v :: vs, η, k, hp, hk => by
    rw [List.pairwise_cons] at hp
    exact mk_ok (hk v (by simp)) (build_ok G vs _ _ hp.2 fun w hw => hp.1 w hw)
      (build_ok G vs _ _ hp.2 fun w hw => hp.1 w hw)

theorem build_ev (G : Env → Bool) : ∀ (vs : List String) (η ζ : Env),
    (build G vs η).ev ζ = G fun n => if n ∈ vs then ζ n else η n
  | [], η, ζ => by simp [build, ev]
  | v :: vs, η, ζ => by
    rw [build, mk_ev, build_ev G vs, build_ev G vs]
    have key : ∀ b, ζ v = b → (fun n => if n ∈ vs then ζ n else (η.set v b) n) =
        fun n => if n ∈ v :: vs then ζ n else η n := by
      intro b hb
      funext n
      unfold Env.set
      by_cases h1 : n ∈ vs
      · simp [h1]
      · by_cases h2 : n = v
        · subst h2; simp [h1, hb]
        · simp [h1, h2]
    cases hz : ζ v
    · rw [if_neg (by simp), key _ hz]
    · rw [if_pos rfl, key _ hz]

/-- The variables of a tree. -/
def vars : Dd → List String
  | leaf _ => []
  | node v h l => v :: (h.vars ++ l.vars)

theorem ev_vars (d : Dd) {η ζ : Env} (h : ∀ n ∈ d.vars, η n = ζ n) : d.ev η = d.ev ζ := by
  induction d with
  | leaf b => rfl
  | node v a b iha ihb =>
    simp only [vars, List.mem_cons, List.mem_append] at h
    simp only [ev]
    rw [h v (by simp), iha fun n hn => h n (by simp [hn]), ihb fun n hn => h n (by simp [hn])]

/-- Every variable of a reduced tree matters. -/
theorem vars_matter {o : Order} {d : Dd} {k : Nat} (hd : d.Ok o k) {n : String} (hn : n ∈ d.vars) :
    k ≤ o.pos n ∧ ∃ η : Env, d.ev (η.set n true) ≠ d.ev (η.set n false) := by
  induction d generalizing k with
  | leaf b => simp [vars] at hn
  | node v a b iha ihb =>
    obtain ⟨hk, hne, ha, hb⟩ := hd
    simp only [vars, List.mem_cons, List.mem_append] at hn
    have sub : ∀ (c : Bool) (e : Dd), e.Ok o (o.pos v + 1) →
        (∀ η : Env, η v = c → (node v a b).ev η = e.ev η) →
        (o.pos v + 1 ≤ o.pos n ∧ ∃ η : Env, e.ev (η.set n true) ≠ e.ev (η.set n false)) →
        k ≤ o.pos n ∧ ∃ η : Env, (node v a b).ev (η.set n true) ≠ (node v a b).ev (η.set n false) := by
      intro c e he hev ⟨h1, η, h2⟩
      refine ⟨by omega, η.set v c, ?_⟩
      have hnv : v ≠ n := by rintro rfl; omega
      have sw : ∀ x, (η.set v c).set n x = (η.set n x).set v c := by
        intro x
        funext m
        simp only [Env.set]
        split <;> split <;> simp_all
      have hv : ∀ x, ((η.set v c).set n x) v = c := by
        intro x
        simp [Env.set, hnv]
      rw [hev _ (hv _), hev _ (hv _), sw, sw, ev_set he, ev_set he]
      exact h2
    rcases hn with rfl | hn | hn
    · refine ⟨hk, ?_⟩
      by_contra hcon
      push Not at hcon
      refine hne (canon ha hb fun η => ?_)
      have := hcon η
      simp only [ev] at this
      rw [ev_set ha, ev_set hb, ev_set ha, ev_set hb] at this
      simpa [Env.set] using this
    · exact sub true a ha (fun η h => by simp [ev, h]) (iha ha hn)
    · exact sub false b hb (fun η h => by simp [ev, h]) (ihb hb hn)

end Dd

/-! ### Sorted lists of names -/

/-- Insert a name at its place in the order, unless it is there. -/
def ins (o : Order) (v : String) : List String → List String
  | [] => [v]
  | w :: l => if v = w then w :: l else if o.pos v < o.pos w then v :: w :: l else w :: ins o v l

theorem mem_ins {o : Order} {v n : String} {l : List String} : n ∈ ins o v l ↔ n = v ∨ n ∈ l := by
  induction l with
  | nil => simp [ins]
  | cons w l ih =>
    unfold ins
    split
    · next h => subst h; simp
    · split
      · simp
      · simp only [List.mem_cons, ih]; tauto

def Sorted (o : Order) (l : List String) : Prop := l.Pairwise fun a b => o.pos a < o.pos b

theorem sorted_ins {o : Order} {v : String} {l : List String} (h : Sorted o l) : Sorted o (ins o v l) := by
  induction l with
  | nil => exact List.pairwise_singleton _ _
  | cons w l ih =>
    unfold Sorted at h
    rw [List.pairwise_cons] at h
    unfold ins
    split
    · exact List.pairwise_cons.2 h
    · next hne =>
      split
      · next hlt =>
        refine List.pairwise_cons.2 ⟨fun x hx => ?_, List.pairwise_cons.2 h⟩
        rcases List.mem_cons.1 hx with rfl | hx
        · exact hlt
        · exact lt_trans hlt (h.1 x hx)
      · next hge =>
        refine List.pairwise_cons.2 ⟨fun x hx => ?_, ih h.2⟩
        rcases mem_ins.1 hx with rfl | hx
        · have : o.pos x ≠ o.pos w := fun e => hne (o.inj _ _ e)
          omega
        · exact h.1 x hx

def sortNames (o : Order) (l : List String) : List String := l.foldr (ins o) []

theorem mem_sortNames {o : Order} {n : String} {l : List String} : n ∈ sortNames o l ↔ n ∈ l := by
  induction l with
  | nil => simp [sortNames]
  | cons w l ih =>
    show n ∈ ins o w (sortNames o l) ↔ _
    rw [mem_ins, ih, List.mem_cons]

theorem sorted_sortNames (o : Order) (l : List String) : Sorted o (sortNames o l) := by
  induction l with
  | nil => exact List.Pairwise.nil
  | cons w l ih => exact sorted_ins ih

theorem Sorted.nodup {o : Order} {l : List String} (h : Sorted o l) : l.Nodup :=
  List.Pairwise.imp (fun {a b} h e => by subst e; exact lt_irrefl _ h) h

/-! ### Boolean functions -/

/-- A Boolean function: a handle of the BDD package. -/
def Fn (o : Order) : Type := {d : Dd // d.Ok o 0}

instance (o : Order) : DecidableEq (Fn o) := inferInstanceAs (DecidableEq {d : Dd // d.Ok o 0})

namespace Fn
variable {o : Order}

def ev (f : Fn o) (η : Env) : Bool := f.1.ev η

theorem ext {f g : Fn o} (h : ∀ η, f.ev η = g.ev η) : f = g := Subtype.ext (Dd.canon f.2 g.2 h)

theorem eq_iff {f g : Fn o} : f = g ↔ ∀ η, f.ev η = g.ev η := ⟨fun h η => by rw [h], ext⟩

/-- new_bdd.c:1575-1595 `depends`: the variables of a list of functions, in order (C19). -/
def depends (fs : List (Fn o)) : List String := sortNames o (fs.flatMap fun f => f.1.vars)

theorem depends_sorted (fs : List (Fn o)) : Sorted o (depends fs) := sorted_sortNames _ _

theorem ev_depends {f : Fn o} {fs : List (Fn o)} (hf : f ∈ fs) {η ζ : Env}
    (h : ∀ n ∈ depends fs, η n = ζ n) : f.ev η = f.ev ζ :=
  Dd.ev_vars _ fun n hn => h n (mem_sortNames.2 (List.mem_flatMap.2 ⟨f, hf, hn⟩))

theorem mem_depends {fs : List (Fn o)} {n : String} :
    n ∈ depends fs ↔ ∃ f ∈ fs, ∃ η : Env, f.ev (η.set n true) ≠ f.ev (η.set n false) := by
  unfold depends
  rw [mem_sortNames, List.mem_flatMap]
  constructor
  · rintro ⟨f, hf, hn⟩
    exact ⟨f, hf, (Dd.vars_matter f.2 hn).2⟩
  · rintro ⟨f, hf, η, h⟩
    refine ⟨f, hf, ?_⟩
    by_contra hn
    refine h (Dd.ev_vars _ fun m hm => ?_)
    have : m ≠ n := fun e => hn (e ▸ hm)
    simp [Env.set, this]

/-- The function `G`, which looks at the variables `vs` only. -/
def make (o : Order) (vs : List String) (G : Env → Bool) : Fn o :=
  ⟨Dd.build G (sortNames o vs) (fun _ => false), Dd.build_ok G _ _ _ (sorted_sortNames o vs) fun _ _ => Nat.zero_le _⟩

theorem make_ev {vs : List String} {G : Env → Bool}
    (h : ∀ η ζ : Env, (∀ n ∈ vs, η n = ζ n) → G η = G ζ) (η : Env) : (make o vs G).ev η = G η := by
  unfold make ev
  rw [Dd.build_ev]
  refine h _ _ fun n hn => ?_
  rw [if_pos (mem_sortNames.2 hn)]

/-- The constants `T` and `F`. -/
def const (o : Order) (b : Bool) : Fn o := ⟨.leaf b, trivial⟩
abbrev tt (o : Order) : Fn o := const o true
abbrev ff (o : Order) : Fn o := const o false

@[simp] theorem const_ev (b : Bool) (η : Env) : (const o b).ev η = b := rfl

/-- `variable` (new_bdd.c `B_Var`). -/
def var (o : Order) (v : String) : Fn o := make o [v] fun η => η v

@[simp] theorem var_ev (v : String) (η : Env) : (var o v).ev η = η v :=
  make_ev (fun _ _ h => h v (by simp)) η

/-- The connectives (C15). -/
def un (op : Bool → Bool) (f : Fn o) : Fn o := make o (depends [f]) fun η => op (f.ev η)
def bin (op : Bool → Bool → Bool) (f g : Fn o) : Fn o :=
  make o (depends [f, g]) fun η => op (f.ev η) (g.ev η)
/-- graph.c `P_COND` on a condition that is not constant (C15, C54). -/
def ite (c f g : Fn o) : Fn o :=
  make o (depends [c, f, g]) fun η => if c.ev η then f.ev η else g.ev η

theorem un_ev (op : Bool → Bool) (f : Fn o) (η : Env) : (un op f).ev η = op (f.ev η) :=
  make_ev (fun η ζ h => by rw [ev_depends (List.mem_singleton.2 rfl) h]) η
theorem bin_ev (op : Bool → Bool → Bool) (f g : Fn o) (η : Env) : (bin op f g).ev η = op (f.ev η) (g.ev η) :=
  make_ev (fun η ζ h => by rw [ev_depends (f := f) (by simp) h, ev_depends (f := g) (by simp) h]) η
@[simp] theorem ite_ev (c f g : Fn o) (η : Env) : (ite c f g).ev η = if c.ev η then f.ev η else g.ev η :=
  make_ev (fun η ζ h => by
    rw [ev_depends (f := f) (by simp) h, ev_depends (f := g) (by simp) h, ev_depends (f := c) (by simp) h]) η

def not (f : Fn o) : Fn o := un (!·) f
def and (f g : Fn o) : Fn o := bin (· && ·) f g
def or (f g : Fn o) : Fn o := bin (· || ·) f g
def xor (f g : Fn o) : Fn o := bin (· ^^ ·) f g
def xnor (f g : Fn o) : Fn o := bin (· == ·) f g

@[simp] theorem not_ev (f : Fn o) (η : Env) : f.not.ev η = !f.ev η := un_ev _ _ _
@[simp] theorem and_ev (f g : Fn o) (η : Env) : (f.and g).ev η = (f.ev η && g.ev η) := bin_ev _ _ _ _
@[simp] theorem or_ev (f g : Fn o) (η : Env) : (f.or g).ev η = (f.ev η || g.ev η) := bin_ev _ _ _ _
@[simp] theorem xor_ev (f g : Fn o) (η : Env) : (f.xor g).ev η = (f.ev η ^^ g.ev η) := bin_ev _ _ _ _
@[simp] theorem xnor_ev (f g : Fn o) (η : Env) : (f.xnor g).ev η = (f.ev η == g.ev η) := bin_ev _ _ _ _

/-- The assignment that a substitution makes of an assignment: a name in the list gets the value of its
function. -/
def under (σ : List (String × Fn o)) (η : Env) : Env := fun n =>
  match σ.lookup n with
  | some g => g.ev η
  | none => η n

/-- new_bdd.c:1677-1706 `substitute` on one function (C18); a list that names a variable twice is refused,
which the callers below see as a failure. -/
def subst (σ : List (String × Fn o)) (f : Fn o) : Fn o :=
  make o (depends (f :: σ.map Prod.snd)) fun η => f.ev (under σ η)

theorem lookup_mem {α : Type} {σ : List (String × α)} {n : String} {g : α} (h : σ.lookup n = some g) : (n, g) ∈ σ := by
  induction σ with
  | nil => simp at h
  | cons p σ ih =>
    obtain ⟨m, x⟩ := p
    rw [List.lookup_cons] at h
    split at h
    · next e =>
      simp only [beq_iff_eq] at e
      simp only [Option.some.injEq] at h
      subst h e
      simp
    · exact List.mem_cons_of_mem _ (ih h)

@[simp] theorem subst_ev (σ : List (String × Fn o)) (f : Fn o) (η : Env) : (subst σ f).ev η = f.ev (under σ η) := by
  refine make_ev (fun η ζ h => ?_) η
  refine Dd.ev_vars _ fun n hn => ?_
  unfold under
  cases hl : σ.lookup n with
  | none => exact h n (mem_sortNames.2 (List.mem_flatMap.2 ⟨f, by simp, hn⟩))
  | some g =>
    refine ev_depends (fs := f :: σ.map Prod.snd) ?_ h
    exact List.mem_cons_of_mem _ (List.mem_map.2 ⟨_, lookup_mem hl, rfl⟩)

/-- One variable replaced by a constant: `substitute [(v,T)] f` or `substitute [(v,F)] f`. -/
def cof (v : String) (b : Bool) (f : Fn o) : Fn o := subst [(v, const o b)] f

@[simp] theorem cof_ev (v : String) (b : Bool) (f : Fn o) (η : Env) : (cof v b f).ev η = f.ev (η.set v b) := by
  unfold cof
  rw [subst_ev]
  congr 1
  funext n
  unfold under Env.set
  rw [List.lookup_cons, List.lookup_nil]
  by_cases h : n = v
  · simp [h]
  · simp [h, beq_eq_false_iff_ne.2 h]

/-- Existential quantification of a list of variables (C16). -/
def thereis : List String → Fn o → Fn o
  | [], f => f
  | v :: vs, f => thereis vs ((cof v true f).or (cof v false f))

theorem thereis_ev (vs : List String) (f : Fn o) (η : Env) :
    (thereis vs f).ev η = true ↔ ∃ ζ : Env, (∀ n, n ∉ vs → ζ n = η n) ∧ f.ev ζ = true := by
  induction vs generalizing f with
  | nil =>
    simp only [thereis, List.not_mem_nil, not_false_eq_true, forall_true_left]
    exact ⟨fun h => ⟨η, fun _ => rfl, h⟩, fun ⟨ζ, h1, h2⟩ => by rwa [← show ζ = η from funext h1]⟩
  | cons v vs ih =>
    simp only [thereis, ih, or_ev, cof_ev, Bool.or_eq_true]
    constructor
    · rintro ⟨ζ, h, h2 | h2⟩
      · refine ⟨ζ.set v true, fun n hn => ?_, h2⟩
        simp only [List.mem_cons, not_or] at hn
        simp [Env.set, hn.1, h n hn.2]
      · refine ⟨ζ.set v false, fun n hn => ?_, h2⟩
        simp only [List.mem_cons, not_or] at hn
        simp [Env.set, hn.1, h n hn.2]
    · rintro ⟨ζ, h, h2⟩
      refine ⟨fun n => if n ∈ vs then ζ n else η n, fun n hn => by simp [hn], ?_⟩
      have key : ∀ b, ζ v = b → Env.set (fun n => if n ∈ vs then ζ n else η n) v b = ζ := by
        intro b hb
        funext n
        unfold Env.set
        by_cases h1 : n = v
        · simp [h1, hb]
        · by_cases h3 : n ∈ vs
          · simp [h1, h3]
          · simp [h1, h3, h n (by simp [h1, h3])]
      cases hz : ζ v
      · right; rw [key _ hz]; exact h2
      · left; rw [key _ hz]; exact h2

/-- A Boolean function that is not a constant has a top variable. -/
theorem ff_iff {f : Fn o} : f = ff o ↔ ∀ η, f.ev η = false := eq_iff
theorem tt_iff {f : Fn o} : f = tt o ↔ ∀ η, f.ev η = true := eq_iff
theorem ne_ff {f : Fn o} : f ≠ ff o ↔ ∃ η, f.ev η = true := by
  rw [Ne, ff_iff]; push Not; simp
theorem ne_tt {f : Fn o} : f ≠ tt o ↔ ∃ η, f.ev η = false := by
  rw [Ne, tt_iff]; push Not; simp

/-- Boolean functions are an instance of what the model of bit-vectors (C08-C13) asks for. -/
instance : Bv.Canon (Fn o) Env where
  den := ev
  zero := ff o
  one := tt o
  not := not
  and := and
  or := or
  xor := xor
  xnor := xnor
  ite := ite
  eqb a b := decide (a = b)
  den_zero _ := rfl
  den_one _ := rfl
  den_not := not_ev
  den_and := and_ev
  den_or := or_ev
  den_xor := xor_ev
  den_xnor := xnor_ev
  den_ite := ite_ev
  eqb_refl a := by simp
  eqb_sound a b h ρ := by rw [of_decide_eq_true h]
  eqb_complete a b h := by rw [decide_eq_true_iff, eq_iff]; exact h

end Fn

/-! ### A concrete order, used in examples: by length, then by the characters from the right. -/

def codeChars : List Char → Nat
  | [] => 0
  | c :: l => c.toNat + 1 + 1114113 * codeChars l

theorem codeChars_inj : ∀ {a b : List Char}, codeChars a = codeChars b → a = b
  | [], [], _ => rfl
  | [], c :: l, h => by simp only [codeChars] at h; omega
  | c :: l, [], h => by simp only [codeChars] at h; omega
  | c :: l, d :: m, h => by
    simp only [codeChars] at h
    have hc : c.toNat < 1114112 := by
      have := c.valid
      simp only [UInt32.isValidChar, Nat.isValidChar] at this
      show c.val.toNat < _
      omega
    have hd : d.toNat < 1114112 := by
      have := d.valid
      simp only [UInt32.isValidChar, Nat.isValidChar] at this
      show d.val.toNat < _
      omega
    have e1 : c.toNat = d.toNat := by omega
    have e2 : codeChars l = codeChars m := by omega
    rw [codeChars_inj e2, Char.toNat_inj.1 e1]

/-- Names in the order of their codes. -/
def codeOrder : Order where
  pos s := codeChars s.toList
  inj a b h := String.toList_inj.1 (codeChars_inj h)

end Voss.Pre
