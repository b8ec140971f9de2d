import Verif.Fl.HeapTop
import Verif.Fl.HeapForce
import Verif.Fl.Props
/-
Properties of the reducer.
-/
namespace Voss.Fl
variable {B E D : Type} [DecidableEq B] {A : Alg D} {dt : Data A} {bs : Bools B E} {ext : Ext B}

omit [DecidableEq B] in
theorem start_node (fs : List (Name × B)) (n : Nat) :
    (start bs fs).node n = (fs[n]?).map fun p => .bool p.2 := by
  unfold St.node start
  rw [List.getElem?_map]
  cases fs[n]? <;> rfl

omit [DecidableEq B] in
theorem start_inv (ar : Nat → Nat) (fs : List (Name × B)) : Inv ar (start bs fs) := by
  intro n h
  unfold St.forced start at h
  rw [List.getElem?_map] at h
  cases hf : fs[n]? with
  | none => rw [hf] at h; cases h
  | some p => exact .bool (f := p.2) (by rw [start_node, hf]; rfl)

omit [DecidableEq B] in
theorem start_closed (fs : List (Name × B)) (T : Nat → Prop) : ClosedTo T (start bs fs) := by
  intro n _
  rw [start_node]
  cases fs[n]? with
  | none => exact ⟨nofun, fun _ _ => nofun⟩
  | some p => exact ⟨nofun, fun _ _ => nofun⟩

omit [DecidableEq B] in
theorem startLink_some {x : Name} : ∀ {fs : List (Name × B)} {i m : Nat}, startLink fs i x = some m →
    ∃ j f, m = i + j ∧ (fs[j]?).map Prod.snd = some f ∧ fs.lookup x = some f
  | [], _, _, h => by cases h
  | (y, f) :: fs, i, m, h => by
    unfold startLink at h
    split at h
    · rename_i hx; cases h; subst hx
      exact ⟨0, f, rfl, rfl, by simp⟩
    · rename_i hx
      obtain ⟨j, g, h1, h2, h3⟩ := startLink_some h
      refine ⟨j + 1, g, by omega, by simpa using h2, ?_⟩
      rw [List.lookup_cons]
      have : (x == y) = false := by simpa using hx
      rw [this]; exact h3

theorem session_ok (ops : Ops A dt bs ext) (k : Nat) : ∀ (cs : List Cmd) {link : Name → Option Nat} {st : St B}
    {rs : List (St B × Nat)} {v : Nat → E → D} {ρ : E → Env D}, session bs ext k cs link st = some rs →
    (∀ t, .expr t ∈ cs → t.NoZZ) → (∀ x t, .decl x t ∈ cs → t.NoZZ) → (∀ r ∈ rs, r.1.taint = false) →
    Inv ext.arity st → Describes A bs v st → (∀ x m, link x = some m → m < st.size ∧ ∀ e, ρ e x = v m e) →
    ∃ ds : E → List D, ∀ e, Means A cs (ρ e) (ds e) ∧ Shows A bs e rs (ds e)
  | [], link, st, rs, v, ρ, h, _, _, _, _, _, _ => by
    cases h; exact ⟨fun _ => [], fun e => ⟨rfl, trivial⟩⟩
  | .decl x t :: cs, link, st, rs, v, ρ, h, z1, z2, ht, hi, hv, hl => by
    unfold session at h
    split at h
    · cases h
    · rename_i st1 n h1
      obtain ⟨s1, _, l1, v1, d1, e1, f1⟩ := load_ok (ar := ext.arity) (ρ := ρ) _ h1 hv hl
      obtain ⟨ds, hds⟩ := session_ok ops k cs (ρ := fun e => (ρ e).set x (v1 n e)) h
        (fun t h => z1 t (List.mem_cons_of_mem _ h)) (fun x t h => z2 x t (List.mem_cons_of_mem _ h)) ht (s1.inv hi) d1
        (fun y m hm => by
          unfold Env.set
          split at hm
          · rename_i hy; cases hm
            exact ⟨l1, fun e => by rw [if_pos hy]⟩
          · rename_i hy
            obtain ⟨g1, g2⟩ := hl y m hm
            exact ⟨Nat.lt_of_lt_of_le g1 s1.size, fun e => by rw [if_neg hy, g2 e, e1 m g1]⟩)
      refine ⟨ds, fun e => ⟨⟨v1 n e, ?_, (hds e).1⟩, (hds e).2⟩⟩
      rw [f1 e]
      exact c52_compile_partial A t (z2 x t List.mem_cons_self) (ρ e) []
  | .expr t :: cs, link, st, rs, v, ρ, h, z1, z2, ht, hi, hv, hl => by
    unfold session at h
    split at h
    · cases h
    · rename_i st1 n h1
      split at h
      · cases h
      · rename_i rs1 h2
        cases h
        have ht1 := ht (st1, n) List.mem_cons_self
        obtain ⟨i1, v1, d1, e1, f1⟩ := evaluate_ok ops (ρ := ρ) h1 hi hv hl ht1
        have ev := h1
        unfold evaluate at ev
        have sz : st.size ≤ st1.size ∧ n < st1.size := by
          split at ev
          · cases ev
          · rename_i st0 n0 h0
            obtain ⟨s1, _, l1, _⟩ := load_ok (ar := ext.arity) (ρ := ρ) _ h0 hv hl
            obtain ⟨g1, g2⟩ := force_ok (trav_ok ops k) k _ _ _ _ ev (s1.inv hi)
            have := s1.size
            have := g2.base.size
            exact ⟨by omega, by omega⟩
        obtain ⟨ds, hds⟩ := session_ok ops k cs (ρ := fun e => (ρ e).set itName (v1 n e)) h2
          (fun t h => z1 t (List.mem_cons_of_mem _ h)) (fun x t h => z2 x t (List.mem_cons_of_mem _ h))
          (fun r hr => ht r (List.mem_cons_of_mem _ hr)) i1 d1
          (fun y m hm => by
            unfold Env.set
            split at hm
            · rename_i hy; cases hm
              exact ⟨sz.2, fun e => by rw [if_pos hy]⟩
            · rename_i hy
              obtain ⟨g1, g2⟩ := hl y m hm
              exact ⟨by omega, fun e => by rw [if_neg hy, g2 e, e1 m g1]⟩)
        refine ⟨fun e => v1 n e :: ds e, fun e => ⟨⟨v1 n e, ds e, rfl, ?_, (hds e).1⟩, fun x hx => reads_val d1 e x n hx,
          (hds e).2⟩⟩
        rw [f1 e]
        exact c52_compile_partial A t (z1 t List.mem_cons_self) (ρ e) []

/-! ### C54: graph reduction -/

/-- C54 (partial: no evaluation used one of the three shortcuts refuted below; C39's names): run any
commands in a heap that has Boolean functions for some names.  What is printed, for every assignment of the
Boolean variables, is what call-by-name lambda calculus says. -/
theorem c54_session_partial (ops : Ops A dt bs ext) (fs : List (Name × B)) (cs : List Cmd) (k : Nat)
    (rs : List (St B × Nat)) (h : session bs ext k cs (startLink fs 0) (start bs fs) = some rs)
    (z1 : ∀ t, .expr t ∈ cs → t.NoZZ) (z2 : ∀ x t, .decl x t ∈ cs → t.NoZZ)
    (ht : ∀ r ∈ rs, r.1.taint = false) (ρ : E → Env D)
    (hρ : ∀ e x f, fs.lookup x = some f → ρ e x = A.bool (bs.sat f e)) (e : E) :
    ∃ ds, Means A cs (ρ e) ds ∧ Shows A bs e rs ds := by
  let v : Nat → E → D := fun n e => match fs[n]? with
    | some p => A.bool (bs.sat p.2 e)
    | none => A.con .nil
  have hd : Describes A bs v (start bs fs) := by
    intro n nd hn
    rw [start_node] at hn
    cases hf : fs[n]? with
    | none => rw [hf] at hn; cases hn
    | some p =>
      rw [hf] at hn; cases hn
      intro e
      show (match fs[n]? with | some p => A.bool (bs.sat p.2 e) | none => A.con .nil) = _
      rw [hf]
  obtain ⟨ds, hds⟩ := session_ok ops k cs (ρ := ρ) (v := v) h z1 z2 ht (start_inv _ fs) hd (fun x m hm => by
    obtain ⟨j, f, h1, h2, h3⟩ := startLink_some hm
    have hj : m = j := by omega
    subst hj
    cases hf : fs[m]? with
    | none => rw [hf] at h2; cases h2
    | some p =>
      rw [hf] at h2; cases h2
      refine ⟨?_, fun e => ?_⟩
      · obtain ⟨h4, _⟩ := List.getElem?_eq_some_iff.mp hf
        simpa [St.size, start] using h4
      · show ρ e x = (match fs[m]? with | some p => A.bool (bs.sat p.2 e) | none => A.con .nil)
        rw [hf]; exact hρ e x _ h3)
  exact ⟨ds e, hds e⟩

/-- C54: what is evaluated stays evaluated, and the values of all existing nodes stay, in any heap. -/
theorem c54_evaluate_partial (ops : Ops A dt bs ext) {k : Nat} {link : Name → Option Nat} {ρ : E → Env D} {c : Code}
    {st st' : St B} {n : Nat} {v : Nat → E → D} (h : evaluate bs ext k link c st = some (st', n))
    (hi : Inv ext.arity st) (hv : Describes A bs v st)
    (hl : ∀ x m, link x = some m → m < st.size ∧ ∀ e, ρ e x = v m e) (ht : st'.taint = false) :
    Inv ext.arity st' ∧ ∃ v', Describes A bs v' st' ∧ (∀ m < st.size, v' m = v m) ∧ ∀ e, v' n e = c.ev A (ρ e) :=
  evaluate_ok ops h hi hv hl ht

/-! ### C55: forcing -/

/-- No failed part is left behind. -/
abbrev Clean (st : St B) : Prop := ClosedTo (fun _ => False) st

omit [DecidableEq B] in
theorem forced_within {st : St B} (hc : Clean st) {n m : Nat} (h : Within st n m) :
    st.forced n = true → st.forced m = true := by
  induction h with
  | self n => exact id
  | head hh _ ih => exact fun hn => ih (((hc _ hn).2 _ _ hh).1.resolve_right id)
  | tail hh _ ih => exact fun hn => ih (((hc _ hn).2 _ _ hh).2.resolve_right id)

/-- C55 (partial: the heap holds no marked structure with a failed or unmarked part; see below for what
failed evaluations leave): an evaluation that does not fail gives a completely evaluated structure without
failures in it, and leaves such a heap. -/
theorem c55_complete_partial (ops : Ops A dt bs ext) {k : Nat} {link : Name → Option Nat} {c : Code} {st st' : St B}
    {n : Nat} (h : evaluate bs ext k link c st = some (st', n)) (hi : Inv ext.arity st) (hc : Clean st)
    (hf : st'.node n ≠ some .fail) : Full ext.arity st' n ∧ Clean st' ∧ Inv ext.arity st' := by
  unfold evaluate at h
  split at h
  · cases h
  · rename_i st1 n1 h1
    have s1 : Step0 ext.arity st st1 := load_step0 c h1
    obtain ⟨g1, g2⟩ := force_ok (trav_ok ops k) k _ _ _ _ h (s1.inv hi)
    subst g1
    have hi' := g2.base.inv (s1.inv hi)
    obtain ⟨c1, f1⟩ := (force_c (trav_ok ops k) (trav_c ops k) k _ _ _ _ h (s1.inv hi)).resolve_left
      (fun g => hf ((St.isFail_iff _).mp g))
    have cl := c1.closed _ ((load_c c h1).closed _ hc)
    exact ⟨fun m hm => ⟨hi' m (forced_within cl hm f1), (cl m (forced_within cl hm f1)).1⟩, cl, hi'⟩

theorem session_full (ops : Ops A dt bs ext) (k : Nat) : ∀ (cs : List Cmd) {link : Name → Option Nat} {st : St B}
    {rs : List (St B × Nat)}, session bs ext k cs link st = some rs → Inv ext.arity st → Clean st →
    (∀ r ∈ rs, r.1.node r.2 ≠ some .fail) → ∀ r ∈ rs, Full ext.arity r.1 r.2
  | [], link, st, rs, h, _, _, _ => by cases h; exact fun _ h => nomatch h
  | .decl x t :: cs, link, st, rs, h, hi, hc, hf => by
    unfold session at h
    split at h
    · cases h
    · rename_i st1 n h1
      exact session_full ops k cs h ((load_step0 _ h1).inv hi) ((load_c _ h1).closed _ hc) hf
  | .expr t :: cs, link, st, rs, h, hi, hc, hf => by
    unfold session at h
    split at h
    · cases h
    · rename_i st1 n h1
      split at h
      · cases h
      · rename_i rs1 h2
        cases h
        obtain ⟨g1, g2, g3⟩ := c55_complete_partial ops h1 hi hc (hf (st1, n) List.mem_cons_self)
        intro r hr
        rcases List.mem_cons.mp hr with hr | hr
        · rw [hr]; exact g1
        · exact session_full ops k cs h2 g3 g2 (fun r h => hf r (List.mem_cons_of_mem _ h)) r hr

/-- C55 (partial: no evaluation before fails): all results are completely evaluated. -/
theorem c55_session_partial (ops : Ops A dt bs ext) (fs : List (Name × B)) (cs : List Cmd) (k : Nat)
    (rs : List (St B × Nat)) (h : session bs ext k cs (startLink fs 0) (start bs fs) = some rs)
    (hf : ∀ r ∈ rs, r.1.node r.2 ≠ some .fail) : ∀ r ∈ rs, Full ext.arity r.1 r.2 :=
  session_full ops k cs h (start_inv _ fs) (start_closed fs _) hf

/-! ### Cases -/

section cases

/-- The Boolean variables. -/
def abc : List (Name × BitVec 8) := [(['a'], 0xAA#8), (['b'], 0xCC#8), (['c'], 0xF0#8)]

/-- The Boolean functions on which the variables have their names' values. -/
def abcEnv (e : Fin 8) : Env Engeler.D := fun x =>
  match abc.lookup x with
  | some f => Engeler.alg.bool (tables.sat f e)
  | none => Engeler.alg.con .nil

def ite (c x y : Term) : Term := .app (.app (.app (.con .cond) c) x) y
def v (x : Char) : Term := .var [x]

/-- Running one expression with the Boolean variables. -/
def run (k : Nat) (cs : List Cmd) : Option (List (St (BitVec 8) × Nat)) :=
  session tables sample k cs (startLink abc 0) (start tables abc)

/-- The nodes of the results. -/
def nodes (rs : Option (List (St (BitVec 8) × Nat))) : Option (List (Option (Node (BitVec 8)) × Bool)) :=
  rs.map fun rs => rs.map fun r => (r.1.node r.2, r.1.taint)

theorem nodes_one {rs : Option (List (St (BitVec 8) × Nat))} {nd tn} (h : nodes rs = some [(some nd, tn)]) :
    ∃ st n, rs = some [(st, n)] ∧ st.node n = some nd ∧ st.taint = tn := by
  match rs, h with
  | some [(st, n)], h => exact ⟨st, n, rfl, by simpa [nodes] using h⟩
  | some [], h => simp [nodes] at h
  | some (_ :: _ :: _), h => simp [nodes] at h

theorem noZZ_of {t : Term} (h : t.names.all fun x => decide (x.head? ≠ some '_')) : t.NoZZ := by
  intro x hx j hj
  have h1 := List.all_eq_true.mp h x hx
  subst hj
  simp [zzName] at h1

theorem bool_inj {a b : Bool} (h : Engeler.alg.bool a = Engeler.alg.bool b) : a = b := by
  rw [Engeler.bool_eq, Engeler.bool_eq] at h
  have := congrFun h (.bool a)
  simpa [Engeler.one] using this

/-- C54 refuted without the restriction, 1: `let x = IF a THEN b ELSE c in IF a THEN x ELSE x` is `b`, also
where `a` is false: the inner conditional is evaluated inside the first branch of the outer one, where only its
first branch matters, and the shared node is overwritten with that. -/
theorem c54_context : ∃ st n, run 60 [.expr (.app (.lam ['x'] (ite (v 'a') (v 'x') (v 'x')))
      (ite (v 'a') (v 'b') (v 'c')))] = some [(st, n)] ∧
    Reads tables st 2 n (.bool true) ∧
    ∀ d, Val Engeler.alg (.app (.lam ['x'] (ite (v 'a') (v 'x') (v 'x'))) (ite (v 'a') (v 'b') (v 'c'))) (abcEnv 2) [] d →
      d = (Dat.bool false).val Engeler.alg := by
  obtain ⟨st, n, h1, h2, _⟩ := nodes_one (rs := run 60 [.expr (.app (.lam ['x'] (ite (v 'a') (v 'x') (v 'x')))
      (ite (v 'a') (v 'b') (v 'c')))]) (nd := .bool 204#8) (tn := true) (by decide +kernel)
  refine ⟨st, n, h1, ⟨_, h2, by decide⟩, ?_⟩
  rintro d ⟨x, ⟨c, hc, b, hb, a, ha, hx⟩, ⟨x1, h3, x2, h4, a', ha', hd⟩⟩
  have ea : a = Engeler.alg.bool false := ha
  have ea' : a' = Engeler.alg.bool false := ha'
  have ec : c = Engeler.alg.bool false := hc
  have e1 : x1 = x := h3
  have e2 : x2 = x := h4
  have ex : x = c := by
    rw [ea] at hx
    exact hx.trans (Engeler.data.cond_bool false b c)
  rw [ea'] at hd
  have : d = x1 := hd.trans (Engeler.data.cond_bool false x2 x1)
  rw [this, e1, ex, ec]; rfl

/-- C54 refuted without the restriction, 2: `IF a THEN NONE ELSE "s"` is `"s"` also where `a` holds. -/
theorem c54_none : ∃ st n, run 60 [.expr (ite (v 'a') (.con (.str (cname ['N', 'O', 'N', 'E']))) (.con (.str ['s'])))] =
      some [(st, n)] ∧
    Reads tables st 1 n (.str ['s']) ∧
    ∀ d, Val Engeler.alg (ite (v 'a') (.con (.str (cname ['N', 'O', 'N', 'E']))) (.con (.str ['s']))) (abcEnv 1) [] d →
      d = (Dat.str (cname ['N', 'O', 'N', 'E'])).val Engeler.alg := by
  obtain ⟨st, n, h1, h2, _⟩ := nodes_one
    (rs := run 60 [.expr (ite (v 'a') (.con (.str (cname ['N', 'O', 'N', 'E']))) (.con (.str ['s'])))])
    (nd := .con (.str ['s'])) (tn := true) (by decide +kernel)
  refine ⟨st, n, h1, h2, ?_⟩
  rintro d ⟨c, hc, b, hb, a, ha, hx⟩
  have ea : a = Engeler.alg.bool true := ha
  have eb : b = Engeler.alg.con (.str (cname ['N', 'O', 'N', 'E'])) := hb
  rw [ea] at hx
  exact (hx.trans (Engeler.data.cond_bool true b c)).trans eb

/-- C54 refuted without the restriction, 3: `a == b` is false also where `a` and `b` are equal. -/
theorem c54_identical : ∃ st n, run 60 [.expr (.app (.app (.con .identical) (v 'a')) (v 'b'))] = some [(st, n)] ∧
    Reads tables st 0 n (.bool false) ∧
    ∀ d, Val Engeler.alg (.app (.app (.con .identical) (v 'a')) (v 'b')) (abcEnv 0) [] d →
      d = (Dat.bool true).val Engeler.alg := by
  obtain ⟨st, n, h1, h2, _⟩ := nodes_one (rs := run 60 [.expr (.app (.app (.con .identical) (v 'a')) (v 'b'))])
    (nd := .bool 0#8) (tn := true) (by decide +kernel)
  refine ⟨st, n, h1, ⟨_, h2, by decide⟩, ?_⟩
  rintro d ⟨b, hb, a, ha, hd⟩
  have ea : a = Engeler.alg.bool false := ha
  have eb : b = Engeler.alg.bool false := hb
  rw [ea, eb] at hd
  exact hd.trans (Engeler.data.identical_bool false false)

/-- C54's hypotheses are met: `x` is evaluated before it is used, and shared; the value is `IF a THEN b ELSE c`. -/
example : nodes (run 60 [.decl ['x'] (ite (v 'a') (v 'b') (v 'c')), .expr (v 'x'), .expr (ite (v 'a') (v 'x') (v 'x'))]) =
    some [(some (.bool 216#8), false), (some (.bool 216#8), false)] := by decide +kernel

/-- The printed values of that session are `IF a THEN b ELSE c` for every assignment. -/
example (rs : List (St (BitVec 8) × Nat)) (h : run 60 [.decl ['x'] (ite (v 'a') (v 'b') (v 'c')), .expr (v 'x')] = some rs)
    (hr : ∀ r ∈ rs, r.1.taint = false) (e : Fin 8) : ∃ ds,
      Means Engeler.alg [.decl ['x'] (ite (v 'a') (v 'b') (v 'c')), .expr (v 'x')] (abcEnv e) ds ∧
        Shows Engeler.alg tables e rs ds := by
  refine c54_session_partial Engeler.ops abc _ 60 rs h ?_ ?_ hr abcEnv ?_ e
  · intro t ht
    rcases List.mem_cons.mp ht with h | h
    · cases h
    · cases List.mem_singleton.mp h
      exact noZZ_of (by decide)
  · intro x t ht
    rcases List.mem_cons.mp ht with h | h
    · cases h
      exact noZZ_of (by decide)
    · cases List.mem_singleton.mp h
  · intro e x f hf
    unfold abcEnv
    rw [hf]

/-- The wrong values above are wrong. -/
example : Engeler.alg.bool true ≠ Engeler.alg.bool false ∧
    Engeler.alg.con (.str ['s']) ≠ Engeler.alg.con (.str (cname ['N', 'O', 'N', 'E'])) := by
  refine ⟨(fun h => by cases bool_inj h), (fun h => ?_)⟩
  have h1 : Engeler.one (.str ['s']) = Engeler.one (.str (cname ['N', 'O', 'N', 'E'])) := h
  have h2 : Engeler.Tok.str ['s'] = .str (cname ['N', 'O', 'N', 'E']) := by
    have := congrFun h1 (.str ['s'])
    simpa [Engeler.one] using this
  injection h2 with h2
  exact absurd h2 (by decide)

def lst : List Term → Term
  | [] => .con .nil
  | t :: ts => .app (.app (.con .cons) t) (lst ts)

def errorT : Term := .app (.con .error) (.con (.str ['x']))
def threeT : Term := .app (.app (.con (.prim 0)) (.con (.int 1))) (.con (.int 2))

/-- `let z = (error "x") : [1 + 2]; let y = 1 : z; y; z`. -/
def failing : List Cmd :=
  [.decl ['z'] (lst [errorT, threeT]), .decl ['y'] (.app (.app (.con .cons) (.con (.int 1))) (v 'z')),
    .expr (v 'y'), .expr (v 'z')]

/-- C55 refuted after a failure: the evaluation of `y` fails while it forces `z`, and leaves `z` marked.  Then
the evaluation of `z` "succeeds": its result has a failure in it, and a part that is not evaluated. -/
theorem c55_after_failure : ∃ st1 n1 st n h t, run 60 failing = some [(st1, n1), (st, n)] ∧
    st1.node n1 = some .fail ∧ st.node n = some (.cons h t) ∧ st.node h = some .fail ∧
    ¬ Whnf sample.arity st t := by
  have h0 : ((run 60 failing).bind fun rs => match rs with
      | [(st1, n1), (st, n)] => some [st1.node n1, st.node n, st.node 6, st.node 16, st.node 14, st.node 8]
      | _ => none) = some [some .fail, some (.cons 6 16), some .fail, some (.app 14 15), some (.app 8 13),
        some (.con .cons)] := by
    decide +kernel
  match hr : run 60 failing, h0 with
  | some [(st1, n1), (st, n)], h0 =>
    simp only [Option.bind_some, Option.some.injEq, List.cons.injEq, and_true] at h0
    obtain ⟨g1, g2, g3, g4, g5, g6⟩ := h0
    refine ⟨st1, n1, st, n, 6, 16, rfl, g1, g2, g3, ?_⟩
    exact Part.not_whnf g4 (.app g4 (.app g5 (.con g6))) (by decide)

/-- C55's hypotheses are met: `[1 + 2, 1 + 2]` is evaluated completely. -/
example : ∃ st n, run 60 [.expr (lst [threeT, threeT])] = some [(st, n)] ∧ st.taint = false ∧
    Reads tables st 0 n (.cons (.int 3) (.cons (.int 3) .nil)) ∧ Full sample.arity st n := by
  have h0 : ((run 60 [.expr (lst [threeT, threeT])]).bind fun rs => match rs with
      | [(st, n)] => some (st.taint, st.node n)
      | _ => none) = some (false, some (.cons 8 18)) := by decide +kernel
  have h1 : ((run 60 [.expr (lst [threeT, threeT])]).bind fun rs => match rs with
      | [(st, _)] => some [st.node 8, st.node 18, st.node 15, st.node 17]
      | _ => none) = some [some (.con (.int 3)), some (.cons 15 17), some (.con (.int 3)), some (.con .nil)] := by
    decide +kernel
  match hr : run 60 [.expr (lst [threeT, threeT])], h0, h1 with
  | some [(st, n)], h0, h1 =>
    simp only [Option.bind_some, Option.some.injEq, List.cons.injEq, and_true, Prod.mk.injEq] at h0 h1
    obtain ⟨g1, g2⟩ := h0
    obtain ⟨g3, g4, g5, g6⟩ := h1
    refine ⟨st, n, rfl, g1, ⟨_, _, g2, g3, _, _, g4, g5, g6⟩, ?_⟩
    have hf : st.node n ≠ some .fail := by rw [g2]; nofun
    exact c55_session_partial Engeler.ops abc _ 60 _ hr (by simpa using hf) (st, n) List.mem_cons_self

end cases

end Voss.Fl
