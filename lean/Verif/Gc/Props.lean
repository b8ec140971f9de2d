import Verif.Gc.Steps
/-
C65: reclaiming of graph nodes is not observable.
-/
namespace Voss.Gc
open Heap

/-- The empty heap. -/
def St.init : St :=
  ⟨{ size := 0, obj := fun _ => .free, rc := fun _ => 0, freeList := [], tab := fun _ _ => [], ntab := fun _ => 0,
     cmark := fun _ => false }, []⟩

/-- The empty graph. -/
def Graph.init : Graph := ⟨fun _ => .free, fun _ _ => []⟩

/-- All histories: the heap with reclaiming beside the plain graph without it.  `k` is the depth the C stack
allows. -/
inductive Reach : St → Graph → Prop where
  | init : Reach St.init Graph.init
  | step {s s' : St} {g : Graph} {op : Op} {k : Nat} : Reach s g → Pre g s.roots op → s.heap.size + 5 < k →
      run k s op = some s' → Reach s' (effect s.heap.nextAddr s.heap.ntab g op)

theorem inv_init : Inv St.init Graph.init := by
  have hr : ∀ n, St.init.heap.refs n = 0 := by
    intro n
    simp [refs, nodeRefs, tabRefs, St.init, Obj.kids]
  refine ⟨⟨?_, ?_⟩, ⟨?_, ?_⟩, ?_, ?_, ?_, ?_, ?_⟩
  · intro n hn; exact absurd rfl hn
  · intro n b t hn; cases hn
  · exact List.nodup_nil
  · intro n; simp [St.init]; omega
  · intro n; simp [St.init]
  · intro n hn
    rw [hr]
    simp [Fits, St.init]
  · intro n hn; exact absurd rfl hn
  · intro n b t hn; cases hn
  · intro n hn; simp [St.init] at hn

theorem reach_inv {s : St} {g : Graph} (h : Reach s g) : Inv s g := by
  induction h with
  | init => exact inv_init
  | step _ hp hk hrun ih =>
    obtain ⟨s', e, hi⟩ := step_ok ih hp hk
    rw [hrun] at e
    cases e
    exact hi

/-- **C65.** Whatever can be reached in the graph without reclaiming is, after any history, still there, and is
what it would be without reclaiming; so are the reference variables and caches that can be reached. -/
theorem c65_live_partial {s : St} {g : Graph} (h : Reach s g) :
    (∀ n, Live g (s.roots.map Prod.fst) n → s.heap.obj n = g.obj n ∧ g.obj n ≠ .free) ∧
    (∀ n b t, Live g (s.roots.map Prod.fst) n → g.obj n = .tab b t → s.heap.tab b t = g.tab b t) := by
  have hi := reach_inv h
  refine ⟨fun n hl => ?_, fun n b t hl ho => ?_⟩
  · have := hi.live (fun _ => le_refl _) hl
    exact ⟨this.2.1, by rw [← this.2.1]; exact this.2.2⟩
  · have := hi.live (fun _ => le_refl _) hl
    exact hi.tab n b t (this.2.1.trans ho)

/-- **C65.** The addresses of new nodes are different from each other and from all that can be reached. -/
theorem c65_fresh {s : St} {g : Graph} (h : Reach s g) (i : Nat) :
    s.heap.nextAddr i ≠ 0 ∧ ¬ Live g (s.roots.map Prod.fst) (s.heap.nextAddr i) ∧
    ∀ j, i ≠ j → s.heap.nextAddr i ≠ s.heap.nextAddr j := by
  have hi := reach_inv h
  have hfree : ∀ i, (s.heap.nextAddr i ≠ 0 ∧ s.heap.obj (s.heap.nextAddr i) = .free) := by
    intro i
    unfold nextAddr
    cases hl : s.heap.freeList[i]? with
    | some a =>
      have := (hi.free.mem a).1 (List.mem_of_getElem? hl)
      exact ⟨by simp; omega, this.2.2⟩
    | none =>
      refine ⟨by simp, ?_⟩
      by_contra hx
      have := (hi.bounded.obj _ hx).2
      simp at this
      omega
  refine ⟨(hfree i).1, fun hl => ?_, fun j hj he => ?_⟩
  · exact (hi.live (fun _ => le_refl _) hl).2.2 (hfree i).2
  · unfold nextAddr at he
    cases hi' : s.heap.freeList[i]? with
    | some a =>
      have ha := (hi.free.mem a).1 (List.mem_of_getElem? hi')
      rw [hi'] at he
      cases hj' : s.heap.freeList[j]? with
      | some b =>
        rw [hj'] at he
        dsimp only at he
        subst he
        obtain ⟨hi1, hi2⟩ := List.getElem?_eq_some_iff.1 hi'
        obtain ⟨hj1, hj2⟩ := List.getElem?_eq_some_iff.1 hj'
        exact hj ((hi.free.nodup.getElem_inj_iff).1 (hi2.trans hj2.symm))
      | none =>
        rw [hj'] at he
        dsimp only at he
        omega
    | none =>
      rw [hi'] at he
      rw [List.getElem?_eq_none_iff] at hi'
      cases hj' : s.heap.freeList[j]? with
      | some b =>
        have hb := (hi.free.mem b).1 (List.mem_of_getElem? hj')
        rw [hj'] at he
        dsimp only at he
        omega
      | none =>
        rw [hj'] at he
        rw [List.getElem?_eq_none_iff] at hj'
        dsimp only at he
        omega

/-- **C65.** A collection returns exactly the nodes that cannot be reached, each of them once. -/
theorem c65_collect {s s' : St} {g : Graph} {k : Nat} (h : Reach s g) (hk : s.heap.size + 5 < k)
    (hr : run k s .collect = some s') :
    s'.heap.freeList.Nodup ∧ s'.heap.size = s.heap.size ∧
    ∀ n, n ∈ s'.heap.freeList ↔ 1 ≤ n ∧ n ≤ s.heap.size ∧ ¬ Live g (s.roots.map Prod.fst) n := by
  have hi := reach_inv h
  have hroots : ∀ n ∈ s.roots.map Prod.fst, n ≠ 0 → s.heap.obj n ≠ .free :=
    fun n hn h0 => (hi.live (fun _ => le_refl _) (Live.root hn h0)).2.2
  obtain ⟨h', e1, r⟩ := gc_ok (k := k) hi.bounded hi.counted (fun n => cnt_nonneg _ _) hroots (by omega)
  rw [run, show runHeap k s.heap s.roots .collect = s.heap.gc k s.roots from rfl, e1] at hr
  cases hr
  refine ⟨r.free.nodup, r.size, fun n => ?_⟩
  rw [r.free.mem n, r.size, ← hi.live_iff (fun _ => le_refl _) n]
  constructor
  · rintro ⟨h1, h2, h3⟩
    refine ⟨h1, h2, fun hl => ?_⟩
    have := (hi.live (fun _ => le_refl _) ((hi.live_iff (fun _ => le_refl _) n).1 hl)).2.2
    exact this ((r.live n hl).symm.trans h3)
  · rintro ⟨h1, h2, h3⟩
    exact ⟨h1, h2, r.dead n h3⟩

/-- **C65.** No operation that makes sense runs into a `DIE`, a free node or an endless loop. -/
theorem c65_never_stuck {s : St} {g : Graph} {op : Op} {k : Nat} (h : Reach s g) (hp : Pre g s.roots op)
    (hk : s.heap.size + 5 < k) : ∃ s', run k s op = some s' ∧ Reach s' (effect s.heap.nextAddr s.heap.ntab g op) := by
  obtain ⟨s', e, -⟩ := step_ok (reach_inv h) hp hk
  exact ⟨s', e, Reach.step h hp hk e⟩

/-- **C65.** A node whose last reference is given back is returned at once. -/
theorem c65_give_up {s s' : St} {g : Graph} {n k : Nat} (h : Reach s g) (hp : Pre g s.roots (.giveUp n)) (hn : n ≠ 0)
    (h0 : s.heap.rc n = 0) (hr : run (k + 1) s (.giveUp n) = some s') : s'.heap.obj n = .free := by
  have hf : s.heap.obj n ≠ .free :=
    ((reach_inv h).live (fun _ => le_refl _) (Live.root (List.mem_map_of_mem (show (n, false) ∈ s.roots from hp)) hn)).2.2
  have hrel : ∀ x : Heap, (x.release n).obj n = .free := fun x => by simp [release, upd]
  simp only [run, runHeap] at hr
  rw [Heap.dec, if_neg hn, if_pos h0] at hr
  have fin : ∀ {o : Option Heap}, (match o with
      | none => none
      | some h => some (⟨h, rootsAfter s.heap.nextAddr s.roots (.giveUp n)⟩ : St)) = some s' → o = some s'.heap := by
    intro o ho
    cases o with
    | none => cases ho
    | some x => cases ho; rfl
  have hr' := fin hr
  have hpair : (match dec k s.heap (s.heap.obj n).left with
      | none => none
      | some h₁ =>
        match dec k h₁ (h₁.obj n).right with
        | none => none
        | some h₂ => some (h₂.release n)) = some s'.heap → s'.heap.obj n = .free := by
    intro hx
    split at hx
    · cases hx
    · split at hx
      · cases hx
      · rw [← Option.some.inj hx]; exact hrel _
  cases ho : s.heap.obj n with
  | free => exact absurd ho hf
  | lam v b => rw [ho] at hr'; cases hr'
  | app l r =>
    apply hpair
    rw [ho] at hr' ⊢
    exact hr'
  | cons l r =>
    apply hpair
    rw [ho] at hr' ⊢
    exact hr'
  | leaf v => rw [ho] at hr'; rw [← Option.some.inj hr']; exact hrel _
  | tab b t => rw [ho] at hr'; rw [← Option.some.inj hr']; exact hrel _

/-! A history: the list `[["a"]]` and the function `hd` are built. -/

/-- The state after some operations. -/
def after : List Op → St
  | [] => St.init
  | op :: ops => (run 100 (after ops) op).getD St.init

/-- The plain graph after some operations. -/
def graphAfter : List Op → Graph
  | [] => Graph.init
  | op :: ops => effect (after ops).heap.nextAddr (after ops).heap.ntab (graphAfter ops) op

theorem reach_after {op : Op} {ops : List Op} (h : Reach (after ops) (graphAfter ops)) (hp : Pre (graphAfter ops) (after ops).roots op)
    (hk : (after ops).heap.size + 5 < 100) : Reach (after (op :: ops)) (graphAfter (op :: ops)) := by
  obtain ⟨s', e, -⟩ := c65_never_stuck h hp hk
  have : after (op :: ops) = s' := by simp [after, e]
  rw [this]
  exact Reach.step h hp hk e

/-- `hd` is 1, protected forever; `"a"` is 2, `["a"]` is 4 and `[["a"]]` is 6. -/
def listHist : List Op :=
  [.link (.cons 4 5), .link (.cons 0 0), .link (.cons 2 3), .link (.cons 0 0), .link (.leaf 97), .protect 1 true, .link (.leaf 1)]

theorem listHist_reach : Reach (after listHist) (graphAfter listHist) := by
  refine reach_after ?_ ⟨by simp [Obj.Ok], by simp, by decide⟩ (by decide)
  refine reach_after ?_ ⟨by simp [Obj.Ok], by simp, by decide⟩ (by decide)
  refine reach_after ?_ ⟨by simp [Obj.Ok], by simp, by decide⟩ (by decide)
  refine reach_after ?_ ⟨by simp [Obj.Ok], by simp, by decide⟩ (by decide)
  refine reach_after ?_ ⟨by simp [Obj.Ok], by simp, by decide⟩ (by decide)
  refine reach_after ?_ (Live.root (by decide) (by decide)) (by decide)
  refine reach_after ?_ ⟨by simp [Obj.Ok], by simp, by decide⟩ (by decide)
  exact Reach.init

theorem listHist_live : Live (graphAfter listHist) ((after listHist).roots.map Prod.fst) 4 :=
  Live.kid (a := 6) (Live.root (by decide) (by decide)) (by decide) (by decide)

/-- Non-vacuity of `c65_live_partial`: the inner list is reachable. -/
example : (after listHist).heap.obj 4 = .cons 2 3 := by
  rw [((c65_live_partial listHist_reach).1 4 listHist_live).1]; decide

/-- **C65, violated.** Printing a value with a function installed by the user: the application of the function to
the value is built without counting the value.  Its evaluation gives the value back, which is reclaimed although
the list that is being printed still refers to it. -/
theorem c65_print_violated : ∃ (s : St) (g : Graph) (fn node val : Nat) (s' : St),
    Reach s g ∧ Live g (s.roots.map Prod.fst) fn ∧ Live g (s.roots.map Prod.fst) node ∧ Live g (s.roots.map Prod.fst) val ∧
    (let hp := printNode s.heap fn node
     let roots := (hp.2, true) :: s.roots
     let g₁ := g.put hp.2 (.app fn node)
     let op := Op.project hp.2 val fn node
     Pre g₁ roots op ∧ run 100 ⟨hp.1, roots⟩ op = some s' ∧
     ∃ n, Live (effect hp.1.nextAddr hp.1.ntab g₁ op) (s'.roots.map Prod.fst) n ∧ s'.heap.obj n = .free) := by
  have hv : Live (graphAfter listHist) ((after listHist).roots.map Prod.fst) 2 :=
    Live.kid (a := 4) listHist_live (by decide) (by decide)
  have hf : Live (graphAfter listHist) ((after listHist).roots.map Prod.fst) 1 := Live.root (by decide) (by decide)
  refine ⟨after listHist, graphAfter listHist, 1, 4, 2,
    (run 100 ⟨(printNode (after listHist).heap 1 4).1, (7, true) :: (after listHist).roots⟩ (.project 7 2 1 4)).getD St.init,
    listHist_reach, hf, listHist_live, hv, ?_⟩
  refine ⟨⟨Live.root (by decide) (by decide), by decide, ?_⟩, rfl, 4, ?_, by decide⟩
  · refine Live.kid (a := 4) (Live.kid (a := 6) (Live.root (by decide) (by decide)) (by decide) (by decide)) (by decide) (by decide)
  · exact Live.kid (a := 6) (Live.root (by decide) (by decide)) (by decide) (by decide)

/-- `S f g x`: the redex is 7. -/
def redexHist : List Op :=
  [.link (.app 5 6), .link (.leaf 30), .link (.app 3 4), .link (.leaf 20), .link (.app 1 2), .link (.leaf 10), .link (.leaf 1)]

theorem redexHist_reach : Reach (after redexHist) (graphAfter redexHist) := by
  refine reach_after ?_ ⟨by simp [Obj.Ok], by simp, by decide⟩ (by decide)
  refine reach_after ?_ ⟨by simp [Obj.Ok], by simp, by decide⟩ (by decide)
  refine reach_after ?_ ⟨by simp [Obj.Ok], by simp, by decide⟩ (by decide)
  refine reach_after ?_ ⟨by simp [Obj.Ok], by simp, by decide⟩ (by decide)
  refine reach_after ?_ ⟨by simp [Obj.Ok], by simp, by decide⟩ (by decide)
  refine reach_after ?_ ⟨by simp [Obj.Ok], by simp, by decide⟩ (by decide)
  refine reach_after ?_ ⟨by simp [Obj.Ok], by simp, by decide⟩ (by decide)
  exact Reach.init

/-- The redex makes sense (`c65_never_stuck`). -/
theorem redexHist_pre : Pre (graphAfter redexHist) (after redexHist).roots (.fire 7 5 .S [2, 4, 6]) :=
  ⟨Live.root (by decide) (by decide), rfl,
    ⟨5, by decide, by decide, by decide, 3, by decide, by decide, by decide, 1, by decide, by decide, by decide, trivial⟩, by decide⟩

/-- The reduction gives `f x (g x)` with the new nodes 8 and 9; the spine 1, 3, 5 is returned. -/
example : let s := after (.fire 7 5 .S [2, 4, 6] :: redexHist)
    s.heap.obj 7 = .app 8 9 ∧ s.heap.obj 8 = .app 2 6 ∧ s.heap.obj 9 = .app 4 6 ∧ s.heap.freeList = [5, 3, 1] ∧
    s.heap.rc 2 = 0 ∧ s.heap.rc 6 = 3 := by decide

/-- Non-vacuity of `c65_collect` and `c65_fresh`: after forgetting all, all nodes are returned. -/
example : (after [.collect, .forget [], .link (.leaf 2), .link (.leaf 1)]).heap.freeList = [2, 1] := by decide

/-- Non-vacuity of `c65_give_up`. -/
example : Pre (graphAfter redexHist) (after redexHist).roots (.giveUp 7) ∧ (after redexHist).heap.rc 7 = 0 ∧
    (after (.giveUp 7 :: redexHist)).heap.freeList = [7, 6, 5, 4, 3, 2, 1] :=
  ⟨show (7, false) ∈ (after redexHist).roots by decide, by decide, by decide⟩

end Voss.Gc
