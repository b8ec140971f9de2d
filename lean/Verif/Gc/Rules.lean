import Verif.Gc.Mark
import Verif.Gc.Machine
import Mathlib.Tactic.SplitIfs
/-
The rules of the reducer under the invariant: reference counts stay large enough, and the heap stays a part of
the plain graph.
-/
namespace Voss.Gc
open Finset Heap

theorem Graph.ext' {g g' : Graph} (ho : g.obj = g'.obj) (ht : g.tab = g'.tab) : g = g' := by
  cases g; cases g'; cases ho; cases ht; rfl

/-- The heap is a part of the plain graph, and its reference counts allow `ext` more references. -/
structure Sim (h : Heap) (g : Graph) (ext : Nat → Int) (ps : List Nat) : Prop where
  bounded : h.Bounded
  free : h.FreeOk
  ready : h.Ready
  counted : h.Counted ext
  obj : ∀ n, h.obj n ≠ .free → h.obj n = g.obj n
  tab : ∀ n b t, h.obj n = .tab b t → h.tab b t = g.tab b t
  pin : ∀ n ∈ ps, h.rc n = 3 ∧ h.obj n ≠ .free

namespace Sim

theorem mono {h : Heap} {g : Graph} {e e' : Nat → Int} {ps : List Nat} (hs : Sim h g e ps) (he : ∀ n, n ≠ 0 → e' n ≤ e n) :
    Sim h g e' ps := { hs with counted := hs.counted.mono he }

theorem tabOk {h : Heap} {g : Graph} {e : Nat → Int} {ps : List Nat} (hs : Sim h g e ps) (n : Nat) : h.TabOk (h.obj n) := by
  intro b t ho
  exact ⟨hs.bounded.tab n b t ho, (liveTab_iff hs.bounded b t).2 ⟨n, ho⟩⟩

theorem ready_upd {h : Heap} (hr : h.Ready) {a : Nat} {o : Obj} (ho : o.Ok) (n : Nat) :
    (∀ v b, upd h.obj a o n ≠ .lam v b) ∧ (∀ b, upd h.obj a o n = .cons 0 b → b = 0) := by
  by_cases e : n = a
  · subst e
    rw [upd_self]
    cases o <;> simp_all [Obj.Ok]
  · rw [upd_ne _ _ e]; exact hr n

theorem ok_ne {o : Obj} (ho : o.Ok) : o ≠ .free := by rintro rfl; exact ho

theorem put {h : Heap} {g : Graph} {e : Nat → Int} {ps : List Nat} (hs : Sim h g e ps) {a : Nat} {o : Obj}
    (ha : h.obj a ≠ .free) (ho : o.Ok) (ht : h.TabOk o) :
    Sim (h.put a o) (g.put a o) (fun n => e n + cnt (h.obj a).kids n - cnt o.kids n) ps := by
  refine ⟨hs.bounded.put ha ht, hs.free.put ha (ok_ne ho), fun n => ready_upd hs.ready ho n,
    hs.counted.put hs.bounded ha (ok_ne ho) ht, ?_, ?_, ?_⟩
  · intro n hn
    by_cases e : n = a
    · subst e; simp [Heap.put, Graph.put, upd]
    · have := hs.obj n
      simp only [Heap.put, Graph.put, upd, e, if_false] at *
      exact this hn
  · intro n b t hn
    by_cases e : n = a
    · subst e
      have hn' : o = .tab b t := by simpa [Heap.put, upd] using hn
      obtain ⟨x, hx⟩ := (liveTab_iff hs.bounded b t).1 (ht b t hn').2
      exact hs.tab x b t hx
    · have hn' : h.obj n = .tab b t := by simpa [Heap.put, upd, e] using hn
      exact hs.tab n b t hn'
  · intro n hn
    refine ⟨(hs.pin n hn).1, ?_⟩
    by_cases e : n = a
    · subst e; simpa [Heap.put, upd] using ok_ne ho
    · simpa [Heap.put, upd, e] using (hs.pin n hn).2

theorem new {h : Heap} {g : Graph} {e : Nat → Int} {ps : List Nat} (hs : Sim h g e ps) {o : Obj} (ho : o.Ok) (ht : h.TabOk o) :
    Sim (h.new o).1 (g.put (h.new o).2 o) (fun n => e n - cnt o.kids n + one (h.new o).2 n) ps := by
  obtain ⟨n1, n2, n3, n4, n5, n6, n7, n8⟩ := new_spec hs.bounded hs.free o
  refine ⟨hs.bounded.new hs.free ht, FreeOk.new hs.bounded hs.free (ok_ne ho), ?_, hs.counted.new hs.bounded hs.free (ok_ne ho) ht, ?_, ?_, ?_⟩
  · intro n; rw [n3]; exact ready_upd hs.ready ho n
  · intro n hn
    rw [n3] at hn ⊢
    by_cases e : n = (h.new o).2
    · simp [Graph.put, upd, e]
    · have := hs.obj n
      simp only [Graph.put, upd, e, if_false] at *
      exact this hn
  · intro n b t hn
    rw [n3] at hn
    rw [n5]
    by_cases e : n = (h.new o).2
    · rw [e, upd_self] at hn
      obtain ⟨x, hx⟩ := (liveTab_iff hs.bounded b t).1 (ht b t hn).2
      exact hs.tab x b t hx
    · rw [upd_ne _ _ e] at hn
      exact hs.tab n b t hn
  · intro n hn
    have hp := hs.pin n hn
    have e : n ≠ (h.new o).2 := fun e => hp.2 (e ▸ n2)
    rw [n3, n4, upd_ne _ _ e, upd_ne _ _ e]
    exact hp

theorem incBits3 (r : Nat) (h : r = 3) : incBits r = 3 := by subst h; rfl

theorem inc {h : Heap} {g : Graph} {e : Nat → Int} {ps : List Nat} (hs : Sim h g e ps) {a : Nat} (ha : h.obj a ≠ .free) :
    Sim (h.inc a) g (fun n => e n + one a n) ps := by
  refine ⟨⟨hs.bounded.obj, hs.bounded.tab⟩, ⟨hs.free.nodup, hs.free.mem⟩, hs.ready, hs.counted.inc ha, hs.obj, hs.tab, ?_⟩
  intro n hn
  refine ⟨?_, (hs.pin n hn).2⟩
  by_cases e : n = a
  · subst e; simp [Heap.inc, upd, incBits3 _ (hs.pin n hn).1]
  · simpa [Heap.inc, upd, e] using (hs.pin n hn).1

theorem setRc3 {h : Heap} {g : Graph} {e : Nat → Int} {ps : List Nat} (hs : Sim h g e ps) {a : Nat} (ha : h.obj a ≠ .free) (c : Int) :
    Sim (h.setRc a 3) g (fun n => e n + c * one a n) (a :: ps) := by
  refine ⟨⟨hs.bounded.obj, hs.bounded.tab⟩, ⟨hs.free.nodup, hs.free.mem⟩, hs.ready, hs.counted.setRc3 ha c, hs.obj, hs.tab, ?_⟩
  intro n hn
  by_cases e : n = a
  · subst e; exact ⟨by simp [Heap.setRc, upd], ha⟩
  · have := hs.pin n (by simpa [e] using hn)
    exact ⟨by simpa [Heap.setRc, upd, e] using this.1, this.2⟩

theorem pins {h : Heap} {g : Graph} {e : Nat → Int} {ps qs : List Nat} (hs : Sim h g e ps) (hq : ∀ n ∈ qs, n ∈ ps) :
    Sim h g e qs := { hs with pin := fun n hn => hs.pin n (hq n hn) }

/-- Giving up references. -/
theorem decs {h : Heap} {g : Graph} {e : Nat → Int} {ps : List Nat} {l : List Nat} {k : Nat}
    (hs : Sim h g (fun n => e n + cnt l n) ps) (he : ∀ n, 0 ≤ e n) (hk : h.size + 1 < k) :
    ∃ h', h.decs k l = some h' ∧ Sim h' g e ps := by
  obtain ⟨h', e1, c, s, f⟩ := decs_ok l he hs.bounded hs.free hs.ready hs.counted hk
  refine ⟨h', e1, s.bounded hs.bounded, f, s.ready hs.ready, c, ?_, ?_, ?_⟩
  · intro n hn
    rcases s.obj n with h1 | h1
    · rw [h1] at hn ⊢; exact hs.obj n hn
    · exact absurd h1 hn
  · intro n b t hn
    rw [s.tab]
    rcases s.obj n with h1 | h1
    · rw [h1] at hn; exact hs.tab n b t hn
    · rw [h1] at hn; cases hn
  · intro n hn
    have h1 := hs.pin n hn
    have h2 := s.pinned n h1.1
    exact ⟨h2.2, by rw [h2.1]; exact h1.2⟩

theorem dec {h : Heap} {g : Graph} {e : Nat → Int} {ps : List Nat} {a : Nat} {k : Nat}
    (hs : Sim h g (fun n => e n + one a n) ps) (he : ∀ n, 0 ≤ e n) (hk : h.size + 1 < k) :
    ∃ h', h.dec k a = some h' ∧ Sim h' g e ps := by
  obtain ⟨h', e1, s⟩ := decs (l := [a]) (hs.mono (e' := fun n => e n + cnt [a] n) fun n _ => by rw [cnt_single]) he hk
  refine ⟨h', ?_, s⟩
  rw [Heap.decs] at e1
  cases hd : h.dec k a with
  | none => rw [hd] at e1; cases e1
  | some h'' => rw [hd] at e1; exact e1

/-- What can be reached is there, and is what it is in the plain graph. -/
theorem live {h : Heap} {g : Graph} {e : Nat → Int} {ps : List Nat} {roots : List Nat} (hs : Sim h g e ps)
    (he : ∀ n, cnt roots n ≤ e n) {n : Nat} (hl : Live g roots n) : n ≠ 0 ∧ h.obj n = g.obj n ∧ h.obj n ≠ .free := by
  suffices n ≠ 0 ∧ h.obj n ≠ .free from ⟨this.1, hs.obj n this.2, this.2⟩
  have hpos : ∀ n, n ≠ 0 → 0 < h.refs n + e n → h.obj n ≠ .free := fun n h0 hr => hs.counted.notFree h0 hr
  have he0 : ∀ n, 0 ≤ e n := fun n => le_trans (cnt_nonneg _ _) (he n)
  induction hl with
  | @root n hr h0 =>
    refine ⟨h0, hpos n h0 ?_⟩
    have := h.refs_nonneg n
    have := cnt_pos hr
    have := he n
    omega
  | @kid a n _ hk h0 ih =>
    refine ⟨h0, hpos n h0 ?_⟩
    have := refs_pos_kid hs.bounded (show n ∈ (h.obj a).kids by rw [hs.obj a ih.2]; exact hk)
    have := he0 n
    omega
  | @tab a n b t _ ho hk h0 ih =>
    refine ⟨h0, hpos n h0 ?_⟩
    have ho' : h.obj a = .tab b t := by rw [hs.obj a ih.2]; exact ho
    have := refs_pos_tab hs.bounded ho' (by rw [hs.tab a b t ho']; exact hk)
    have := he0 n
    omega

theorem ok {h : Heap} {g : Graph} {e : Nat → Int} {ps : List Nat} (hs : Sim h g e ps) {n : Nat} (hn : h.obj n ≠ .free) :
    (h.obj n).Ok := by
  have := hs.ready n
  cases ho : h.obj n with
  | free => exact absurd ho hn
  | lam v b => exact absurd ho (this.1 v b)
  | cons a b => intro h0; rw [ho, h0] at this; exact this.2 b rfl
  | _ => trivial

/-- `OVERWRITE`. -/
theorem overwrite {h : Heap} {g : Graph} {e : Nat → Int} {ps : List Nat} (hs : Sim h g e ps) {a np : Nat}
    (ha : h.obj a ≠ .free) (hn : h.obj np ≠ .free) (he : ∀ n, 0 ≤ e n) :
    Sim (h.overwrite a np) (g.put a (g.obj np)) (fun n => e n + cnt (h.obj a).kids n) ps := by
  have hp := hs.put ha (hs.ok hn) (hs.tabOk np)
  rw [← hs.obj np hn]
  have hao : (h.put a (h.obj np)).obj a = h.obj np := by simp [Heap.put, upd]
  have hkid : ∀ m ∈ (h.obj np).kids, m ≠ 0 → (h.put a (h.obj np)).obj m ≠ .free := by
    intro m hm h0
    have h1 : h.obj m ≠ .free := by
      refine hs.counted.notFree h0 ?_
      have := refs_pos_kid hs.bounded hm
      have := he m
      omega
    by_cases e : m = a
    · subst e; rw [hao]; exact hn
    · simpa [Heap.put, upd, e] using h1
  have hinc : ∀ {h₁ : Heap} {g₁ : Graph} {e₁ : Nat → Int} (m : Nat), Sim h₁ g₁ e₁ ps → (m ≠ 0 → h₁.obj m ≠ .free) →
      Sim (h₁.inc m) g₁ (fun n => e₁ n + one m n) ps := by
    intro h₁ g₁ e₁ m hs₁ hm
    by_cases h0 : m = 0
    · subst h0
      have hfree : h₁.obj 0 = .free := by
        by_contra hx; have := (hs₁.bounded.obj 0 hx).1; omega
      refine ⟨⟨hs₁.bounded.obj, hs₁.bounded.tab⟩, ⟨hs₁.free.nodup, hs₁.free.mem⟩, hs₁.ready, ?_, hs₁.obj, hs₁.tab, ?_⟩
      · intro n hn0
        have := hs₁.counted n hn0
        rw [show (h₁.inc 0).refs n = h₁.refs n from rfl]
        unfold Fits at *
        rw [show (h₁.inc 0).obj n = h₁.obj n from rfl, show (h₁.inc 0).rc n = h₁.rc n by simp [Heap.inc, upd, hn0]]
        simpa [one, hn0] using this
      · intro n hn
        have hp := hs₁.pin n hn
        have h0 : n ≠ 0 := fun e => hp.2 (e ▸ hfree)
        exact ⟨by simpa [Heap.inc, upd, h0] using hp.1, hp.2⟩
    · exact hs₁.inc (hm h0)
  unfold Heap.overwrite incKids
  rw [hao]
  cases ho : h.obj np with
  | free => exact absurd ho hn
  | lam v b => exact absurd ho ((hs.ready np).1 v b)
  | app l r =>
    rw [ho] at hp hkid
    have h1 := hinc l hp (hkid l (by simp [Obj.kids]))
    have h2 := hinc r h1 (hkid r (by simp [Obj.kids]))
    refine h2.mono fun n _ => ?_
    simp only [Obj.kids]
    rw [cnt_cons, cnt_cons, cnt_nil]; simp only [one]; omega
  | cons l r =>
    rw [ho] at hp hkid
    dsimp only
    split
    · rename_i h0
      have : r = 0 := (hs.ready np).2 r (by rw [ho, h0])
      refine hp.mono fun n hn0 => ?_
      simp only [Obj.kids]
      rw [cnt_cons, cnt_cons, cnt_nil, h0, this]
      simp [hn0]
    · have h1 := hinc l hp (hkid l (by simp [Obj.kids]))
      have h2 := hinc r h1 (hkid r (by simp [Obj.kids]))
      refine h2.mono fun n _ => ?_
      simp only [Obj.kids]
      rw [cnt_cons, cnt_cons, cnt_nil]; simp only [one]; omega
  | leaf v =>
    rw [ho] at hp
    exact hp.mono fun n _ => by simp [Obj.kids]
  | tab b t =>
    rw [ho] at hp
    exact hp.mono fun n _ => by simp [Obj.kids]

end Sim

theorem tabOk_of_ne {h : Heap} {o : Obj} (ho : ∀ b t, o ≠ .tab b t) : h.TabOk o := fun b t e => absurd e (ho b t)

theorem nextAddr_new {h : Heap} (o : Obj) :
    (h.new o).2 = h.nextAddr 0 ∧ ∀ i, (h.new o).1.nextAddr i = h.nextAddr (i + 1) := by
  unfold Heap.new
  cases hl : h.freeList with
  | nil =>
    refine ⟨by simp [nextAddr, hl], fun i => ?_⟩
    simp only [nextAddr, hl]
    simp
    omega
  | cons a fl =>
    refine ⟨by simp [nextAddr, hl], fun i => ?_⟩
    simp only [nextAddr, hl]
    simp

theorem new_size (h : Heap) (o : Obj) : (h.new o).1.size ≤ h.size + 1 := by
  unfold Heap.new
  cases h.freeList <;> simp


theorem cnt_cons' (a : Nat) (l : List Nat) (n : Nat) : cnt (a :: l) n = one a n + cnt l n := by
  rw [cnt_cons]; rfl

theorem alive_put {h : Heap} {a x : Nat} {o : Obj} (ho : o ≠ .free) (hx : h.obj x ≠ .free) : (h.put a o).obj x ≠ .free := by
  by_cases e : x = a
  · subst e; simpa [Heap.put, upd] using ho
  · simpa [Heap.put, upd, e] using hx

theorem new_obj {h : Heap} (hb : h.Bounded) (hf : h.FreeOk) (o : Obj) {x : Nat} (hx : h.obj x ≠ .free) :
    (h.new o).1.obj x = h.obj x := by
  obtain ⟨n1, n2, n3, -⟩ := new_spec hb hf o
  rw [n3, upd_ne]
  intro e
  exact hx (e ▸ n2)

theorem put_obj (h : Heap) (a : Nat) (o : Obj) : (h.put a o).obj a = o := by simp [Heap.put, upd]

/-- `Sim.new` for an application, with what is needed to go on. -/
theorem Sim.newApp {h : Heap} {g : Graph} {e : Nat → Int} {ps : List Nat} (hs : Sim h g e ps) (x y : Nat) :
    ∃ h₁ m, h.new (.app x y) = (h₁, m) ∧ Sim h₁ (g.put m (.app x y)) (fun n => e n - (one x n + one y n) + one m n) ps ∧
      m = h.nextAddr 0 ∧ (∀ i, h₁.nextAddr i = h.nextAddr (i + 1)) ∧ (∀ z, h.obj z ≠ .free → h₁.obj z = h.obj z ∧ z ≠ m) ∧
      h₁.obj m ≠ .free ∧ h₁.size ≤ h.size + 1 ∧ m ≠ 0 := by
  obtain ⟨n1, n2, n3, -⟩ := new_spec hs.bounded hs.free (.app x y)
  refine ⟨(h.new (.app x y)).1, (h.new (.app x y)).2, rfl, ?_, (nextAddr_new _).1, (nextAddr_new _).2, ?_, ?_, new_size _ _, n1⟩
  · refine (hs.new (o := .app x y) trivial (tabOk_of_ne (by simp))).mono fun n _ => ?_
    simp only [Obj.kids]
    rw [cnt_cons', cnt_cons', cnt_nil]; omega
  · intro z hz
    exact ⟨new_obj hs.bounded hs.free _ hz, fun e => hz (e ▸ n2)⟩
  · rw [n3, upd_self]; simp

/-- `Sim.put` for an application that replaces an application. -/
theorem Sim.putApp {h : Heap} {g : Graph} {e : Nat → Int} {ps : List Nat} (hs : Sim h g e ps) {a l r : Nat}
    (ha : h.obj a = .app l r) (x y : Nat) :
    Sim (h.put a (.app x y)) (g.put a (.app x y)) (fun n => e n + (one l n + one r n) - (one x n + one y n)) ps := by
  refine (hs.put (a := a) (o := .app x y) (by rw [ha]; simp) trivial (tabOk_of_ne (by simp))).mono fun n _ => ?_
  rw [ha]
  simp only [Obj.kids]
  rw [cnt_cons', cnt_cons', cnt_nil, cnt_cons', cnt_cons', cnt_nil]; omega

theorem put_nextAddr (h : Heap) (a : Nat) (o : Obj) (i : Nat) : (h.put a o).nextAddr i = h.nextAddr i := rfl
theorem inc_nextAddr (h : Heap) (a : Nat) (i : Nat) : (h.inc a).nextAddr i = h.nextAddr i := rfl

/-- A heap in the middle of a rule: `c` nodes have been made, and the redex is the application of `l` to `r`. -/
structure Mid (h h' : Heap) (g : Graph) (e : Nat → Int) (ps : List Nat) (redex l r c : Nat) : Prop where
  sim : Sim h' g e ps
  al : ∀ x, h.obj x ≠ .free → h'.obj x ≠ .free
  hr : h'.obj redex = .app l r
  nx : ∀ i, h'.nextAddr i = h.nextAddr (c + i)
  size : h'.size ≤ h.size + c

namespace Mid
variable {h h' : Heap} {g : Graph} {e : Nat → Int} {ps : List Nat} {redex l r c : Nat}

theorem start (hs : Sim h g e ps) (hr : h.obj redex = .app l r) : Mid h h g e ps redex l r 0 :=
  ⟨hs, fun _ => id, hr, fun i => by simp, le_refl _⟩

theorem new (hm : Mid h h' g e ps redex l r c) (x y : Nat) : ∃ h'' m, h'.new (.app x y) = (h'', m) ∧ m = h.nextAddr c ∧
    Mid h h'' (g.put m (.app x y)) (fun n => e n - (one x n + one y n) + one m n) ps redex l r (c + 1) ∧ m ≠ redex := by
  obtain ⟨h1, m, e1, s1, m1, nx1, k1, fm, z1, -⟩ := hm.sim.newApp x y
  have hrf : h'.obj redex ≠ .free := by rw [hm.hr]; simp
  refine ⟨h1, m, e1, by rw [m1, hm.nx]; rfl, ⟨s1, ?_, ?_, ?_, ?_⟩, (k1 redex hrf).2.symm⟩
  · intro z hz
    have := hm.al z hz
    rw [(k1 z this).1]; exact this
  · rw [(k1 redex hrf).1]; exact hm.hr
  · intro i
    rw [nx1, hm.nx]
    congr 1; omega
  · have := hm.size; omega

theorem putL (hm : Mid h h' g e ps redex l r c) (x : Nat) : ∃ h'', h'.put redex ((h'.obj redex).setLeft x) = h'' ∧
    Mid h h'' (g.put redex (.app x r)) (fun n => e n + one l n - one x n) ps redex x r c := by
  refine ⟨_, rfl, ?_⟩
  rw [hm.hr]
  exact ⟨(hm.sim.putApp hm.hr x r).mono fun n _ => by omega, fun z hz => alive_put (by simp [Obj.setLeft]) (hm.al z hz),
    put_obj _ _ _, hm.nx, hm.size⟩

theorem putR (hm : Mid h h' g e ps redex l r c) (x : Nat) : ∃ h'', h'.put redex ((h'.obj redex).setRight x) = h'' ∧
    Mid h h'' (g.put redex (.app l x)) (fun n => e n + one r n - one x n) ps redex l x c := by
  refine ⟨_, rfl, ?_⟩
  rw [hm.hr]
  exact ⟨(hm.sim.putApp hm.hr l x).mono fun n _ => by omega, fun z hz => alive_put (by simp [Obj.setRight]) (hm.al z hz),
    put_obj _ _ _, hm.nx, hm.size⟩

theorem inc (hm : Mid h h' g e ps redex l r c) {x : Nat} (hx : h.obj x ≠ .free) : ∃ h'', h'.inc x = h'' ∧
    Mid h h'' g (fun n => e n + one x n) ps redex l r c :=
  ⟨_, rfl, hm.sim.inc (hm.al x hx), hm.al, hm.hr, hm.nx, hm.size⟩

end Mid

/-- The rules that rebuild the redex. -/
theorem rebuild_ok {h : Heap} {g : Graph} {e : Nat → Int} {ps : List Nat} (hs : Sim h g e ps) {redex oldLeft : Nat} {c : Comb}
    {as : List Nat} (hl : as.length = c.arity) (hr : h.obj redex = .app oldLeft (as.getLastD 0))
    (ha : ∀ a ∈ as, h.obj a ≠ .free) :
    ∃ h₁, rebuild h redex c as = some h₁ ∧
      Sim h₁ (effect h.nextAddr h.ntab g (.fire redex oldLeft c as)) (fun n => e n + cnt [oldLeft, as.getLastD 0] n) ps ∧
      h₁.size ≤ h.size + 3 := by
  have hrf : h.obj redex ≠ .free := by rw [hr]; simp
  cases c with
  | S =>
    obtain ⟨a1, a2, a3, rfl⟩ : ∃ a1 a2 a3, as = [a1, a2, a3] := by
      match as, hl with | [a1, a2, a3], _ => exact ⟨a1, a2, a3, rfl⟩
    simp only [List.getLastD_cons, List.getLastD_nil, List.mem_cons, List.not_mem_nil, or_false] at hr ha ⊢
    have fa1 := ha a1 (by simp)
    have fa2 := ha a2 (by simp)
    have fa3 := ha a3 (by simp)
    have m0 := Mid.start hs hr
    obtain ⟨h1, m, e1, qm, m1, nem⟩ := m0.new a1 a3
    obtain ⟨h2, e2, m2⟩ := m1.putL m
    obtain ⟨h3, e3, m3⟩ := m2.inc fa1
    obtain ⟨h4, e4, m4⟩ := m3.inc fa3
    obtain ⟨h5, n, e5, qn, m5, nen⟩ := m4.new a2 a3
    obtain ⟨h6, e6, m6⟩ := m5.putR n
    obtain ⟨h7, e7, m7⟩ := m6.inc fa2
    obtain ⟨h8, e8, m8⟩ := m7.inc fa3
    refine ⟨h8, by simp only [rebuild, e1, e2, e3, e4, e5, e6, e7, e8], ?_, by have := m8.size; omega⟩
    have hg := m8.sim.mono (e' := fun n => e n + cnt [oldLeft, a3] n) fun x _ => by rw [cnt_cons', cnt_cons', cnt_nil]; omega
    refine Eq.mp ?_ hg
    congr 1
    simp only [effect, Comb.news, List.range, List.range.loop, List.map, contractum, Graph.puts, ← qm, ← qn]
    apply Graph.ext'
    · funext x
      simp only [Graph.put, upd]
      split_ifs <;> simp_all
    · rfl
  | S' =>
    obtain ⟨a1, a2, a3, a4, rfl⟩ : ∃ a1 a2 a3 a4, as = [a1, a2, a3, a4] := by
      match as, hl with | [a1, a2, a3, a4], _ => exact ⟨a1, a2, a3, a4, rfl⟩
    simp only [List.getLastD_cons, List.getLastD_nil, List.mem_cons, List.not_mem_nil, or_false] at hr ha ⊢
    have fa1 := ha a1 (by simp)
    have fa2 := ha a2 (by simp)
    have fa3 := ha a3 (by simp)
    have fa4 := ha a4 (by simp)
    have m0 := Mid.start hs hr
    obtain ⟨h1, m, e1, qm, m1, nem⟩ := m0.new a2 a4
    obtain ⟨h2, n, e2, qn, m2, nen⟩ := m1.new a1 m
    obtain ⟨h3, e3, m3⟩ := m2.putL n
    obtain ⟨h4, e4, m4⟩ := m3.inc fa1
    obtain ⟨h5, e5, m5⟩ := m4.inc fa2
    obtain ⟨h6, e6, m6⟩ := m5.inc fa4
    obtain ⟨h7, p, e7, qp, m7, nep⟩ := m6.new a3 a4
    obtain ⟨h8, e8, m8⟩ := m7.putR p
    obtain ⟨h9, e9, m9⟩ := m8.inc fa3
    obtain ⟨h10, e10, m10⟩ := m9.inc fa4
    refine ⟨h10, by simp only [rebuild, e1, e2, e3, e4, e5, e6, e7, e8, e9, e10], ?_, by have := m10.size; omega⟩
    have hg := m10.sim.mono (e' := fun n => e n + cnt [oldLeft, a4] n) fun x _ => by rw [cnt_cons', cnt_cons', cnt_nil]; omega
    refine Eq.mp ?_ hg
    congr 1
    simp only [effect, Comb.news, List.range, List.range.loop, List.map, contractum, Graph.puts, ← qm, ← qn, ← qp]
    apply Graph.ext'
    · funext x
      simp only [Graph.put, upd]
      split_ifs <;> simp_all
    · rfl
  | C =>
    obtain ⟨a1, a2, a3, rfl⟩ : ∃ a1 a2 a3, as = [a1, a2, a3] := by
      match as, hl with | [a1, a2, a3], _ => exact ⟨a1, a2, a3, rfl⟩
    simp only [List.getLastD_cons, List.getLastD_nil, List.mem_cons, List.not_mem_nil, or_false] at hr ha ⊢
    have fa1 := ha a1 (by simp)
    have fa2 := ha a2 (by simp)
    have fa3 := ha a3 (by simp)
    have m0 := Mid.start hs hr
    obtain ⟨h1, m, e1, qm, m1, nem⟩ := m0.new a1 a3
    obtain ⟨h2, e2, m2⟩ := m1.putL m
    obtain ⟨h3, e3, m3⟩ := m2.inc fa1
    obtain ⟨h4, e4, m4⟩ := m3.inc fa3
    obtain ⟨h5, e5, m5⟩ := m4.putR a2
    obtain ⟨h6, e6, m6⟩ := m5.inc fa2
    refine ⟨h6, by simp only [rebuild, e1, e2, e3, e4, e5, e6], ?_, by have := m6.size; omega⟩
    have hg := m6.sim.mono (e' := fun n => e n + cnt [oldLeft, a3] n) fun x _ => by rw [cnt_cons', cnt_cons', cnt_nil]; omega
    refine Eq.mp ?_ hg
    congr 1
    simp only [effect, Comb.news, List.range, List.range.loop, List.map, contractum, Graph.puts, ← qm]
    apply Graph.ext'
    · funext x
      simp only [Graph.put, upd]
      split_ifs <;> simp_all
    · rfl
  | C' =>
    obtain ⟨a1, a2, a3, a4, rfl⟩ : ∃ a1 a2 a3 a4, as = [a1, a2, a3, a4] := by
      match as, hl with | [a1, a2, a3, a4], _ => exact ⟨a1, a2, a3, a4, rfl⟩
    simp only [List.getLastD_cons, List.getLastD_nil, List.mem_cons, List.not_mem_nil, or_false] at hr ha ⊢
    have fa1 := ha a1 (by simp)
    have fa2 := ha a2 (by simp)
    have fa3 := ha a3 (by simp)
    have fa4 := ha a4 (by simp)
    have m0 := Mid.start hs hr
    obtain ⟨h1, m, e1, qm, m1, nem⟩ := m0.new a2 a4
    obtain ⟨h2, n, e2, qn, m2, nen⟩ := m1.new a1 m
    obtain ⟨h3, e3, m3⟩ := m2.putL n
    obtain ⟨h4, e4, m4⟩ := m3.inc fa1
    obtain ⟨h5, e5, m5⟩ := m4.inc fa2
    obtain ⟨h6, e6, m6⟩ := m5.inc fa4
    obtain ⟨h7, e7, m7⟩ := m6.putR a3
    obtain ⟨h8, e8, m8⟩ := m7.inc fa3
    refine ⟨h8, by simp only [rebuild, e1, e2, e3, e4, e5, e6, e7, e8], ?_, by have := m8.size; omega⟩
    have hg := m8.sim.mono (e' := fun n => e n + cnt [oldLeft, a4] n) fun x _ => by rw [cnt_cons', cnt_cons', cnt_nil]; omega
    refine Eq.mp ?_ hg
    congr 1
    simp only [effect, Comb.news, List.range, List.range.loop, List.map, contractum, Graph.puts, ← qm, ← qn]
    apply Graph.ext'
    · funext x
      simp only [Graph.put, upd]
      split_ifs <;> simp_all
    · rfl
  | B =>
    obtain ⟨a1, a2, a3, rfl⟩ : ∃ a1 a2 a3, as = [a1, a2, a3] := by
      match as, hl with | [a1, a2, a3], _ => exact ⟨a1, a2, a3, rfl⟩
    simp only [List.getLastD_cons, List.getLastD_nil, List.mem_cons, List.not_mem_nil, or_false] at hr ha ⊢
    have fa1 := ha a1 (by simp)
    have fa2 := ha a2 (by simp)
    have fa3 := ha a3 (by simp)
    have m0 := Mid.start hs hr
    obtain ⟨h1, e1, m1⟩ := m0.putL a1
    obtain ⟨h2, e2, m2⟩ := m1.inc fa1
    obtain ⟨h3, m, e3, qm, m3, nem⟩ := m2.new a2 a3
    obtain ⟨h4, e4, m4⟩ := m3.putR m
    obtain ⟨h5, e5, m5⟩ := m4.inc fa2
    obtain ⟨h6, e6, m6⟩ := m5.inc fa3
    refine ⟨h6, by simp only [rebuild, e1, e2, e3, e4, e5, e6], ?_, by have := m6.size; omega⟩
    have hg := m6.sim.mono (e' := fun n => e n + cnt [oldLeft, a3] n) fun x _ => by rw [cnt_cons', cnt_cons', cnt_nil]; omega
    refine Eq.mp ?_ hg
    congr 1
    simp only [effect, Comb.news, List.range, List.range.loop, List.map, contractum, Graph.puts, ← qm]
    apply Graph.ext'
    · funext x
      simp only [Graph.put, upd]
      split_ifs <;> simp_all
    · rfl
  | Bstar =>
    obtain ⟨a1, a2, a3, a4, rfl⟩ : ∃ a1 a2 a3 a4, as = [a1, a2, a3, a4] := by
      match as, hl with | [a1, a2, a3, a4], _ => exact ⟨a1, a2, a3, a4, rfl⟩
    simp only [List.getLastD_cons, List.getLastD_nil, List.mem_cons, List.not_mem_nil, or_false] at hr ha ⊢
    have fa1 := ha a1 (by simp)
    have fa2 := ha a2 (by simp)
    have fa3 := ha a3 (by simp)
    have fa4 := ha a4 (by simp)
    have m0 := Mid.start hs hr
    obtain ⟨h1, e1, m1⟩ := m0.putL a1
    obtain ⟨h2, e2, m2⟩ := m1.inc fa1
    obtain ⟨h3, m, e3, qm, m3, nem⟩ := m2.new a3 a4
    obtain ⟨h4, n, e4, qn, m4, nen⟩ := m3.new a2 m
    obtain ⟨h5, e5, m5⟩ := m4.putR n
    obtain ⟨h6, e6, m6⟩ := m5.inc fa2
    obtain ⟨h7, e7, m7⟩ := m6.inc fa3
    obtain ⟨h8, e8, m8⟩ := m7.inc fa4
    refine ⟨h8, by simp only [rebuild, e1, e2, e3, e4, e5, e6, e7, e8], ?_, by have := m8.size; omega⟩
    have hg := m8.sim.mono (e' := fun n => e n + cnt [oldLeft, a4] n) fun x _ => by rw [cnt_cons', cnt_cons', cnt_nil]; omega
    refine Eq.mp ?_ hg
    congr 1
    simp only [effect, Comb.news, List.range, List.range.loop, List.map, contractum, Graph.puts, ← qm, ← qn]
    apply Graph.ext'
    · funext x
      simp only [Graph.put, upd]
      split_ifs <;> simp_all
    · rfl
  | B' =>
    obtain ⟨a1, a2, a3, a4, rfl⟩ : ∃ a1 a2 a3 a4, as = [a1, a2, a3, a4] := by
      match as, hl with | [a1, a2, a3, a4], _ => exact ⟨a1, a2, a3, a4, rfl⟩
    simp only [List.getLastD_cons, List.getLastD_nil, List.mem_cons, List.not_mem_nil, or_false] at hr ha ⊢
    have fa1 := ha a1 (by simp)
    have fa2 := ha a2 (by simp)
    have fa3 := ha a3 (by simp)
    have fa4 := ha a4 (by simp)
    have m0 := Mid.start hs hr
    obtain ⟨h1, m, e1, qm, m1, nem⟩ := m0.new a1 a2
    obtain ⟨h2, e2, m2⟩ := m1.putL m
    obtain ⟨h3, e3, m3⟩ := m2.inc fa1
    obtain ⟨h4, e4, m4⟩ := m3.inc fa2
    obtain ⟨h5, n, e5, qn, m5, nen⟩ := m4.new a3 a4
    obtain ⟨h6, e6, m6⟩ := m5.putR n
    obtain ⟨h7, e7, m7⟩ := m6.inc fa3
    obtain ⟨h8, e8, m8⟩ := m7.inc fa4
    refine ⟨h8, by simp only [rebuild, e1, e2, e3, e4, e5, e6, e7, e8], ?_, by have := m8.size; omega⟩
    have hg := m8.sim.mono (e' := fun n => e n + cnt [oldLeft, a4] n) fun x _ => by rw [cnt_cons', cnt_cons', cnt_nil]; omega
    refine Eq.mp ?_ hg
    congr 1
    simp only [effect, Comb.news, List.range, List.range.loop, List.map, contractum, Graph.puts, ← qm, ← qn]
    apply Graph.ext'
    · funext x
      simp only [Graph.put, upd]
      split_ifs <;> simp_all
    · rfl
  | Y =>
    obtain ⟨a1, rfl⟩ : ∃ a1, as = [a1] := by
      match as, hl with | [a1], _ => exact ⟨a1, rfl⟩
    simp only [List.getLastD_cons, List.getLastD_nil, List.mem_cons, List.not_mem_nil, or_false] at hr ha ⊢
    have fa1 := ha a1 (by simp)
    have m0 := Mid.start hs hr
    obtain ⟨h1, e1, m1⟩ := m0.putL a1
    obtain ⟨h2, e2, m2⟩ := m1.inc fa1
    obtain ⟨h3, e3, m3⟩ := m2.putR redex
    obtain ⟨h4, e4, m4⟩ := m3.inc hrf
    refine ⟨h4, by simp only [rebuild, e1, e2, e3, e4], ?_, by have := m4.size; omega⟩
    have hg := m4.sim.mono (e' := fun n => e n + cnt [oldLeft, a1] n) fun x _ => by rw [cnt_cons', cnt_cons', cnt_nil]; omega
    refine Eq.mp ?_ hg
    congr 1
    simp only [effect, Comb.news, List.range, List.range.loop, List.map, contractum, Graph.puts]
    apply Graph.ext'
    · funext x
      simp only [Graph.put, upd]
      split_ifs <;> simp_all
    · rfl
  | cons =>
    obtain ⟨a1, a2, rfl⟩ : ∃ a1 a2, as = [a1, a2] := by
      match as, hl with | [a1, a2], _ => exact ⟨a1, a2, rfl⟩
    simp only [List.getLastD_cons, List.getLastD_nil, List.mem_cons, List.not_mem_nil, or_false] at hr ha ⊢
    have f1 := ha a1 (by simp)
    have f2 := ha a2 (by simp)
    have h0 : ∀ x, h.obj x ≠ .free → x ≠ 0 := fun x hx e => by have := (hs.bounded.obj x hx).1; omega
    have s1 := hs.put (a := redex) (o := .cons a1 a2) hrf (fun e => absurd e (h0 a1 f1)) (tabOk_of_ne (by simp))
    have s2 := s1.inc (a := a1) (alive_put (by simp) f1)
    have s3 := s2.inc (a := a2) (alive_put (by simp) f2)
    refine ⟨_, rfl, ?_, by simp [Heap.put, Heap.inc]⟩
    have hg := s3.mono (e' := fun n => e n + cnt [oldLeft, a2] n) fun x _ => by
      rw [hr]; simp only [Obj.kids]
      rw [cnt_cons', cnt_cons', cnt_nil, cnt_cons', cnt_cons', cnt_nil]; omega
    have hh : ((h.put redex (.cons a1 a2)).inc a1).inc a2 =
        (((h.put redex (.cons a1 (h.obj redex).right)).inc a1).put redex
          ((((h.put redex (.cons a1 (h.obj redex).right)).inc a1).obj redex).setRight a2)).inc a2 := by
      have : ((h.put redex (.cons a1 (h.obj redex).right)).inc a1).obj redex = .cons a1 (h.obj redex).right := put_obj _ _ _
      rw [this]
      simp only [Obj.setRight]
      unfold Heap.put Heap.inc
      congr 1
      funext x
      simp only [upd]
      split_ifs <;> rfl
    rw [hh] at hg
    exact hg

end Voss.Gc
