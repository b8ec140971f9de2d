import Verif.Gc.Spec
import Mathlib.Algebra.BigOperators.Group.Finset.Basic
import Mathlib.Algebra.BigOperators.Group.Finset.Piecewise
import Mathlib.Algebra.Order.BigOperators.Group.Finset
import Mathlib.Tactic.Linarith
import Mathlib.Tactic.Abel
/-
The invariant of reference counting: no node has more references than its count says.
-/
namespace Voss.Gc
open Finset

/-- How often `n` occurs in a list. -/
def cnt (l : List Nat) (n : Nat) : Int := (l.count n : Int)

theorem cnt_nonneg (l : List Nat) (n : Nat) : 0 ≤ cnt l n := by simp [cnt]

@[simp] theorem cnt_nil (n : Nat) : cnt [] n = 0 := by simp [cnt]

theorem cnt_cons (a : Nat) (l : List Nat) (n : Nat) : cnt (a :: l) n = (if n = a then 1 else 0) + cnt l n := by
  unfold cnt
  rw [List.count_cons]
  by_cases h : n = a
  · subst h; simp; omega
  · have : (a == n) = false := by simp; exact fun e => h e.symm
    simp [h, this]

theorem cnt_pos {l : List Nat} {n : Nat} (h : n ∈ l) : 1 ≤ cnt l n := by
  unfold cnt
  have := List.count_pos_iff.2 h
  omega

theorem mem_of_cnt {l : List Nat} {n : Nat} (h : 0 < cnt l n) : n ∈ l := by
  unfold cnt at h
  exact List.count_pos_iff.1 (by omega)

theorem cnt_append (a b : List Nat) (n : Nat) : cnt (a ++ b) n = cnt a n + cnt b n := by
  simp [cnt]

namespace Heap

/-- A table is in use: some node refers to it. -/
def liveTab (h : Heap) (b : Bool) (t : Nat) : Bool :=
  (List.range (h.size + 1)).any fun a => decide (h.obj a = .tab b t)

/-- References to `n` from nodes. -/
def nodeRefs (h : Heap) (n : Nat) : Int := ∑ a ∈ range (h.size + 1), cnt (h.obj a).kids n

/-- References to `n` from tables in use. -/
def tabRefs (h : Heap) (b : Bool) (n : Nat) : Int :=
  ∑ t ∈ range (h.ntab b), if h.liveTab b t then cnt (h.tab b t) n else 0

def refs (h : Heap) (n : Nat) : Int := h.nodeRefs n + (h.tabRefs true n + h.tabRefs false n)

/-- The reference count of `n` allows `k` references. -/
def Fits (h : Heap) (n : Nat) (k : Int) : Prop :=
  if h.obj n = .free then k ≤ 0
  else if h.rc n = 0 then k ≤ 1
  else if h.rc n = 1 then k ≤ 2
  else h.rc n = 3

/-- Addresses outside of `1 ... size` are free, and the numbers of tables in use are below `ntab`. -/
structure Bounded (h : Heap) : Prop where
  obj : ∀ n, h.obj n ≠ .free → 1 ≤ n ∧ n ≤ h.size
  tab : ∀ n b t, h.obj n = .tab b t → t < h.ntab b

/-- With `ext n` more references to `n` from elsewhere, all reference counts are large enough. -/
def Counted (h : Heap) (ext : Nat → Int) : Prop := ∀ n, n ≠ 0 → h.Fits n (h.refs n + ext n)

/-- The free list is what it should be. -/
structure FreeOk (h : Heap) : Prop where
  nodup : h.freeList.Nodup
  mem : ∀ n, n ∈ h.freeList ↔ 1 ≤ n ∧ n ≤ h.size ∧ h.obj n = .free

theorem Fits.mono {h : Heap} {n : Nat} {k k' : Int} (hf : h.Fits n k) (hk : k' ≤ k) : h.Fits n k' := by
  unfold Fits at *
  split
  · rename_i h1; rw [if_pos h1] at hf; omega
  · rename_i h1
    rw [if_neg h1] at hf
    split
    · rename_i h2; rw [if_pos h2] at hf; omega
    · rename_i h2
      rw [if_neg h2] at hf
      split
      · rename_i h3; rw [if_pos h3] at hf; omega
      · rename_i h3; rw [if_neg h3] at hf; exact hf

theorem Counted.mono {h : Heap} {e e' : Nat → Int} (hc : h.Counted e) (hk : ∀ n, n ≠ 0 → e' n ≤ e n) :
    h.Counted e' := fun n hn => (hc n hn).mono (by have := hk n hn; omega)

theorem Counted.congr {h : Heap} {e e' : Nat → Int} (hc : h.Counted e) (hk : ∀ n, n ≠ 0 → e' n = e n) :
    h.Counted e' := hc.mono fun n hn => le_of_eq (hk n hn)

theorem nodeRefs_nonneg (h : Heap) (n : Nat) : 0 ≤ h.nodeRefs n :=
  Finset.sum_nonneg fun _ _ => cnt_nonneg _ _

theorem tabRefs_nonneg (h : Heap) (b : Bool) (n : Nat) : 0 ≤ h.tabRefs b n :=
  Finset.sum_nonneg fun _ _ => by split; exacts [cnt_nonneg _ _, le_refl _]

theorem refs_nonneg (h : Heap) (n : Nat) : 0 ≤ h.refs n := by
  have := h.nodeRefs_nonneg n; have := h.tabRefs_nonneg true n; have := h.tabRefs_nonneg false n
  unfold refs; omega

theorem liveTab_iff {h : Heap} (hb : h.Bounded) (b : Bool) (t : Nat) :
    h.liveTab b t = true ↔ ∃ a, h.obj a = .tab b t := by
  unfold liveTab
  rw [List.any_eq_true]
  constructor
  · rintro ⟨a, -, ha⟩
    exact ⟨a, by simpa using ha⟩
  · rintro ⟨a, ha⟩
    refine ⟨a, ?_, by simpa using ha⟩
    rw [List.mem_range]
    have := (hb.obj a (by rw [ha]; simp)).2
    omega

/-- A node with a reference is not free. -/
theorem Counted.notFree {h : Heap} {ext : Nat → Int} (hc : h.Counted ext) {n : Nat} (hn : n ≠ 0)
    (hr : 0 < h.refs n + ext n) : h.obj n ≠ .free := by
  intro hf
  have := hc n hn
  unfold Fits at this
  rw [if_pos hf] at this
  omega

theorem nodeRefs_pos {h : Heap} (hb : h.Bounded) {a n : Nat} (hk : n ∈ (h.obj a).kids) : 0 < h.nodeRefs n := by
  have ha : h.obj a ≠ .free := by intro e; rw [e] at hk; simp [Obj.kids] at hk
  have hmem : a ∈ range (h.size + 1) := by rw [mem_range]; have := (hb.obj a ha).2; omega
  have := Finset.single_le_sum (f := fun a => cnt (h.obj a).kids n) (fun i _ => cnt_nonneg _ _) hmem
  have h1 := cnt_pos hk
  unfold nodeRefs
  omega

theorem tabRefs_pos {h : Heap} (hb : h.Bounded) {a n t : Nat} {b : Bool} (ha : h.obj a = .tab b t)
    (hk : n ∈ h.tab b t) : 0 < h.tabRefs b n := by
  have hmem : t ∈ range (h.ntab b) := by rw [mem_range]; exact hb.tab a b t ha
  have := Finset.single_le_sum (f := fun t => if h.liveTab b t then cnt (h.tab b t) n else 0)
    (fun i _ => by split; exacts [cnt_nonneg _ _, le_refl _]) hmem
  have h1 := cnt_pos hk
  have h2 := (liveTab_iff hb b t).2 ⟨a, ha⟩
  unfold tabRefs
  simp only [h2, if_true] at this
  omega

theorem refs_pos_kid {h : Heap} (hb : h.Bounded) {a n : Nat} (hk : n ∈ (h.obj a).kids) : 0 < h.refs n := by
  have := nodeRefs_pos hb hk
  have := h.tabRefs_nonneg true n; have := h.tabRefs_nonneg false n
  unfold refs; omega

theorem refs_pos_tab {h : Heap} (hb : h.Bounded) {a n t : Nat} {b : Bool} (ha : h.obj a = .tab b t)
    (hk : n ∈ h.tab b t) : 0 < h.refs n := by
  have h1 := tabRefs_pos hb ha hk
  have := h.nodeRefs_nonneg n
  have := h.tabRefs_nonneg true n; have := h.tabRefs_nonneg false n
  unfold refs; cases b <;> omega

/-- One reference to `a`. -/
def one (a n : Nat) : Int := if n = a then 1 else 0

theorem tabRefs_le {h h' : Heap} {b : Bool} (n : Nat) (hn : h'.ntab b = h.ntab b)
    (hl : ∀ t, t < h.ntab b → h'.liveTab b t = true → h.liveTab b t = true ∧ cnt (h'.tab b t) n ≤ cnt (h.tab b t) n) :
    h'.tabRefs b n ≤ h.tabRefs b n := by
  unfold tabRefs
  rw [hn]
  apply Finset.sum_le_sum
  intro t ht
  by_cases h1 : h'.liveTab b t = true
  · have := hl t (by simpa using ht) h1
    rw [if_pos h1, if_pos this.1]
    exact this.2
  · rw [if_neg h1]
    split
    · exact cnt_nonneg _ _
    · exact le_refl _

theorem nodeRefs_put (h : Heap) (a : Nat) (o : Obj) (ha : a ≤ h.size) (n : Nat) :
    (h.put a o).nodeRefs n = h.nodeRefs n - cnt (h.obj a).kids n + cnt o.kids n := by
  have hmem : a ∈ range (h.size + 1) := by rw [mem_range]; omega
  unfold nodeRefs put
  dsimp only
  rw [← Finset.add_sum_erase _ _ hmem, ← Finset.add_sum_erase (range (h.size + 1)) (fun a => cnt (h.obj a).kids n) hmem]
  have : ∑ x ∈ (range (h.size + 1)).erase a, cnt (upd h.obj a o x).kids n
      = ∑ x ∈ (range (h.size + 1)).erase a, cnt (h.obj x).kids n := by
    apply Finset.sum_congr rfl
    intro x hx
    rw [Finset.mem_erase] at hx
    simp [upd, hx.1]
  rw [this]
  simp [upd]
  omega

theorem upd_self {α : Type} (f : Nat → α) (n : Nat) (v : α) : upd f n v n = v := by simp [upd]

theorem upd_ne {α : Type} (f : Nat → α) {n m : Nat} (v : α) (hm : m ≠ n) : upd f n v m = f m := by simp [upd, hm]

/-- The tables an object refers to are in use. -/
def TabOk (h : Heap) (o : Obj) : Prop := ∀ b t, o = .tab b t → t < h.ntab b ∧ h.liveTab b t = true

theorem Bounded.put {h : Heap} (hb : h.Bounded) {a : Nat} {o : Obj} (ha : h.obj a ≠ .free) (ht : h.TabOk o) :
    (h.put a o).Bounded := by
  constructor
  · intro n hn
    by_cases e : n = a
    · subst e; exact hb.obj _ ha
    · refine hb.obj n ?_
      simpa [Heap.put, upd, e] using hn
  · intro n b t hn
    by_cases e : n = a
    · subst e
      have : o = .tab b t := by simpa [Heap.put, upd] using hn
      exact (ht b t this).1
    · refine hb.tab n b t ?_
      simpa [Heap.put, upd, e] using hn

theorem liveTab_put {h : Heap} (hb : h.Bounded) {a : Nat} {o : Obj} (ha : h.obj a ≠ .free) (ht : h.TabOk o) {b : Bool}
    {t : Nat} (hl : (h.put a o).liveTab b t = true) : h.liveTab b t = true := by
  rw [liveTab_iff (hb.put ha ht)] at hl
  obtain ⟨x, hx⟩ := hl
  by_cases e : x = a
  · subst e
    have : o = .tab b t := by simpa [Heap.put, upd] using hx
    exact (ht b t this).2
  · rw [liveTab_iff hb]
    exact ⟨x, by simpa [Heap.put, upd, e] using hx⟩

theorem refs_put {h : Heap} (hb : h.Bounded) {a : Nat} {o : Obj} (ha : h.obj a ≠ .free) (ht : h.TabOk o) (n : Nat) :
    (h.put a o).refs n ≤ h.refs n - cnt (h.obj a).kids n + cnt o.kids n := by
  have h1 := nodeRefs_put h a o (hb.obj a ha).2 n
  have h2 : ∀ b, (h.put a o).tabRefs b n ≤ h.tabRefs b n := fun b =>
    tabRefs_le n rfl fun t _ hl => ⟨liveTab_put hb ha ht hl, le_refl _⟩
  have := h2 true; have := h2 false
  unfold refs
  omega

theorem Counted.put {h : Heap} {ext : Nat → Int} (hc : h.Counted ext) (hb : h.Bounded) {a : Nat} {o : Obj}
    (ha : h.obj a ≠ .free) (ho : o ≠ .free) (ht : h.TabOk o) :
    (h.put a o).Counted (fun n => ext n + cnt (h.obj a).kids n - cnt o.kids n) := by
  intro n hn
  have h1 := hc n hn
  have h2 := refs_put hb ha ht n
  have h3 : ((h.put a o).obj n = .free) ↔ (h.obj n = .free) := by
    by_cases e : n = a
    · subst e; simp [Heap.put, upd, ha, ho]
    · simp [Heap.put, upd, e]
  refine Fits.mono (k := h.refs n + ext n) ?_ (by dsimp only; omega)
  unfold Fits at *
  simp only [h3]
  exact h1

theorem FreeOk.put {h : Heap} (hf : h.FreeOk) {a : Nat} {o : Obj} (ha : h.obj a ≠ .free) (ho : o ≠ .free) :
    (h.put a o).FreeOk := by
  refine ⟨hf.nodup, fun n => ?_⟩
  rw [show (h.put a o).freeList = h.freeList from rfl, hf.mem n]
  by_cases e : n = a
  · subst e; simp [Heap.put, upd, ha, ho]
  · simp [Heap.put, upd, e]

theorem refs_rc (h : Heap) (rc : Nat → Nat) (n : Nat) : ({ h with rc := rc } : Heap).refs n = h.refs n := rfl

theorem Fits.rc {h : Heap} {n : Nat} {k : Int} (hf : h.Fits n k) (ha : h.obj n ≠ .free) :
    h.rc n = 0 ∧ k ≤ 1 ∨ h.rc n = 1 ∧ k ≤ 2 ∨ h.rc n = 3 := by
  unfold Fits at hf
  rw [if_neg ha] at hf
  split at hf
  · exact Or.inl ⟨‹_›, hf⟩
  · split at hf
    · exact Or.inr (Or.inl ⟨‹_›, hf⟩)
    · exact Or.inr (Or.inr hf)

theorem Counted.inc {h : Heap} {ext : Nat → Int} (hc : h.Counted ext) {a : Nat} (ha : h.obj a ≠ .free) :
    (h.inc a).Counted (fun n => ext n + one a n) := by
  intro n hn
  have h1 := hc n hn
  by_cases e : n = a
  · subst e
    have h2 := h1.rc ha
    have hr : (h.inc n).refs n = h.refs n := rfl
    rw [hr]
    unfold Fits
    rw [if_neg (show (h.inc n).obj n ≠ .free from ha)]
    have h3 : (h.inc n).rc n = incBits (h.rc n) := by simp [Heap.inc, upd]
    rw [h3]
    rcases h2 with ⟨h2, h4⟩ | ⟨h2, h4⟩ | h2
    · rw [h2]; simp [incBits, one]; omega
    · rw [h2]; simp [incBits]
    · rw [h2]; simp [incBits]
  · have hr : (h.inc a).refs n = h.refs n := rfl
    rw [hr]
    unfold Fits at *
    rw [show (h.inc a).obj n = h.obj n from rfl, show (h.inc a).rc n = h.rc n by simp [Heap.inc, upd, e]]
    simpa [one, e] using h1

theorem Counted.setRc3 {h : Heap} {ext : Nat → Int} (hc : h.Counted ext) {a : Nat} (ha : h.obj a ≠ .free) (c : Int) :
    (h.setRc a 3).Counted (fun n => ext n + c * one a n) := by
  intro n hn
  have h1 := hc n hn
  rw [show (h.setRc a 3).refs n = h.refs n from rfl]
  unfold Fits at *
  rw [show (h.setRc a 3).obj n = h.obj n from rfl]
  by_cases e : n = a
  · subst e
    rw [if_neg ha, show (h.setRc n 3).rc n = 3 by simp [Heap.setRc, upd]]
    simp
  · rw [show (h.setRc a 3).rc n = h.rc n by simp [Heap.setRc, upd, e]]
    simpa [one, e] using h1

theorem Counted.pinned {h : Heap} {ext : Nat → Int} (hc : h.Counted ext) {a : Nat} (ha : h.obj a ≠ .free)
    (h3 : h.rc a = 3) (c : Int) : h.Counted (fun n => ext n + c * one a n) := by
  intro n hn
  have h1 := hc n hn
  by_cases e : n = a
  · subst e
    unfold Fits
    rw [if_neg ha, h3]
    simp
  · simpa [one, e] using h1

/-- The address `Heap.new` hands out. -/
theorem new_spec {h : Heap} (hb : h.Bounded) (hf : h.FreeOk) (o : Obj) :
    (h.new o).2 ≠ 0 ∧ h.obj (h.new o).2 = .free ∧ (h.new o).1.obj = upd h.obj (h.new o).2 o ∧
    (h.new o).1.rc = upd h.rc (h.new o).2 0 ∧ (h.new o).1.tab = h.tab ∧ (h.new o).1.ntab = h.ntab ∧
    h.size ≤ (h.new o).1.size ∧ (h.new o).2 ≤ (h.new o).1.size := by
  unfold new
  cases hl : h.freeList with
  | nil =>
    refine ⟨by simp, ?_, rfl, rfl, rfl, rfl, by simp, by simp⟩
    by_contra hne
    have := (hb.obj _ hne).2
    simp at this
  | cons a fl =>
    have := (hf.mem a).1 (by rw [hl]; simp)
    exact ⟨by simp; omega, this.2.2, rfl, rfl, rfl, rfl, le_refl _, this.2.1⟩

theorem Bounded.new {h : Heap} (hb : h.Bounded) (hf : h.FreeOk) {o : Obj} (ht : h.TabOk o) : (h.new o).1.Bounded := by
  obtain ⟨n1, n2, n3, n4, n5, n6, n7, n8⟩ := new_spec hb hf o
  constructor
  · intro n hn
    rw [n3] at hn
    by_cases e : n = (h.new o).2
    · rw [e]; omega
    · have := hb.obj n (by simpa [upd, e] using hn); omega
  · intro n b t hn
    rw [n3] at hn
    rw [n6]
    by_cases e : n = (h.new o).2
    · exact (ht b t (by simpa [upd, e] using hn)).1
    · exact hb.tab n b t (by simpa [upd, e] using hn)

theorem liveTab_new {h : Heap} (hb : h.Bounded) (hf : h.FreeOk) {o : Obj} (ht : h.TabOk o) {b : Bool} {t : Nat}
    (hl : (h.new o).1.liveTab b t = true) : h.liveTab b t = true := by
  obtain ⟨n1, n2, n3, n4, n5, n6, n7, n8⟩ := new_spec hb hf o
  rw [liveTab_iff (hb.new hf ht)] at hl
  obtain ⟨x, hx⟩ := hl
  rw [n3] at hx
  by_cases e : x = (h.new o).2
  · exact (ht b t (by simpa [upd, e] using hx)).2
  · rw [liveTab_iff hb]
    exact ⟨x, by simpa [upd, e] using hx⟩

theorem nodeRefs_new {h : Heap} (hb : h.Bounded) (hf : h.FreeOk) (o : Obj) (n : Nat) :
    (h.new o).1.nodeRefs n = h.nodeRefs n + cnt o.kids n := by
  cases hl : h.freeList with
  | nil =>
    have hfree : h.obj (h.size + 1) = .free := by
      by_contra hne
      have := (hb.obj _ hne).2
      simp at this
    unfold new nodeRefs
    rw [hl]
    dsimp only
    rw [Finset.sum_range_succ]
    congr 1
    · apply Finset.sum_congr rfl
      intro x hx
      rw [mem_range] at hx
      rw [upd_ne _ _ (by omega)]
    · rw [upd_self]
  | cons a fl =>
    have ha := (hf.mem a).1 (by rw [hl]; simp)
    have h1 := nodeRefs_put h a o ha.2.1 n
    rw [ha.2.2] at h1
    have h2 : (h.new o).1.nodeRefs n = (h.put a o).nodeRefs n := by
      unfold new; rw [hl]; rfl
    rw [h2, h1]
    simp [Obj.kids]

theorem refs_new {h : Heap} (hb : h.Bounded) (hf : h.FreeOk) {o : Obj} (ht : h.TabOk o) (n : Nat) :
    (h.new o).1.refs n ≤ h.refs n + cnt o.kids n := by
  obtain ⟨n1, n2, n3, n4, n5, n6, n7, n8⟩ := new_spec hb hf o
  have h1 := nodeRefs_new hb hf o n
  have h2 : ∀ b, (h.new o).1.tabRefs b n ≤ h.tabRefs b n := fun b =>
    tabRefs_le n (by rw [n6]) fun t _ hl => ⟨liveTab_new hb hf ht hl, by rw [n5]⟩
  have := h2 true; have := h2 false
  unfold refs
  omega

theorem Counted.new {h : Heap} {ext : Nat → Int} (hc : h.Counted ext) (hb : h.Bounded) (hf : h.FreeOk) {o : Obj}
    (ho : o ≠ .free) (ht : h.TabOk o) :
    (h.new o).1.Counted (fun n => ext n - cnt o.kids n + one (h.new o).2 n) := by
  obtain ⟨n1, n2, n3, n4, n5, n6, n7, n8⟩ := new_spec hb hf o
  intro n hn
  have h1 := hc n hn
  have h2 := refs_new hb hf ht n
  by_cases e : n = (h.new o).2
  · unfold Fits
    rw [n3, n4, e, upd_self, if_neg ho, upd_self, if_pos rfl]
    unfold Fits at h1
    rw [e, if_pos n2] at h1
    rw [e] at h2
    simp only [one, if_true]
    omega
  · refine Fits.mono (k := h.refs n + ext n) ?_ (by simp only [one, e, if_false]; omega)
    unfold Fits at *
    rw [n3, n4, upd_ne _ _ e, upd_ne _ _ e]
    exact h1

theorem FreeOk.new {h : Heap} (hb : h.Bounded) (hf : h.FreeOk) {o : Obj} (ho : o ≠ .free) : (h.new o).1.FreeOk := by
  cases hl : h.freeList with
  | nil =>
    have hm := hf.mem
    rw [hl] at hm
    unfold Heap.new
    rw [hl]
    refine ⟨by simp, fun n => ?_⟩
    have := hm n
    simp only [List.not_mem_nil, false_iff, not_and] at this ⊢
    intro hn1 hn2
    by_cases e : n = h.size + 1
    · rw [e, upd_self]; exact ho
    · rw [upd_ne _ _ e]; exact this hn1 (by omega)
  | cons a fl =>
    have hm := hf.mem
    have hnd := hf.nodup
    rw [hl] at hm hnd
    unfold Heap.new
    rw [hl]
    refine ⟨(List.nodup_cons.1 hnd).2, fun n => ?_⟩
    dsimp only
    by_cases e : n = a
    · subst e
      rw [upd_self]
      simp [ho, (List.nodup_cons.1 hnd).1]
    · rw [upd_ne _ _ e, ← hm n]
      simp [e]

end Heap
end Voss.Gc
