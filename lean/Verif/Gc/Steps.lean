import Verif.Gc.Rules
import Mathlib.Data.List.Perm.Subperm
/-
Every operation keeps the invariant.
-/
namespace Voss.Gc
open Finset Heap

theorem cnt_subperm {l l' : List Nat} (h : l.Subperm l') (n : Nat) : cnt l n ≤ cnt l' n := by
  unfold cnt
  exact_mod_cast h.count_le n

theorem cnt_perm {l l' : List Nat} (h : l.Perm l') (n : Nat) : cnt l n = cnt l' n := by
  unfold cnt
  rw [h.count_eq]

namespace Sim
variable {h : Heap} {g : Graph} {e : Nat → Int} {ps : List Nat}

theorem tabRefs_setTab (h : Heap) (b : Bool) (t : Nat) (l : List Nat) (ht : t < h.ntab b) (hl : h.liveTab b t = true) (b' : Bool) (n : Nat) :
    ({ h with tab := fun b' i => if b' = b ∧ i = t then l else h.tab b' i } : Heap).tabRefs b' n
      = h.tabRefs b' n + if b' = b then cnt l n - cnt (h.tab b t) n else 0 := by
  by_cases hb : b' = b
  · subst hb
    have hmem : t ∈ range (h.ntab b') := by simpa using ht
    unfold tabRefs
    dsimp only
    rw [← Finset.add_sum_erase _ _ hmem, ← Finset.add_sum_erase (range (h.ntab b')) _ hmem]
    have h1 : ∑ x ∈ (range (h.ntab b')).erase t,
          (if ({ h with tab := fun b'' i => if b'' = b' ∧ i = t then l else h.tab b'' i } : Heap).liveTab b' x
            then cnt (if b' = b' ∧ x = t then l else h.tab b' x) n else 0)
        = ∑ x ∈ (range (h.ntab b')).erase t, (if h.liveTab b' x then cnt (h.tab b' x) n else 0) := by
      apply Finset.sum_congr rfl
      intro x hx
      rw [Finset.mem_erase] at hx
      simp only [hx.1, and_false, if_false]
      rfl
    rw [h1]
    have h2 : ({ h with tab := fun b'' i => if b'' = b' ∧ i = t then l else h.tab b'' i } : Heap).liveTab b' t = true := hl
    rw [h2, hl]
    simp
    omega
  · unfold tabRefs
    dsimp only
    simp only [hb, false_and, if_false, add_zero]
    rfl

theorem refs_setTab (h : Heap) (b : Bool) (t : Nat) (l : List Nat) (ht : t < h.ntab b) (hl : h.liveTab b t = true) (n : Nat) :
    ({ h with tab := fun b' i => if b' = b ∧ i = t then l else h.tab b' i } : Heap).refs n
      = h.refs n + (cnt l n - cnt (h.tab b t) n) := by
  have h1 := tabRefs_setTab h b t l ht hl true n
  have h2 := tabRefs_setTab h b t l ht hl false n
  have h3 : ({ h with tab := fun b' i => if b' = b ∧ i = t then l else h.tab b' i } : Heap).nodeRefs n = h.nodeRefs n := rfl
  unfold refs
  rw [h1, h2, h3]
  cases b <;> simp <;> omega

/-- A new contents for a table in use. -/
theorem setTab (hs : Sim h g e ps) {a : Nat} {b : Bool} {t : Nat} (ha : h.obj a = .tab b t) (l : List Nat) :
    Sim { h with tab := fun b' i => if b' = b ∧ i = t then l else h.tab b' i } (g.setTab b t l)
      (fun n => e n + cnt (g.tab b t) n - cnt l n) ps := by
  refine ⟨⟨hs.bounded.obj, hs.bounded.tab⟩, ⟨hs.free.nodup, hs.free.mem⟩, hs.ready, ?_, hs.obj, ?_, hs.pin⟩
  · intro n hn
    have h1 := hs.counted n hn
    have h2 := refs_setTab h b t l (hs.bounded.tab a b t ha) ((liveTab_iff hs.bounded b t).2 ⟨a, ha⟩) n
    rw [hs.tab a b t ha] at h2
    rw [h2]
    exact Fits.mono (h := h) h1 (by dsimp only; omega)
  · intro n b' t' hn
    show (if b' = b ∧ t' = t then l else h.tab b' t') = (if b' = b ∧ t' = t then l else g.tab b' t')
    split
    · rfl
    · exact hs.tab n b' t' hn

/-- A new table. -/
theorem newTab (hs : Sim h g e ps) {a : Nat} (b₀ : Bool) (l : List Nat) (ha : h.obj a ≠ .free) :
    Sim (({ h with
        tab := fun b i => if b = b₀ ∧ i = h.ntab b₀ then l else h.tab b i
        ntab := fun b => if b = b₀ then h.ntab b₀ + 1 else h.ntab b } : Heap).put a (.tab b₀ (h.ntab b₀)))
      ((g.setTab b₀ (h.ntab b₀) l).put a (.tab b₀ (h.ntab b₀)))
      (fun n => e n + cnt (h.obj a).kids n - cnt l n) ps := by
  have hbo : ∀ n b t, upd h.obj a (.tab b₀ (h.ntab b₀)) n = .tab b t → n = a ∧ b = b₀ ∧ t = h.ntab b₀ ∨ h.obj n = .tab b t := by
    intro n b t hn
    by_cases e : n = a
    · subst e; rw [upd_self] at hn; cases hn; exact Or.inl ⟨rfl, rfl, rfl⟩
    · rw [upd_ne _ _ e] at hn; exact Or.inr hn
  have hb' : (({ h with
        tab := fun b i => if b = b₀ ∧ i = h.ntab b₀ then l else h.tab b i
        ntab := fun b => if b = b₀ then h.ntab b₀ + 1 else h.ntab b } : Heap).put a (.tab b₀ (h.ntab b₀))).Bounded := by
    constructor
    · intro n hn
      by_cases e : n = a
      · subst e; exact hs.bounded.obj _ ha
      · refine hs.bounded.obj n ?_
        simpa [Heap.put, upd, e] using hn
    · intro n b t hn
      show t < if b = b₀ then h.ntab b₀ + 1 else h.ntab b
      rcases hbo n b t hn with ⟨-, rfl, rfl⟩ | h1
      · simp
      · have := hs.bounded.tab n b t h1
        split
        · rename_i e; subst e; omega
        · exact this
  generalize hh : (({ h with
        tab := fun b i => if b = b₀ ∧ i = h.ntab b₀ then l else h.tab b i
        ntab := fun b => if b = b₀ then h.ntab b₀ + 1 else h.ntab b } : Heap).put a (.tab b₀ (h.ntab b₀))) = h' at hb'
  have ho : h'.obj = upd h.obj a (.tab b₀ (h.ntab b₀)) := by rw [← hh]; rfl
  have ht : h'.tab = fun b i => if b = b₀ ∧ i = h.ntab b₀ then l else h.tab b i := by rw [← hh]; rfl
  have hnt : h'.ntab = fun b => if b = b₀ then h.ntab b₀ + 1 else h.ntab b := by rw [← hh]; rfl
  have hrc : h'.rc = h.rc := by rw [← hh]; rfl
  have hsz : h'.size = h.size := by rw [← hh]; rfl
  have hfl : h'.freeList = h.freeList := by rw [← hh]; rfl
  have hfree : ∀ n, h'.obj n = .free ↔ h.obj n = .free := by
    intro n
    rw [ho]
    by_cases e : n = a
    · subst e; simp [upd, ha]
    · simp [upd, e]
  have hlive : ∀ b t, (b, t) ≠ (b₀, h.ntab b₀) → h'.liveTab b t = true → h.liveTab b t = true := by
    intro b t hne hl
    obtain ⟨x, hx⟩ := (liveTab_iff hb' b t).1 hl
    rw [ho] at hx
    rcases hbo x b t hx with ⟨-, rfl, rfl⟩ | h1
    · exact absurd rfl hne
    · exact (liveTab_iff hs.bounded b t).2 ⟨x, h1⟩
  have hrefs : ∀ n, h'.refs n ≤ h.refs n - cnt (h.obj a).kids n + cnt l n := by
    intro n
    have h1 := nodeRefs_put h a (.tab b₀ (h.ntab b₀)) (hs.bounded.obj a ha).2 n
    have h2 : h'.nodeRefs n = (h.put a (.tab b₀ (h.ntab b₀))).nodeRefs n := by
      unfold nodeRefs; rw [ho, hsz]; rfl
    have h3 : ∀ b, b ≠ b₀ → h'.tabRefs b n ≤ h.tabRefs b n := by
      intro b hb
      refine tabRefs_le n (by rw [hnt]; simp [hb]) fun t _ hl => ⟨hlive b t (by simp [hb]) hl, ?_⟩
      rw [ht]; simp [hb]
    have h4 : h'.tabRefs b₀ n ≤ h.tabRefs b₀ n + cnt l n := by
      unfold tabRefs
      rw [hnt]
      simp only [if_true]
      rw [Finset.sum_range_succ]
      refine add_le_add ?_ ?_
      · apply Finset.sum_le_sum
        intro t htm
        rw [mem_range] at htm
        have hne : (b₀, t) ≠ (b₀, h.ntab b₀) := by simp; omega
        have htt : h'.tab b₀ t = h.tab b₀ t := by
          rw [ht]; simp; omega
        by_cases hl : h'.liveTab b₀ t = true
        · rw [if_pos hl, if_pos (hlive b₀ t hne hl), htt]
        · rw [if_neg hl]
          split
          exacts [cnt_nonneg _ _, le_refl _]
      · have htt : h'.tab b₀ (h.ntab b₀) = l := by rw [ht]; simp
        rw [htt]
        split
        · exact le_refl _
        · exact cnt_nonneg _ _
    have h5 : cnt (Obj.tab b₀ (h.ntab b₀)).kids n = 0 := by simp [Obj.kids]
    rw [h5] at h1
    unfold refs
    cases b₀
    · have := h3 true (by simp); omega
    · have := h3 false (by simp); omega
  refine ⟨hb', ⟨by rw [hfl]; exact hs.free.nodup, fun n => by rw [hfl, hs.free.mem, hsz, hfree]⟩, ?_, ?_, ?_, ?_, ?_⟩
  · intro n
    rw [ho]
    exact ready_upd hs.ready (o := .tab b₀ (h.ntab b₀)) trivial n
  · intro n hn
    have h1 := hs.counted n hn
    have h2 := hrefs n
    refine Fits.mono (k := h.refs n + e n) ?_ (by dsimp only; omega)
    unfold Fits at *
    simp only [hfree, hrc]
    exact h1
  · intro n hn
    rw [ho] at hn ⊢
    by_cases e : n = a
    · simp [Graph.put, upd, e]
    · have := hs.obj n
      simp only [Graph.put, upd, e, if_false] at *
      exact this hn
  · intro n b t hn
    rw [ho] at hn
    rw [ht]
    show _ = if b = b₀ ∧ t = h.ntab b₀ then l else g.tab b t
    dsimp only
    split
    · rfl
    · rename_i hne
      rcases hbo n b t hn with ⟨-, rfl, rfl⟩ | h1
      · simp at hne
      · exact hs.tab n b t h1
  · intro n hn
    rw [hrc]
    exact ⟨(hs.pin n hn).1, fun hx => (hs.pin n hn).2 ((hfree n).1 hx)⟩

/-- All caches are emptied. -/
theorem clean (hs : Sim h g e ps) :
    Sim { h with tab := fun b i => if b = false ∧ i < h.ntab false then [] else h.tab b i }
      { g with tab := fun b t => if b = true then g.tab b t else [] } e ps := by
  refine ⟨⟨hs.bounded.obj, hs.bounded.tab⟩, ⟨hs.free.nodup, hs.free.mem⟩, hs.ready, ?_, hs.obj, ?_, hs.pin⟩
  · intro n hn
    have h1 := hs.counted n hn
    refine Fits.mono (h := h) h1 ?_
    have h2 : ∀ b, ({ h with tab := fun b i => if b = false ∧ i < h.ntab false then [] else h.tab b i } : Heap).tabRefs b n
        ≤ h.tabRefs b n := by
      intro b
      refine tabRefs_le n rfl fun t _ hl => ⟨hl, ?_⟩
      dsimp only
      split
      · rw [cnt_nil]; exact cnt_nonneg _ _
      · exact le_refl _
    have h3 : ({ h with tab := fun b i => if b = false ∧ i < h.ntab false then [] else h.tab b i } : Heap).nodeRefs n = h.nodeRefs n := rfl
    have := h2 true; have := h2 false
    unfold refs
    omega
  · intro n b t hn
    have hlt := hs.bounded.tab n b t hn
    have := hs.tab n b t hn
    cases b with
    | true => simpa using this
    | false =>
      show (if false = false ∧ t < h.ntab false then [] else h.tab false t) = (if false = true then g.tab false t else [])
      simp [hlt]

/-- What can be reached in the heap and in the plain graph is the same. -/
theorem live_iff {roots : List Nat} (hs : Sim h g e ps) (he : ∀ n, cnt roots n ≤ e n) (n : Nat) :
    Live h.graph roots n ↔ Live g roots n := by
  constructor
  · intro hl
    induction hl with
    | root hr h0 => exact Live.root hr h0
    | @kid a n _ hk h0 ih =>
      have := hs.live he ih
      have hk' : n ∈ (h.obj a).kids := hk
      rw [this.2.1] at hk'
      exact Live.kid ih hk' h0
    | @tab a n b t _ ho hk h0 ih =>
      have := hs.live he ih
      have ho' : h.obj a = .tab b t := ho
      have hk' : n ∈ h.tab b t := hk
      rw [hs.tab a b t ho'] at hk'
      rw [this.2.1] at ho'
      exact Live.tab ih ho' hk' h0
  · intro hl
    induction hl with
    | root hr h0 => exact Live.root hr h0
    | @kid a n hla hk h0 ih =>
      have := hs.live he hla
      refine Live.kid ih ?_ h0
      show n ∈ (h.obj a).kids
      rw [this.2.1]; exact hk
    | @tab a n b t hla ho hk h0 ih =>
      have := hs.live he hla
      have ho' : h.obj a = .tab b t := by rw [this.2.1]; exact ho
      refine Live.tab ih ho' ?_ h0
      show n ∈ h.tab b t
      rw [hs.tab a b t ho']; exact hk

end Sim

/-- The invariant: the references held outside are accounted for. -/
def Inv (s : St) (g : Graph) : Prop :=
  Sim s.heap g (cnt (s.roots.map Prod.fst)) ((s.roots.filter Prod.snd).map Prod.fst)

theorem mem_pins {rs : List (Nat × Bool)} {n : Nat} : n ∈ (rs.filter Prod.snd).map Prod.fst ↔ (n, true) ∈ rs := by
  simp [List.mem_map, List.mem_filter]

theorem spine_live {g : Graph} {roots : List Nat} (l : List Nat) : ∀ {n : Nat}, g.Spine n l → Live g roots n →
    ∀ a ∈ l, Live g roots a := by
  induction l with
  | nil => intro n _ _ a ha; cases ha
  | cons b l ih =>
    intro n hs hl a ha
    obtain ⟨x, hx, hb, ho, hs'⟩ := hs
    rcases List.mem_cons.1 ha with e | e
    · subst e
      exact Live.kid hl (by rw [ho]; simp [Obj.kids]) hb
    · exact ih hs' (Live.kid hl (by rw [ho]; simp [Obj.kids]) hx) a e

theorem subperm_map {l l' : List (Nat × Bool)} (h : l.Subperm l') : (l.map Prod.fst).Subperm (l'.map Prod.fst) := by
  obtain ⟨m, hp, hs⟩ := h
  exact ⟨m.map Prod.fst, hp.map _, hs.map _⟩

theorem cnt_filter (l : List Nat) {n : Nat} (hn : n ≠ 0) : cnt (l.filter (· ≠ 0)) n = cnt l n := by
  unfold cnt
  rw [List.count_filter (by simpa using hn)]

theorem rootsAfter_other {fresh : Nat → Nat} {roots : List (Nat × Bool)} {op : Op}
    (h : rootsAfter fresh roots op = roots) {k : Nat} {s : St} (hs : s.roots = roots) (hf : s.heap.nextAddr = fresh) {g : Graph} {h' : Heap}
    (hr : runHeap k s.heap s.roots op = some h')
    (hi : Sim h' g (cnt (roots.map Prod.fst)) ((roots.filter Prod.snd).map Prod.fst)) :
    ∃ s', run k s op = some s' ∧ Inv s' g := by
  subst hs hf
  refine ⟨_, by rw [run, hr], ?_⟩
  unfold Inv
  rw [h]
  exact hi

/-- Every operation that makes sense can be done, and keeps the invariant. -/
theorem step_ok {s : St} {g : Graph} {op : Op} {k : Nat} (hi : Inv s g) (hp : Pre g s.roots op) (hk : s.heap.size + 5 < k) :
    ∃ s', run k s op = some s' ∧ Inv s' (effect s.heap.nextAddr s.heap.ntab g op) := by
  obtain ⟨h, roots⟩ := s
  have hs : Sim h g (cnt (roots.map Prod.fst)) ((roots.filter Prod.snd).map Prod.fst) := hi
  have he : ∀ n, 0 ≤ cnt (roots.map Prod.fst) n := fun n => cnt_nonneg _ _
  have hlive : ∀ {n}, Live g (roots.map Prod.fst) n → n ≠ 0 ∧ h.obj n = g.obj n ∧ h.obj n ≠ .free :=
    fun hl => hs.live (fun _ => le_refl _) hl
  have hk' : h.size + 5 < k := hk
  have hkids : ∀ {redex l r : Nat}, h.obj redex = .app l r → ∀ n, cnt (h.obj redex).kids n = cnt [l, r] n := by
    intro redex l r ho n; rw [ho]; rfl
  cases op with
  | link o =>
    obtain ⟨ho, ht, hsub⟩ := hp
    have h1 := hs.new ho (tabOk_of_ne ht)
    have hperm := List.subperm_append_diff_self_of_count_le (l₁ := (o.kids.filter (· ≠ 0)).map fun n => (n, false))
      (l₂ := roots) (fun x _ => hsub.count_le x)
    refine ⟨_, rfl, ?_⟩
    unfold Inv
    show Sim (h.new o).1 (g.put (h.nextAddr 0) o) (cnt (((h.nextAddr 0, false) :: roots.diff _).map Prod.fst)) _
    rw [(nextAddr_new o).1] at h1
    refine (h1.mono fun n hn => ?_).pins ?_
    · have h2 := cnt_perm (hperm.map Prod.fst) n
      rw [List.map_append, cnt_append, List.map_map] at h2
      have h3 : List.map (Prod.fst ∘ fun n => ((n, false) : Nat × Bool)) (o.kids.filter (· ≠ 0)) = o.kids.filter (· ≠ 0) := by
        rw [show (Prod.fst ∘ fun n => ((n, false) : Nat × Bool)) = id from rfl, List.map_id]
      rw [h3, cnt_filter _ hn] at h2
      rw [List.map_cons, cnt_cons']
      dsimp only
      omega
    · intro n hn
      rw [mem_pins] at hn ⊢
      rcases List.mem_cons.1 hn with e | e
      · cases e
      · exact List.diff_subset _ _ e
  | dup n =>
    have hl := hlive (n := n) hp
    refine ⟨_, rfl, ?_⟩
    refine ((hs.inc hl.2.2).mono fun m _ => ?_).pins ?_
    · show cnt (((n, false) :: roots).map Prod.fst) m ≤ _
      rw [List.map_cons, cnt_cons']; dsimp only; omega
    · intro m hm
      rw [mem_pins] at hm ⊢
      rcases List.mem_cons.1 hm with e | e
      · cases e
      · exact e
  | protect n pin =>
    have hl := hlive (n := n) hp
    refine ⟨_, rfl, ?_⟩
    refine ((hs.setRc3 hl.2.2 1).mono fun m _ => ?_).pins ?_
    · show cnt (((n, pin) :: roots).map Prod.fst) m ≤ _
      rw [List.map_cons, cnt_cons']; dsimp only; omega
    · intro m hm
      rw [mem_pins] at hm
      rw [List.mem_cons, mem_pins]
      rcases List.mem_cons.1 hm with e | e
      · cases e; exact Or.inl rfl
      · exact Or.inr e
  | forget rs =>
    have hp' : rs.Subperm roots := hp
    refine ⟨_, rfl, ?_⟩
    refine (hs.mono fun m _ => cnt_subperm (subperm_map hp') m).pins ?_
    intro m hm
    rw [mem_pins] at hm ⊢
    exact hp'.subset hm
  | giveUp n =>
    have hp' : (n, false) ∈ roots := hp
    have hperm := List.perm_cons_erase hp'
    have hs' : Sim h g (fun m => cnt ((roots.erase (n, false)).map Prod.fst) m + one n m) ((roots.filter Prod.snd).map Prod.fst) := by
      refine hs.mono fun m _ => ?_
      have := cnt_perm (hperm.map Prod.fst) m
      rw [List.map_cons, cnt_cons'] at this
      dsimp only at this
      omega
    obtain ⟨h', e1, s1⟩ := hs'.dec (k := k) (fun m => cnt_nonneg _ _) (by omega)
    refine ⟨⟨h', roots.erase (n, false)⟩, by simp only [run, runHeap, e1, rootsAfter], ?_⟩
    refine Sim.pins (ps := (roots.filter Prod.snd).map Prod.fst) s1 ?_
    intro m hm
    rw [mem_pins] at hm ⊢
    exact List.mem_of_mem_erase hm
  | collect =>
    have hroots : ∀ n ∈ roots.map Prod.fst, n ≠ 0 → h.obj n ≠ .free := fun n hn h0 => (hlive (Live.root hn h0)).2.2
    obtain ⟨h', e1, r⟩ := gc_ok (k := k) hs.bounded hs.counted he hroots (by omega)
    refine rootsAfter_other (s := ⟨h, roots⟩) (h' := h') rfl rfl rfl (by exact e1) ?_
    have hl : ∀ n, h'.obj n ≠ .free → Live h.graph (roots.map Prod.fst) n := by
      intro n hn
      by_contra hd
      exact hn (r.dead n hd)
    refine ⟨⟨?_, ?_⟩, r.free, ?_, r.counted, ?_, ?_, ?_⟩
    · intro n hn
      rw [r.size]
      have := r.live n (hl n hn)
      exact hs.bounded.obj n (this ▸ hn)
    · intro n b t hn
      rw [r.ntab]
      have := r.live n (hl n (by rw [hn]; simp))
      exact hs.bounded.tab n b t (this ▸ hn)
    · intro n
      rcases r.shrink n with e | e
      · rw [e]; exact hs.ready n
      · rw [e]; exact ⟨by simp, by simp⟩
    · intro n hn
      have := r.live n (hl n hn)
      rw [this] at hn ⊢
      exact hs.obj n hn
    · intro n b t hn
      have hln := hl n (by rw [hn]; simp)
      have := r.live n hln
      rw [this] at hn
      rw [r.tab n b t hln hn]
      exact hs.tab n b t hn
    · intro n hn
      have hpn := hs.pin n hn
      rw [mem_pins] at hn
      refine ⟨r.pinned n hn, ?_⟩
      have h0 : n ≠ 0 := fun e => by have := (hs.bounded.obj n hpn.2).1; omega
      rw [r.live n (Live.root (List.mem_map_of_mem hn) h0)]
      exact hpn.2
  | fire redex oldLeft c as =>
    obtain ⟨hl, hlen, hsp, ho⟩ := hp
    have hr := hlive hl
    obtain ⟨h1, e1, s1, z1⟩ := rebuild_ok (c := c) (as := as) hs hlen (hr.2.1.trans ho)
      (fun a ha => (hlive (spine_live as.reverse hsp hl a (by simpa using ha))).2.2)
    obtain ⟨h2, e2, s2⟩ := s1.decs (k := k) he (by omega)
    refine rootsAfter_other (s := ⟨h, roots⟩) (h' := h2) rfl rfl rfl ?_ s2
    simp only [runHeap, fire, e1, finish]
    exact e2
  | project redex np oldLeft lastArg =>
    obtain ⟨hl, ho, hnp⟩ := hp
    have hr := hlive hl
    have ho' := hr.2.1.trans ho
    have s1 := hs.overwrite hr.2.2 (hlive hnp).2.2 he
    obtain ⟨h2, e2, s2⟩ := (s1.mono (e' := fun n => cnt (roots.map Prod.fst) n + cnt [oldLeft, lastArg] n)
      fun n _ => by rw [hkids ho']).decs (k := k) he (by
        have : (h.overwrite redex np).size = h.size := by
          unfold Heap.overwrite incKids; split <;> try rfl
          split <;> rfl
        omega)
    exact rootsAfter_other (s := ⟨h, roots⟩) (h' := h2) rfl rfl rfl e2 s2
  | cutRight redex void oldLeft lastArg =>
    obtain ⟨hl, ho, hv⟩ := hp
    have hr := hlive hl
    have ho' := hr.2.1.trans ho
    have hpv := hs.pin void (mem_pins.2 hv)
    have s1 := hs.putApp ho' oldLeft void
    have s2 : Sim (h.put redex (.app oldLeft void)) (g.put redex (.app oldLeft void))
        (fun n => cnt (roots.map Prod.fst) n + one lastArg n) ((roots.filter Prod.snd).map Prod.fst) := by
      have hpv' := s1.pin void (mem_pins.2 hv)
      refine { s1 with counted := (s1.counted.pinned hpv'.2 hpv'.1 1).mono fun n _ => ?_ }
      omega
    obtain ⟨h2, e2, s3⟩ := s2.dec (k := k) he (by show h.size + 1 < k; omega)
    refine rootsAfter_other (s := ⟨h, roots⟩) (h' := h2) rfl rfl rfl ?_ s3
    simp only [runHeap, cutRight, ho', Obj.setRight]
    exact e2
  | cutLeft redex void oldLeft lastArg =>
    obtain ⟨hl, ho, hv⟩ := hp
    have hr := hlive hl
    have ho' := hr.2.1.trans ho
    have s1 := hs.putApp ho' void lastArg
    have s2 : Sim (h.put redex (.app void lastArg)) (g.put redex (.app void lastArg))
        (fun n => cnt (roots.map Prod.fst) n + one oldLeft n) ((roots.filter Prod.snd).map Prod.fst) := by
      have hpv' := s1.pin void (mem_pins.2 hv)
      refine { s1 with counted := (s1.counted.pinned hpv'.2 hpv'.1 1).mono fun n _ => ?_ }
      omega
    obtain ⟨h2, e2, s3⟩ := s2.dec (k := k) he (by show h.size + 1 < k; omega)
    refine rootsAfter_other (s := ⟨h, roots⟩) (h' := h2) rfl rfl rfl ?_ s3
    simp only [runHeap, cutLeft, ho', Obj.setLeft]
    exact e2
  | leaf redex v =>
    have hr := hlive (n := redex) hp
    have s1 := hs.put (o := .leaf v) hr.2.2 trivial (tabOk_of_ne (by simp))
    refine rootsAfter_other (s := ⟨h, roots⟩) (h' := h.put redex (.leaf v)) rfl rfl rfl rfl ?_
    refine s1.mono fun n _ => ?_
    have := cnt_nonneg (h.obj redex).kids n
    have h5 : cnt (Obj.leaf v).kids n = 0 := by simp [Obj.kids]
    show cnt (roots.map Prod.fst) n ≤ _
    omega
  | mkRef redex v oldLeft lastArg =>
    obtain ⟨hl, ho, hv⟩ := hp
    have hr := hlive hl
    have ho' := hr.2.1.trans ho
    have s1 := (hs.inc (hlive hv).2.2).newTab (a := redex) true [v] hr.2.2
    obtain ⟨h2, e2, s2⟩ := (s1.mono (e' := fun n => cnt (roots.map Prod.fst) n + cnt [oldLeft, lastArg] n)
      fun n _ => by
        rw [show ((h.inc v).obj redex) = h.obj redex from rfl, hkids ho', cnt_single]; omega).decs (k := k) he (by
        show h.size + 1 < k; omega)
    exact rootsAfter_other (s := ⟨h, roots⟩) (h' := h2) rfl rfl rfl e2 s2
  | deref redex t v lastArg =>
    obtain ⟨hl, ⟨l, ho⟩, hla, hot, hv, hv0⟩ := hp
    have hr := hlive hl
    have ho' := hr.2.1.trans ho
    have hll : Live g (roots.map Prod.fst) lastArg := Live.kid hl (by rw [ho]; simp [Obj.kids]) hla
    have hlv : Live g (roots.map Prod.fst) v := Live.tab hll hot hv hv0
    have s1 := (hs.inc hr.2.2).inc (a := v) (hlive hlv).2.2
    have s2 := s1.overwrite (a := redex) (np := v) hr.2.2 (hlive hlv).2.2 (fun n => by
      have := he n; simp only [one]; split <;> split <;> omega)
    obtain ⟨h2, e2, s3⟩ := (s2.mono (e' := fun n => cnt (roots.map Prod.fst) n + cnt [v, lastArg] n)
      fun n _ => by
        rw [show (((h.inc redex).inc v).obj redex) = h.obj redex from rfl, hkids ho', cnt_cons', cnt_cons', cnt_nil, cnt_cons',
          cnt_cons', cnt_nil]
        simp only [one]; split <;> split <;> split <;> split <;> omega).decs (k := k) he (by
        have : (((h.inc redex).inc v).overwrite redex v).size = h.size := by
          unfold Heap.overwrite incKids; split <;> try rfl
          split <;> rfl
        omega)
    exact rootsAfter_other (s := ⟨h, roots⟩) (h' := h2) rfl rfl rfl e2 s3
  | setRef redex t v void oldLeft =>
    obtain ⟨hl, ho, hv0, ⟨a, hla, hoa⟩, hvoid, x, hox⟩ := hp
    have hr := hlive hl
    have ho' := hr.2.1.trans ho
    have hlv : Live g (roots.map Prod.fst) v := Live.kid hl (by rw [ho]; simp [Obj.kids]) hv0
    have hpv := hs.pin void (mem_pins.2 hvoid)
    have s1 := (hs.setTab ((hlive hla).2.1.trans hoa) [v]).inc (a := v) (hlive hlv).2.2
    have s1' := s1.mono (e' := fun n => cnt (roots.map Prod.fst) n) fun n _ => by
      have := cnt_nonneg (g.tab true t) n
      rw [cnt_single]; omega
    have s2 := s1'.overwrite (a := redex) (np := void) hr.2.2 hpv.2 he
    obtain ⟨h2, e2, s3⟩ := (s2.mono (e' := fun n => cnt (roots.map Prod.fst) n + cnt [oldLeft, v] n)
      fun n _ => by
        rw [← hkids ho']; exact le_refl _).decs (k := k) he (by
        refine lt_of_le_of_lt (b := h.size + 1) ?_ (by omega)
        apply le_of_eq
        congr 1
        unfold Heap.overwrite incKids
        split <;> try rfl
        split <;> rfl)
    exact rootsAfter_other (s := ⟨h, roots⟩) (h' := h2) rfl rfl rfl e2 s3
  | cacheInsert redex t key np oldLeft lastArg kept =>
    obtain ⟨hl, ho, hkey, hnp, ⟨a, hla, hoa⟩, hkept⟩ := hp
    have hr := hlive hl
    have ho' := hr.2.1.trans ho
    have s1 := hs.overwrite hr.2.2 (hlive hnp).2.2 he
    have hoo : (h.overwrite redex np).obj = upd h.obj redex (h.obj np) := by
      unfold Heap.overwrite incKids; split <;> try rfl
      split <;> rfl
    have hne : a ≠ redex := by
      intro e; subst e
      rw [ho] at hoa; cases hoa
    have hoa' : (h.overwrite redex np).obj a = .tab false t := by
      rw [hoo, upd_ne _ _ hne]; exact (hlive hla).2.1.trans hoa
    have hal : ∀ x, h.obj x ≠ .free → (h.overwrite redex np).obj x ≠ .free := by
      intro x hx
      rw [hoo]
      by_cases e : x = redex
      · subst e; rw [upd_self]; exact (hlive hnp).2.2
      · rw [upd_ne _ _ e]; exact hx
    have s2 := s1.setTab hoa' (key :: redex :: kept)
    have s3 := s2.inc (a := key) (hal key (hlive hkey).2.2)
    have s4 := s3.inc (a := redex) (hal redex hr.2.2)
    obtain ⟨h2, e2, s5⟩ := (s4.mono (e' := fun n => cnt (roots.map Prod.fst) n + cnt [oldLeft, lastArg] n)
      fun n _ => by
        have h1 := cnt_subperm hkept n
        have h2 : (g.put redex (g.obj np)).tab false t = g.tab false t := rfl
        rw [h2, hkids ho', cnt_cons' key, cnt_cons' redex]
        omega).decs (k := k) he (by
        refine lt_of_le_of_lt (b := h.size + 1) ?_ (by omega)
        apply le_of_eq
        congr 1
        show (h.overwrite redex np).size = h.size
        unfold Heap.overwrite incKids
        split <;> try rfl
        split <;> rfl)
    exact rootsAfter_other (s := ⟨h, roots⟩) (h' := h2) rfl rfl rfl e2 s5
  | mkCache =>
    have s1 := hs.new (o := .leaf 0) trivial (tabOk_of_ne (by simp))
    obtain ⟨n1, n2, n3, n4, n5, n6, n7, n8⟩ := new_spec hs.bounded hs.free (.leaf 0)
    have hm : (h.new (.leaf 0)).1.obj (h.new (.leaf 0)).2 = .leaf 0 := by rw [n3, upd_self]
    have s2 := s1.newTab (a := (h.new (.leaf 0)).2) false [] (by rw [hm]; simp)
    refine ⟨_, rfl, ?_⟩
    have hg : ((g.put (h.new (.leaf 0)).2 (.leaf 0)).setTab false ((h.new (.leaf 0)).1.ntab false) []).put (h.new (.leaf 0)).2
        (.tab false ((h.new (.leaf 0)).1.ntab false)) = effect h.nextAddr h.ntab g .mkCache := by
      rw [n6, (nextAddr_new _).1]
      apply Graph.ext'
      · funext x
        simp only [effect, Graph.put, Graph.setTab, upd]
        split_ifs <;> rfl
      · rfl
    rw [hg] at s2
    refine (s2.mono fun n _ => ?_).pins ?_
    · show cnt (((h.nextAddr 0, false) :: roots).map Prod.fst) n ≤ _
      rw [List.map_cons, cnt_cons', (nextAddr_new _).1, ← (nextAddr_new (.leaf 0)).1, hm]
      simp only [Obj.kids, cnt_nil]
      omega
    · intro m hm
      rw [mem_pins] at hm ⊢
      rcases List.mem_cons.1 hm with e | e
      · cases e
      · exact e
  | cleanCaches redex v oldLeft lastArg =>
    obtain ⟨hl, ho⟩ := hp
    have hr := hlive hl
    have ho' := hr.2.1.trans ho
    have s1 := hs.clean.put (a := redex) (o := .leaf v) hr.2.2 trivial (tabOk_of_ne (by simp))
    obtain ⟨h2, e2, s2⟩ := (s1.mono (e' := fun n => cnt (roots.map Prod.fst) n + cnt [oldLeft, lastArg] n)
      fun n _ => by
        rw [← hkids ho']; simp only [Obj.kids, cnt_nil]; omega).decs (k := k) he (by show h.size + 1 < k; omega)
    exact rootsAfter_other (s := ⟨h, roots⟩) (h' := h2) rfl rfl rfl e2 s2

end Voss.Gc
