import Verif.Gc.Inv
/-
Giving up references: `dec_ref_cnt` under the invariant.
-/
namespace Voss.Gc
open Finset
namespace Heap

/-- The heap without the nodes in `D` (those being returned). -/
def mask (D : Finset Nat) (h : Heap) : Heap := { h with obj := fun n => if n ∈ D then .free else h.obj n }

/-- No node is under construction: there are no lambda nodes, and an empty head means an empty tail. -/
def Ready (h : Heap) : Prop := ∀ n, (∀ v b, h.obj n ≠ .lam v b) ∧ (∀ b, h.obj n = .cons 0 b → b = 0)

/-- Number of nodes in use. -/
def used (h : Heap) : Nat := ((range (h.size + 1)).filter fun a => h.obj a ≠ .free).card

/-- What giving up references does: some nodes become free, and tables, sizes and other nodes stay. -/
structure Shrunk (h h' : Heap) : Prop where
  size : h'.size = h.size
  tab : h'.tab = h.tab
  ntab : h'.ntab = h.ntab
  cmark : h'.cmark = h.cmark
  obj : ∀ n, h'.obj n = h.obj n ∨ h'.obj n = .free
  pinned : ∀ n, h.rc n = 3 → h'.obj n = h.obj n ∧ h'.rc n = 3

theorem Shrunk.refl (h : Heap) : Shrunk h h := ⟨rfl, rfl, rfl, rfl, fun _ => Or.inl rfl, fun _ e => ⟨rfl, e⟩⟩

theorem Shrunk.trans {h h' h'' : Heap} (a : Shrunk h h') (b : Shrunk h' h'') : Shrunk h h'' := by
  refine ⟨b.size.trans a.size, b.tab.trans a.tab, b.ntab.trans a.ntab, b.cmark.trans a.cmark, ?_, ?_⟩
  · intro n
    rcases b.obj n with h1 | h1
    · rcases a.obj n with h2 | h2
      · exact Or.inl (h1.trans h2)
      · exact Or.inr (h1.trans h2)
    · exact Or.inr h1
  · intro n h3
    have h1 := a.pinned n h3
    have h2 := b.pinned n h1.2
    exact ⟨h2.1.trans h1.1, h2.2⟩

theorem Shrunk.ready {h h' : Heap} (hs : Shrunk h h') (hr : h.Ready) : h'.Ready := by
  intro n
  rcases hs.obj n with e | e
  · rw [e]; exact hr n
  · rw [e]; exact ⟨by simp, by simp⟩

theorem Bounded.mask {h : Heap} (hb : h.Bounded) (D : Finset Nat) : (h.mask D).Bounded := by
  constructor
  · intro n hn
    refine hb.obj n ?_
    intro e
    apply hn
    simp [Heap.mask, e]
  · intro n b t hn
    refine hb.tab n b t ?_
    simp only [Heap.mask] at hn
    split at hn
    · cases hn
    · exact hn

theorem Shrunk.bounded {h h' : Heap} (hs : Shrunk h h') (hb : h.Bounded) : h'.Bounded := by
  constructor
  · intro n hn
    rw [hs.size]
    rcases hs.obj n with e | e
    · exact hb.obj n (e ▸ hn)
    · exact absurd e hn
  · intro n b t hn
    rw [hs.ntab]
    rcases hs.obj n with e | e
    · exact hb.tab n b t (e ▸ hn)
    · rw [e] at hn; cases hn

theorem refs_mask_insert {h : Heap} (hb : h.Bounded) (D : Finset Nat) {a : Nat} (ha : (h.mask D).obj a ≠ .free) (n : Nat) :
    (h.mask (insert a D)).refs n ≤ (h.mask D).refs n - cnt (h.obj a).kids n := by
  have hbm := hb.mask D
  have hD : a ∉ D := fun hm => ha (by simp [mask, hm])
  have e1 : h.mask (insert a D) = (h.mask D).put a .free := by
    unfold mask put
    congr 1
    funext m
    by_cases e : m = a
    · subst e; simp [upd]
    · simp [upd, e]
  have h1 := refs_put (o := .free) hbm ha (fun b t e => by cases e) n
  rw [← e1] at h1
  have e2 : (h.mask D).obj a = h.obj a := by simp [mask, hD]
  rw [e2] at h1
  simpa [Obj.kids] using h1

theorem used_mask_insert {h : Heap} (hb : h.Bounded) (D : Finset Nat) {a : Nat} (ha : (h.mask D).obj a ≠ .free) :
    (h.mask (insert a D)).used < (h.mask D).used := by
  apply Finset.card_lt_card
  rw [Finset.ssubset_iff_of_subset]
  · refine ⟨a, ?_, ?_⟩
    · simp only [mem_filter, mem_range]
      exact ⟨by have := ((hb.mask D).obj a ha).2; simp only [mask] at *; omega, ha⟩
    · simp [mask]
  · intro x hx
    rw [mem_filter] at hx ⊢
    refine ⟨hx.1, ?_⟩
    intro e
    apply hx.2
    simp only [mask] at e ⊢
    split at e
    · rename_i hm; simp [hm]
    · simp [e]

theorem used_shrunk {h h' : Heap} (hs : Shrunk h h') (D : Finset Nat) : (h'.mask D).used ≤ (h.mask D).used := by
  apply Finset.card_le_card
  intro x hx
  rw [mem_filter] at hx ⊢
  refine ⟨by have := hx.1; simp only [mask] at this ⊢; rwa [hs.size] at this, ?_⟩
  intro e
  apply hx.2
  simp only [mask] at e ⊢
  split
  · rfl
  · rename_i hm
    rw [if_neg hm] at e
    rcases hs.obj x with h1 | h1
    · rw [h1, e]
    · exact h1

/-- The result of giving up a reference, with the nodes of `D` being returned further out. -/
structure DecOk (h h' : Heap) (D : Finset Nat) (ext : Nat → Int) : Prop where
  counted : (h'.mask D).Counted ext
  shrunk : Shrunk h h'
  free : h'.FreeOk
  held : ∀ n, n ∈ D → h'.obj n = h.obj n

theorem decOk (k : Nat) :
    ∀ (h : Heap) (n : Nat) (D : Finset Nat) (ext : Nat → Int), (∀ n, 0 ≤ ext n) → h.Bounded → h.FreeOk → h.Ready →
      (h.mask D).Counted (fun m => ext m + one n m) → (h.mask D).used < k →
      ∃ h', h.dec k n = some h' ∧ DecOk h h' D ext := by
  induction k with
  | zero => intro h n D ext _ _ _ _ _ hk; omega
  | succ k ih =>
    intro h n D ext hext hb hf hr hc hk
    by_cases hn : n = 0
    · refine ⟨h, by simp [dec, hn], ?_, Shrunk.refl h, hf, fun _ _ => rfl⟩
      refine hc.mono fun m hm => ?_
      have : one n m = 0 := by simp [one, hn, hm]
      omega
    · have h1 := hc n hn
      have h2 := (h.mask D).refs_nonneg n
      have h3 := hext n
      have hone : one n n = 1 := by simp [one]
      have ha : (h.mask D).obj n ≠ .free := by
        refine Counted.notFree hc hn ?_
        omega
      have hD : n ∉ D := fun hm => ha (by simp [mask, hm])
      have hobj : (h.mask D).obj n = h.obj n := by simp [mask, hD]
      have hnf : h.obj n ≠ .free := hobj ▸ ha
      rcases h1.rc ha with ⟨hrc, hle⟩ | ⟨hrc, hle⟩ | hrc
      · have hrc' : h.rc n = 0 := hrc
        -- the last reference: the node is returned
        have hins : ∀ m, m ≠ 0 → (h.mask (insert n D)).Fits m ((h.mask (insert n D)).refs m +
            (ext m + cnt (h.obj n).kids m)) := by
          intro m hm
          have h4 := refs_mask_insert hb D ha m
          by_cases e : m = n
          · subst e
            unfold Fits
            rw [if_pos (show (h.mask (insert m D)).obj m = .free by simp [mask])]
            dsimp only at hle
            omega
          · have h5 := hc m hm
            refine Fits.mono (k := (h.mask D).refs m + (ext m + one n m)) ?_ ?_
            · unfold Fits at *
              rw [show (h.mask (insert n D)).obj m = (h.mask D).obj m by simp [mask, e]]
              exact h5
            · simp only [one, e, if_false]; omega
        have hused := used_mask_insert hb D ha
        have hrel : ∀ h₂ : Heap, Shrunk h h₂ → h₂.FreeOk → h₂.obj n = h.obj n → (∀ m ∈ D, h₂.obj m = h.obj m) →
            (h₂.mask (insert n D)).Counted ext → DecOk h (h₂.release n) D ext := by
          intro h₂ hs hf2 ho hh hc2
          have hbd := hb.obj n hnf
          refine ⟨?_, ?_, ?_, ?_⟩
          · intro m hm
            have h6 := hc2 m hm
            have hr1 : ∀ x, ((h₂.release n).mask D).obj x = (h₂.mask (insert n D)).obj x := by
              intro x
              by_cases e : x = n
              · subst e; simp [mask, release, upd]
              · simp [mask, release, upd, e]
            have hr2 : ((h₂.release n).mask D).refs m = (h₂.mask (insert n D)).refs m := by
              have : ((h₂.release n).mask D).obj = (h₂.mask (insert n D)).obj := funext hr1
              unfold refs nodeRefs tabRefs liveTab
              rw [this]
              rfl
            unfold Fits at *
            rw [hr2, hr1 m]
            by_cases e : m = n
            · subst e
              rw [if_pos (by simp [mask])] at h6 ⊢
              exact h6
            · rw [show ((h₂.release n).mask D).rc m = (h₂.mask (insert n D)).rc m by simp [mask, release, upd, e]]
              exact h6
          · refine ⟨hs.size, hs.tab, hs.ntab, hs.cmark, ?_, ?_⟩
            · intro m
              by_cases e : m = n
              · subst e; right; simp [release, upd]
              · rw [show (h₂.release n).obj m = h₂.obj m by simp [release, upd, e]]
                exact hs.obj m
            · intro m hm
              by_cases e : m = n
              · subst e; omega
              · rw [show (h₂.release n).obj m = h₂.obj m by simp [release, upd, e],
                  show (h₂.release n).rc m = h₂.rc m by simp [release, upd, e]]
                exact hs.pinned m hm
          · refine ⟨?_, ?_⟩
            · rw [show (h₂.release n).freeList = n :: h₂.freeList from rfl, List.nodup_cons]
              refine ⟨?_, hf2.nodup⟩
              intro hm
              exact hnf (ho ▸ ((hf2.mem n).1 hm).2.2)
            · intro m
              rw [show (h₂.release n).freeList = n :: h₂.freeList from rfl, List.mem_cons, hf2.mem m]
              rw [show (h₂.release n).size = h₂.size from rfl, hs.size]
              by_cases e : m = n
              · subst e; simp [release, upd]; omega
              · simp [release, upd, e]
          · intro m hm
            have e : m ≠ n := fun e => hD (e ▸ hm)
            rw [show (h₂.release n).obj m = h₂.obj m by simp [release, upd, e]]
            exact hh m hm
        have hpair : ∀ l r, (h.obj n).kids = [l, r] → (h.obj n).left = l → (h.obj n).right = r →
            ∃ h', (match dec k h (h.obj n).left with
              | none => none
              | some h₁ =>
                match dec k h₁ (h₁.obj n).right with
                | none => none
                | some h₂ => some (h₂.release n)) = some h' ∧ DecOk h h' D ext := by
          intro l r hkids hl hrr
          have hcl : (h.mask (insert n D)).Counted (fun m => (ext m + one r m) + one l m) := by
            intro m hm
            have := hins m hm
            rw [hkids, cnt_cons, cnt_cons, cnt_nil] at this
            refine this.mono ?_
            simp only [one]; omega
          obtain ⟨h₁, e1, d1⟩ := ih h l (insert n D) (fun m => ext m + one r m)
            (fun m => by have := hext m; simp only [one]; split <;> omega) hb hf hr hcl (by omega)
          have ho1 : h₁.obj n = h.obj n := d1.held n (by simp)
          obtain ⟨h₂, e2, d2⟩ := ih h₁ r (insert n D) ext hext (d1.shrunk.bounded hb) d1.free (d1.shrunk.ready hr)
            d1.counted (by have := used_shrunk d1.shrunk (insert n D); omega)
          have ho2 : h₂.obj n = h.obj n := (d2.held n (by simp)).trans ho1
          refine ⟨h₂.release n, ?_, hrel h₂ (d1.shrunk.trans d2.shrunk) d2.free ho2 ?_ d2.counted⟩
          · rw [hl, e1]
            dsimp only
            rw [ho1, hrr, e2]
          · intro m hm
            exact (d2.held m (by simp [hm])).trans (d1.held m (by simp [hm]))
        have hleaf : (h.obj n).kids = [] → DecOk h (h.release n) D ext := by
          intro hkids
          refine hrel h (Shrunk.refl h) hf rfl (fun _ _ => rfl) ?_
          intro m hm
          have := hins m hm
          rw [hkids, cnt_nil] at this
          exact this.mono (by omega)
        have hunf : ∀ o, h.obj n = o → h.dec (k + 1) n = (match o with
            | .app _ _ | .cons _ _ =>
              match dec k h (h.obj n).left with
              | none => none
              | some h₁ =>
                match dec k h₁ (h₁.obj n).right with
                | none => none
                | some h₂ => some (h₂.release n)
            | .leaf _ | .tab _ _ => some (h.release n)
            | .lam _ _ | .free => none) := by
          intro o ho
          subst ho
          rw [dec, if_neg hn, if_pos hrc']
          cases h.obj n <;> rfl
        cases ho : h.obj n with
        | free => exact absurd ho hnf
        | lam v b => exact absurd ho ((hr n).1 v b)
        | app l r =>
          rw [hunf _ ho]
          have := hpair l r (by rw [ho]; rfl) (by rw [ho]; rfl) (by rw [ho]; rfl)
          rw [ho] at this ⊢
          exact this
        | cons l r =>
          rw [hunf _ ho]
          have := hpair l r (by rw [ho]; rfl) (by rw [ho]; rfl) (by rw [ho]; rfl)
          rw [ho] at this ⊢
          exact this
        | leaf v => exact ⟨_, hunf _ ho, hleaf (by rw [ho]; rfl)⟩
        | tab b t => exact ⟨_, hunf _ ho, hleaf (by rw [ho]; rfl)⟩
      · have hrc' : h.rc n = 1 := hrc
        refine ⟨h.setRc n 0, by simp [dec, hn, hrc'], ?_, ?_, ⟨hf.nodup, hf.mem⟩, fun _ _ => rfl⟩
        · intro m hm
          have h5 := hc m hm
          rw [show ((h.setRc n 0).mask D).refs m = (h.mask D).refs m from rfl]
          unfold Fits at *
          rw [show ((h.setRc n 0).mask D).obj m = (h.mask D).obj m from rfl]
          by_cases e : m = n
          · subst e
            rw [if_neg ha, show ((h.setRc m 0).mask D).rc m = 0 by simp [mask, setRc, upd], if_pos rfl]
            dsimp only at hle
            omega
          · rw [show ((h.setRc n 0).mask D).rc m = (h.mask D).rc m by simp [mask, setRc, upd, e]]
            simpa [one, e] using h5
        · refine ⟨rfl, rfl, rfl, rfl, fun _ => Or.inl rfl, fun m hm => ⟨rfl, ?_⟩⟩
          by_cases e : m = n
          · subst e; omega
          · simpa [setRc, upd, e] using hm
      · have hrc' : h.rc n = 3 := hrc
        refine ⟨h, by simp [dec, hn, hrc'], ?_, Shrunk.refl h, hf, fun _ _ => rfl⟩
        exact hc.mono fun m hm => by simp only [one]; split <;> omega

theorem mask_empty (h : Heap) : h.mask ∅ = h := by
  unfold mask
  simp

/-- Giving up a reference to `n` succeeds and keeps the invariant. -/
theorem dec_ok {h : Heap} {n : Nat} {ext : Nat → Int} {k : Nat} (hext : ∀ n, 0 ≤ ext n) (hb : h.Bounded)
    (hf : h.FreeOk) (hr : h.Ready) (hc : h.Counted (fun m => ext m + one n m)) (hk : h.size + 1 < k) :
    ∃ h', h.dec k n = some h' ∧ h'.Counted ext ∧ Shrunk h h' ∧ h'.FreeOk := by
  have hu : (h.mask ∅).used < k := by
    rw [mask_empty]
    have : h.used ≤ h.size + 1 := by
      unfold used
      exact (Finset.card_filter_le _ _).trans (by simp)
    omega
  obtain ⟨h', e, d⟩ := decOk k h n ∅ ext hext hb hf hr (by rw [mask_empty]; exact hc) hu
  exact ⟨h', e, by have := d.counted; rwa [mask_empty] at this, d.shrunk, d.free⟩

theorem decs_ok (l : List Nat) {k : Nat} {ext : Nat → Int} (hext : ∀ n, 0 ≤ ext n) :
    ∀ {h : Heap}, h.Bounded → h.FreeOk → h.Ready → h.Counted (fun m => ext m + cnt l m) → h.size + 1 < k →
    ∃ h', h.decs k l = some h' ∧ h'.Counted ext ∧ Shrunk h h' ∧ h'.FreeOk := by
  induction l with
  | nil =>
    intro h hb hf hr hc hk
    exact ⟨h, rfl, hc.congr fun n _ => by simp, Shrunk.refl h, hf⟩
  | cons a l ih =>
    intro h hb hf hr hc hk
    obtain ⟨h₁, e1, c1, s1, f1⟩ := dec_ok (n := a) (ext := fun m => ext m + cnt l m)
      (fun m => by have := hext m; have := cnt_nonneg l m; omega) hb hf hr
      (hc.congr fun m _ => by rw [cnt_cons]; simp only [one]; omega) hk
    obtain ⟨h₂, e2, c2, s2, f2⟩ := ih (s1.bounded hb) f1 (s1.ready hr) c1 (by rw [s1.size]; exact hk)
    exact ⟨h₂, by rw [decs, e1]; exact e2, c2, s1.trans s2, f2⟩

end Heap
end Voss.Gc
