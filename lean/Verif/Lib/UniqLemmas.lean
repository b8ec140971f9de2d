import Verif.Lib.HashLemmas
import Verif.Lib.BufLemmas
import Verif.Lib.RecLemmas
import Verif.Lib.Uniq
namespace Voss.Lib.Uniq

variable {α : Type} [DecidableEq α] {zero : α} {h : α → Nat → Nat}

structure Rel (h : α → Nat → Nat) (sz : Nat) (u : UBuf α) (l : List α) : Prop where
  buf : Buf.Rel sz u.buf l
  items : u.items = l.length
  nodup : l.Nodup
  tbl : ∃ sp : Lib.Spec α Nat, Lib.Rel h itemEqu u.tbl sp ∧
    ∀ x d, sp.map x = some d ↔ x ∈ l ∧ d = some (l.idxOf x + 1)
  elems : u.tbl.elements = l.length

theorem itemEqu_iff {a b : α} : itemEqu a b = true ↔ a = b := by simp [itemEqu]

theorem find_u (H : HashOK h itemEqu) {sz : Nat} {u : UBuf α} {l : List α} (R : Rel h sz u l) (x : α) :
    find h itemEqu u.tbl x = some (if x ∈ l then some (l.idxOf x + 1) else none) := by
  obtain ⟨sp, Rt, hs⟩ := R.tbl
  rw [find_spec H Rt]
  congr 1
  split
  · next hx => rw [(hs x _).2 ⟨hx, rfl⟩]; rfl
  · next hx =>
    cases hm : sp.map x with
    | none => rfl
    | some d => exact absurd ((hs x d).1 hm).1 hx

theorem add_spec (H : HashOK h itemEqu) {sz n : Nat} {u : UBuf α} {l : List α} (R : Rel h sz u l) {x : α} (hx : x ∉ l)
    (hn : 2 * n * sz < 2 ^ 32) (hl : l.length + 1 ≤ n) (hn' : n ≤ 2147483629) :
    ∃ u', add zero h u x = some u' ∧ Rel h sz u' (l ++ [x]) := by
  obtain ⟨b', eb, Rb⟩ := Buf.push_spec (zero := zero) R.buf hn hl x
  obtain ⟨sp, Rt, hs⟩ := R.tbl
  have hnone : sp.map x = none := by
    cases hm : sp.map x with
    | none => rfl
    | some d => exact absurd ((hs x d).1 hm).1 hx
  obtain ⟨t', et, Rt', el⟩ := insert_spec (d := some (u.items + 1)) H Rt (by rw [R.elems]; omega) hnone
  refine ⟨⟨b', u.items + 1, t'⟩, ?_, Rb, by simp [R.items], ?_, ⟨_, Rt', ?_⟩, by simp [el, R.elems]⟩
  · simp only [add, eb, et, Option.bind_eq_bind, Option.bind_some]
  · rw [List.nodup_append]
    refine ⟨R.nodup, by simp, ?_⟩
    intro a ha b hb
    simp at hb; subst hb
    intro h; subst h; exact hx ha
  · intro y d
    simp only [Spec.put]
    by_cases hxy : itemEqu x y = true
    · have := itemEqu_iff.1 hxy; subst this
      simp only [hxy, if_true, Option.some.injEq, List.mem_append, List.mem_singleton, or_true, true_and]
      rw [List.idxOf_append, if_neg hx, R.items]
      simp [eq_comm]
    · have hne : y ≠ x := fun h => hxy (itemEqu_iff.2 h.symm)
      simp only [hxy, Bool.false_eq_true, if_false, List.mem_append, List.mem_singleton, hne, or_false, hs]
      constructor
      · rintro ⟨h1, h2⟩; exact ⟨h1, by rw [List.idxOf_append, if_pos h1]; exact h2⟩
      · rintro ⟨h1, h2⟩; rw [List.idxOf_append, if_pos h1] at h2; exact ⟨h1, h2⟩

theorem newU_spec {n sz : Nat} (hs : n ≤ 2147483629) (hp : 0 < sz) (hn : (if n < 1 then 1 else n) * sz < 2 ^ 32) :
    ∃ u, newU zero n sz = some u ∧ Rel h sz u [] := by
  obtain ⟨t, e, R⟩ := create_spec (K := α) (V := Nat) (h := h) (eq := itemEqu) n hs
  refine ⟨⟨Buf.newBuf zero n sz, 0, t⟩, by simp only [newU, e, Option.bind_eq_bind, Option.bind_some],
    Buf.newBuf_rel n sz hp hn, rfl, List.nodup_nil, ⟨_, R, ?_⟩, ?_⟩
  · intro x d; simp [Spec.empty]
  · have := R.cnt'; simpa [Spec.empty] using this.symm

theorem step_spec (H : HashOK h itemEqu) {sz n : Nat} {u : UBuf α} {l : List α} (R : Rel h sz u l) (hn : 2 * n * sz < 2 ^ 32)
    (hn' : n ≤ 2147483629) (hl : l.length + 1 ≤ n) {op : Op α} {ops : List (Op α)} (he : Spec.NoEdge l (op :: ops)) :
    ∃ u', step zero h u op = some (u', (Spec.step l op).2) ∧ Rel h sz u' (Spec.step l op).1 ∧
      (Spec.step l op).1.length ≤ l.length + 1 := by
  cases op with
  | push x =>
    by_cases hx : x ∈ l
    · refine ⟨u, ?_, by simpa [Spec.step, hx] using R, by simp [Spec.step, hx]⟩
      simp only [step, push, find_u H R, Option.bind_eq_bind, Option.bind_some, if_pos hx, Spec.step]
      simp [hx]
    · obtain ⟨u', e, R'⟩ := add_spec (zero := zero) H R hx hn hl hn'
      refine ⟨u', ?_, by simpa [Spec.step, hx] using R', by simp [Spec.step, hx]⟩
      simp only [step, push, find_u H R, Option.bind_eq_bind, Option.bind_some, if_neg hx, Spec.step, e]
      simp [hx]
  | index x =>
    refine ⟨u, ?_, R, by simp [Spec.step]⟩
    simp only [step, index, find_u H R, Option.bind_eq_bind, Option.bind_some, Spec.step, place]
    split <;> simp
  | findInsert x =>
    by_cases hx : x ∈ l
    · refine ⟨u, ?_, by simpa [Spec.step, hx] using R, by simp [Spec.step, hx]⟩
      simp only [step, findInsert, find_u H R, Option.bind_eq_bind, Option.bind_some, if_pos hx, Spec.step, place]
      simp
    · obtain ⟨u', e, R'⟩ := add_spec (zero := zero) H R hx hn hl hn'
      refine ⟨u', ?_, by simpa [Spec.step, hx] using R', by simp [Spec.step, hx]⟩
      simp only [step, findInsert, find_u H R, Option.bind_eq_bind, Option.bind_some, if_neg hx, Spec.step, e, R'.items]
      simp
  | fetch i =>
    refine ⟨u, ?_, R, by simp [Spec.step]⟩
    have hi : i ≠ l.length := he.1
    have hc := R.buf.cnt
    simp only [step, Spec.step, Buf.fetch]
    by_cases hlt : i < l.length
    · rw [if_pos (by omega), Buf.get_eq R.buf hlt, List.getElem?_eq_getElem hlt]
      rfl
    · rw [if_neg (by omega), List.getElem?_eq_none (by omega)]
      rfl
  | count => exact ⟨u, by simp [step, Spec.step, R.items], R, by simp [Spec.step]⟩

theorem run_spec (H : HashOK h itemEqu) {sz n : Nat} (hn : 2 * n * sz < 2 ^ 32) (hn' : n ≤ 2147483629) :
    ∀ (ops : List (Op α)) (u : UBuf α) (l : List α), Rel h sz u l → Spec.NoEdge l ops → l.length + ops.length ≤ n →
    ∃ u', run zero h u ops = some (u', (Spec.run l ops).2) ∧ Rel h sz u' (Spec.run l ops).1 := by
  intro ops
  induction ops with
  | nil => intro u l R _ _; exact ⟨u, rfl, R⟩
  | cons op ops ih =>
    intro u l R he hl
    simp only [List.length_cons] at hl
    obtain ⟨u1, e1, R1, l1⟩ := step_spec (zero := zero) H R hn hn' (by omega) he
    obtain ⟨u2, e2, R2⟩ := ih u1 _ R1 he.2 (by omega)
    exact ⟨u2, by simp only [run, e1, e2, Option.bind_eq_bind, Option.bind_some, Spec.run], R2⟩

end Voss.Lib.Uniq

namespace Voss.Lib.Rec

theorem holds_of_inside {m : Mgr} {r : Nat} (h : ∃ b ∈ m.blocks, b + 2 * ptrSize ≤ r ∧ r + m.recSize ≤ b + m.blkSize) :
    m.holds r = true := by
  obtain ⟨b, hb, h1, h2⟩ := h
  unfold Mgr.holds
  rw [List.any_eq_true]
  exact ⟨b, hb, by simp; omega⟩

/-- With one block only, freeing keeps the blocks. -/
theorem freeRec_one {m m' : Mgr} {b r : Nat} (hb : m.blocks = [b]) (e : freeRec m r = some m') :
    m'.blocks = [b] ∧ m'.recSize = m.recSize ∧ m'.blkSize = m.blkSize := by
  rw [freeRec_eq hb] at e
  split at e
  · cases e
  · split at e
    · split at e
      · cases e; exact ⟨hb, rfl, rfl⟩
      · cases e; exact ⟨hb, rfl, rfl⟩
    · cases e; exact ⟨hb, rfl, rfl⟩

theorem scanDelete_one (dead : Nat → Bool) {size b : Nat} : ∀ (as : List Nat) (m : Mgr) (L : List Nat), Reach size m L → m.blocks = [b] →
    as.Nodup → (∀ a ∈ as, a ∈ L) →
    ∃ m', scanDelete dead m as = some (m', as.filter (fun a => !dead a)) ∧
      Reach size m' (L.filter (fun a => !(dead a && as.contains a))) := by
  intro as
  induction as with
  | nil =>
    intro m L R _ _ _
    refine ⟨m, rfl, ?_⟩
    rw [List.filter_eq_self.2 (by simp)]
    exact R
  | cons a as ih =>
    intro m L R hb hnd hsub
    obtain ⟨hna, hnd'⟩ := List.nodup_cons.1 hnd
    have I := R.inv
    have hLnd : L.Nodup := (List.nodup_append.1 (I.perm.nodup_iff.2 (all_nodup I))).1
    have haL := hsub a (List.mem_cons_self ..)
    cases hd : dead a with
    | true =>
      obtain ⟨m1, e1, I1⟩ := freeRec_some I haL
      obtain ⟨b1, r1, k1⟩ := freeRec_one hb e1
      have hin : m1.holds a = true := by
        apply holds_of_inside
        rw [b1, r1, k1, ← hb]
        exact all_inside I (I.perm.mem_iff.1 (List.mem_append_left _ haL))
      obtain ⟨m2, e2, R2⟩ := ih m1 (L.erase a) (Reach.free R haL e1) b1 hnd' (by
        intro x hx
        have hne : x ≠ a := fun h => hna (h ▸ hx)
        exact (List.mem_erase_of_ne hne).2 (hsub x (List.mem_cons_of_mem _ hx)))
      refine ⟨m2, ?_, ?_⟩
      · simp only [scanDelete, hd, if_true, e1, Option.bind_eq_bind, Option.bind_some, hin, e2]
        simp [hd]
      · have : L.filter (fun x => !(dead x && (a :: as).contains x)) = (L.erase a).filter (fun x => !(dead x && as.contains x)) := by
          rw [hLnd.erase_eq_filter, List.filter_filter]
          apply List.filter_congr
          intro x _
          by_cases hx : x = a
          · subst hx; simp [hd]
          · simp [hx]
        rw [this]; exact R2
    | false =>
      obtain ⟨m2, e2, R2⟩ := ih m L R hb hnd' (fun x hx => hsub x (List.mem_cons_of_mem _ hx))
      refine ⟨m2, ?_, ?_⟩
      · simp only [scanDelete, hd, Bool.false_eq_true, if_false, e2, Option.bind_eq_bind, Option.bind_some]
        simp [hd]
      · have : L.filter (fun x => !(dead x && (a :: as).contains x)) = L.filter (fun x => !(dead x && as.contains x)) := by
          apply List.filter_congr
          intro x _
          by_cases hx : x = a
          · subst hx; simp [hd]
          · simp [hx]
        rw [this]; exact R2

end Voss.Lib.Rec
