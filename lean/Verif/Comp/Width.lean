import Verif.Comp.Spec
import Verif.Sim.BitsLemmas
import Mathlib.Data.List.Forall2
/-
Widths: the size function of the compiler, and the widths of possible values.
-/
namespace Voss.Comp
open Voss.Sim (natBits intBits line inertial Possible natBits_length intBits_length)
open Voss.Bv (uv tc)

mutual
theorem wsize_eq (wd : String → Nat) : ∀ (e : WExpr) (n : Nat), Sized wd e n → ¬ReadWidth e → wsize e = n
  | .x _, _, h, _ => by simp only [Sized] at h; simp [wsize, h]
  | .const _ _, _, h, _ => by simp only [Sized] at h; simp [wsize, h]
  | .var _ _, _, h, _ => by simp only [Sized] at h; simp [wsize, h]
  | .evar _ _, _, h, _ => by simp only [Sized] at h; simp [wsize, h]
  | .bin _ l _, n, h, hr => by
    simp only [Sized] at h; simp only [ReadWidth] at hr; rw [wsize]; exact wsize_eq wd l n h.1 hr
  | .rel _ _ _, _, h, _ => by simp only [Sized] at h; simp [wsize, h]
  | .not e, n, h, hr => by
    simp only [Sized] at h; simp only [ReadWidth] at hr; rw [wsize]; exact wsize_eq wd e n h hr
  | .pred _ _, _, h, _ => by simp only [Sized] at h; simp [wsize, h]
  | .sx _ _, _, h, _ => by simp only [Sized] at h; simp [wsize, h]
  | .zx _ _, _, h, _ => by simp only [Sized] at h; simp [wsize, h]
  | .ite _ t _, n, h, hr => by
    simp only [Sized] at h; simp only [ReadWidth] at hr; rw [wsize]; exact wsize_eq wd t n h.2.1 hr
  | .slice _ _, _, h, _ => by simp only [Sized] at h; simp [wsize, h]
  | .upd b _ _, n, h, hr => by
    simp only [Sized] at h; simp only [ReadWidth] at hr; rw [wsize]; exact wsize_eq wd b n h.1 hr
  | .cat ps, n, h, hr => by
    simp only [Sized] at h; simp only [ReadWidth] at hr; rw [wsize]; exact wsizes_eq wd ps n h hr
  | .memRead _ _ _ _ _, _, h, hr => by
    simp only [Sized] at h; simp only [ReadWidth, ne_eq, not_not] at hr; simp [wsize, h.1, hr]
  | .memWrite _ lines dsz m _ _, n, h, hr => by
    simp only [Sized] at h; simp only [ReadWidth] at hr; rw [wsize, h.1]; exact wsize_eq wd m _ h.2.2.1 hr
  | .idelay _ _ _ _ _ _ _, _, h, _ => by simp only [Sized] at h; simp [wsize, h]
theorem wsizes_eq (wd : String → Nat) : ∀ (es : List WExpr) (n : Nat), SizedAll wd es n → ¬ReadWidths es → wsizes es = n
  | [], _, h, _ => by simp only [SizedAll] at h; simp [wsizes, h]
  | e :: es, n, h, hr => by
    simp only [SizedAll] at h
    obtain ⟨a, b, rfl, h1, h2⟩ := h
    simp only [ReadWidths, not_or] at hr
    rw [wsizes, wsize_eq wd e a h1 hr.1, wsizes_eq wd es b h2 hr.2]
end

theorem setBit_length (w : List Bool) (i : Int) (b : Bool) : (setBit w i b).length = w.length := by simp [setBit]

theorem setBits_length : ∀ (qs : List (Int × Bool)) (w : List Bool), (qs.foldl (fun w q => setBit w q.1 q.2) w).length = w.length
  | [], _ => rfl
  | q :: qs, w => by rw [List.foldl_cons, setBits_length qs, setBit_length]

theorem line_length (lines dsz k : Nat) (m : List Bool) (hm : m.length = lines * dsz) (hk : k < lines) :
    (line lines dsz k m).length = dsz := by
  have h1 : lines * dsz = (lines - 1 - k) * dsz + dsz + k * dsz := by
    rw [← Nat.succ_mul, ← Nat.add_mul]; congr 1; omega
  simp only [line, List.length_take, List.length_drop, hm]
  omega

theorem flatMap_length {α : Type} (f : α → List Bool) (d : Nat) : ∀ (l : List α), (∀ k ∈ l, (f k).length = d) → (l.flatMap f).length = l.length * d
  | [], _ => by simp
  | a :: l, h => by
    rw [List.flatMap_cons, List.length_append, h a (by simp), flatMap_length f d l (fun k hk => h k (by simp [hk])), List.length_cons]
    ring

theorem Bin.value_length (op : Bin) (a b : List Bool) (h : a.length = b.length) : (op.value a b).length = a.length := by
  cases op <;> simp only [Bin.value, List.length_zipWith, natBits_length, intBits_length, ← h, Nat.min_self]
  · split <;> simp [natBits_length]
  · split <;> simp [natBits_length]

mutual
theorem means_length (val : String → List Bool) : ∀ (e : WExpr) (n : Nat) (w : List Bool), Sized (fun s => (val s).length) e n → Means val e w → w.length = n
  | .x _, _, _, h, hm => by simp only [Sized] at h; simp only [Means] at hm; omega
  | .const _ _, _, _, h, hm => by simp only [Sized] at h; simp only [Means] at hm; simp [hm, intBits_length, h]
  | .var _ _, _, _, h, hm => by simp only [Sized] at h; simp only [Means] at hm; rw [hm, h.2, h.1]
  | .evar _ _, _, _, h, hm => by simp only [Sized] at h; simp only [Means] at hm; rw [hm, h.2, h.1]
  | .bin op l r, n, w, h, hm => by
    simp only [Sized] at h; simp only [Means] at hm
    obtain ⟨a, b, h1, h2, rfl⟩ := hm
    have e1 := means_length val l n a h.1 h1
    have e2 := means_length val r n b h.2 h2
    rw [Bin.value_length _ _ _ (by omega), e1]
  | .rel _ _ _, _, _, h, hm => by
    simp only [Sized] at h; simp only [Means] at hm; obtain ⟨_, _, _, _, rfl⟩ := hm; simp [h.1]
  | .not e, n, w, h, hm => by
    simp only [Sized] at h; simp only [Means] at hm
    obtain ⟨a, h1, rfl⟩ := hm
    simpa using means_length val e n a h h1
  | .pred _ e, n, w, h, hm => by
    simp only [Sized] at h; simp only [Means] at hm; rw [h.1]; exact means_length val e 1 w h.2 hm
  | .sx _ _, _, _, h, hm => by
    simp only [Sized] at h; simp only [Means] at hm; obtain ⟨_, _, rfl⟩ := hm; rw [intBits_length, h.1]
  | .zx _ _, _, _, h, hm => by
    simp only [Sized] at h; simp only [Means] at hm; obtain ⟨_, _, rfl⟩ := hm; rw [natBits_length, h.1]
  | .ite c t e, n, w, h, hm => by
    simp only [Sized] at h; simp only [Means] at hm
    obtain ⟨x, a, b, _, h1, h2, rfl⟩ := hm
    have e1 := means_length val t n a h.2.1 h1
    have e2 := means_length val e n b h.2.2 h2
    split <;> assumption
  | .slice _ _, _, _, h, hm => by
    simp only [Sized] at h; simp only [Means] at hm; obtain ⟨_, _, rfl⟩ := hm; rw [List.length_map, h.1]
  | .upd b _ _, n, w, h, hm => by
    simp only [Sized] at h; simp only [Means] at hm
    obtain ⟨a, c, h1, _, rfl⟩ := hm
    rw [setBits_length]; exact means_length val b n a h.1 h1
  | .cat ps, n, w, h, hm => by
    simp only [Sized] at h; simp only [Means] at hm
    obtain ⟨ws, h1, rfl⟩ := hm
    exact meansAll_length val ps n ws h h1
  | .memRead _ _ _ _ _, _, _, h, hm => by
    simp only [Sized] at h; simp only [Means] at hm; obtain ⟨_, _, _, _, h1, _⟩ := hm; rw [h1, h.1]
  | .memWrite _ lines dsz mem _ data, n, w, h, hm => by
    simp only [Sized] at h; simp only [Means] at hm
    obtain ⟨m, a, d, h1, _, h3, rfl⟩ := hm
    have e1 := means_length val mem _ m h.2.2.1 h1
    have e3 := means_length val data _ d h.2.2.2.2 h3
    rw [flatMap_length _ dsz, List.length_reverse, List.length_range, h.1]
    intro k hk
    simp only [List.mem_reverse, List.mem_range] at hk
    split
    · exact e3
    · exact line_length _ _ _ _ e1 hk
  | .idelay _ _ _ _ _ _ _, _, _, h, hm => by
    simp only [Sized] at h; simp only [Means] at hm
    obtain ⟨_, _, _, _, h1⟩ := hm
    have := h1.length_eq
    simp only [List.length_map, List.length_range] at this
    omega
theorem meansAll_length (val : String → List Bool) : ∀ (es : List WExpr) (n : Nat) (ws : List (List Bool)), SizedAll (fun s => (val s).length) es n → MeansAll val es ws → ws.flatten.length = n
  | [], _, _, h, hm => by simp only [SizedAll] at h; simp only [MeansAll] at hm; simp [hm, h]
  | e :: es, n, ws, h, hm => by
    simp only [SizedAll] at h; simp only [MeansAll] at hm
    obtain ⟨a, b, rfl, h1, h2⟩ := h
    obtain ⟨w, vs, rfl, h3, h4⟩ := hm
    rw [List.flatten_cons, List.length_append, means_length val e a w h1 h3, meansAll_length val es b vs h2 h4]
end

end Voss.Comp
