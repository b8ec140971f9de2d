import Verif.Io.SaveLemmas
/-
What the reader does with what the writer wrote.
-/
namespace Voss.Io.Save
open Voss.Arbi

variable {RB RE : Nat → Nat → Prop} {M : Mem} {alloc : Nat → Nat} {T : Tables}

/-- The map that the reader builds. -/
def mp (l : List (Nat × Nat)) (x : Nat) : Nat := (l.lookup x).getD 0

theorem Same.congr {M0 M1 M0' M1' : Mem} {m m' : Nat → Nat} {nd nd' : Node} (h : Same RB RE M M0 M1 m nd nd')
    (hm : ∀ k ∈ kids M nd, m k = m' k) (h1 : M0'.nref ≤ M0.nref) (h2 : M0'.ncache ≤ M0.ncache) (h3 : M0'.streams = M0.streams)
    (h4 : M1.nref ≤ M1'.nref) (h5 : M1.ncache ≤ M1'.ncache) (h6 : ∀ v < M1.nref, M1'.refs v = M1.refs v) :
    Same RB RE M M0' M1' m' nd nd' := by
  cases h with
  | app l r => rw [hm l (by simp [kids]), hm r (by simp [kids])]; exact .app l r
  | cons l r => rw [hm l (by simp [kids]), hm r (by simp [kids])]; exact .cons l r
  | nil => exact .nil
  | int => exact .int _
  | str => exact .str _
  | bool f f' h => exact .bool f f' h
  | bexpr f f' h => exact .bexpr f f' h
  | text => exact .text _ _
  | file a b c d e => exact .file a b c d (by rw [h3]; exact e)
  | ref v v' a b c =>
    refine .ref v v' (by omega) (by omega) ?_
    rw [h6 v' b, c, hm _ (by simp [kids])]
  | cache c c' a b => exact .cache c c' (by omega) (by omega)
  | extapi => exact .extapi _
  | prim => exact .prim _

/-- The state of the reader fits that of the writer. -/
structure Inv (alloc : Nat → Nat) (w : WS) (r : RS) : Prop where
  dom : ∀ x, x ∈ w.seen ↔ ∃ q, r.map.lookup x = some q
  inj : ∀ x y q, r.map.lookup x = some q → r.map.lookup y = some q → x = y
  rng : ∀ x q, r.map.lookup x = some q → ∃ i < r.cnt, q = alloc i
  std : ∀ n ∈ stdNames, ∃ id, (id, n) ∈ r.mem.streams

/-- What has happened between two states. -/
structure Step (RB RE : Nat → Nat → Prop) (M : Mem) (alloc : Nat → Nat) (w w' : WS) (r r' : RS) : Prop where
  cnt : r.cnt ≤ r'.cnt
  nref : r.mem.nref ≤ r'.mem.nref
  ncache : r.mem.ncache ≤ r'.mem.ncache
  streams : r'.mem.streams = r.mem.streams
  map : ∀ x q, r.map.lookup x = some q → r'.map.lookup x = some q
  heap : ∀ y, (∀ i, r.cnt ≤ i → i < r'.cnt → y ≠ alloc i) → r'.mem.heap y = r.mem.heap y
  refs : ∀ v < r.mem.nref, r'.mem.refs v = r.mem.refs v
  seen : ∀ x ∈ w.seen, x ∈ w'.seen
  done : ∀ x ∈ w'.seen, x ∉ w.seen → ∃ nd nd', M.heap x = some nd ∧ r'.mem.heap (mp r'.map x) = some nd' ∧
    Same RB RE M r.mem r'.mem (mp r'.map) nd nd' ∧ ∀ k ∈ kids M nd, k ∈ w'.seen
  apart : ∀ x ∈ w'.seen, x ∉ w.seen → ∀ y ∈ w'.seen, y ∉ w.seen → ∀ v, r'.mem.heap (mp r'.map x) = some (.ref v) →
    r'.mem.heap (mp r'.map y) = some (.ref v) → x = y

theorem Step.refl (w : WS) (r : RS) (w' : WS) (r' : RS) (hw : w'.seen = w.seen) (h1 : r'.map = r.map) (h2 : r'.mem = r.mem)
    (h3 : r'.cnt = r.cnt) : Step RB RE M alloc w w' r r' := by
  constructor
  · rw [h3]
  · rw [h2]
  · rw [h2]
  · rw [h2]
  · intro x q; rw [h1]; exact id
  · intro y _; rw [h2]
  · intro y _; rw [h2]
  · intro x; rw [hw]; exact id
  · intro x hx hn; rw [hw] at hx; exact absurd hx hn
  · intro x hx hn; rw [hw] at hx; exact absurd hx hn

/-- Finished nodes stay as they are. -/
theorem Step.stable (ha : ∀ i j, alloc i = alloc j → i = j) {w1 w2 : WS} {r1 r2 : RS} (hi : Inv alloc w1 r1)
    (h : Step RB RE M alloc w1 w2 r1 r2) {x : Nat} (hx : x ∈ w1.seen) :
    mp r2.map x = mp r1.map x ∧ r2.mem.heap (mp r1.map x) = r1.mem.heap (mp r1.map x) := by
  obtain ⟨q, hq⟩ := (hi.dom x).mp hx
  obtain ⟨i, hi1, rfl⟩ := hi.rng x q hq
  have e : mp r1.map x = alloc i := by unfold mp; rw [hq]; rfl
  refine ⟨by unfold mp; rw [hq, h.map x _ hq], ?_⟩
  rw [e]
  refine h.heap _ (fun j h1 h2 he => ?_)
  have := ha _ _ he
  omega

theorem Step.trans (ha : ∀ i j, alloc i = alloc j → i = j) {w0 w1 w2 : WS} {r0 r1 r2 : RS} (hi1 : Inv alloc w1 r1)
    (h1 : Step RB RE M alloc w0 w1 r0 r1) (h2 : Step RB RE M alloc w1 w2 r1 r2) : Step RB RE M alloc w0 w2 r0 r2 := by
  have hst : ∀ x ∈ w1.seen, mp r2.map x = mp r1.map x ∧ r2.mem.heap (mp r1.map x) = r1.mem.heap (mp r1.map x) :=
    fun x hx => h2.stable ha hi1 hx
  have done1 : ∀ x ∈ w1.seen, x ∉ w0.seen → ∃ nd nd', M.heap x = some nd ∧ r2.mem.heap (mp r2.map x) = some nd' ∧
      Same RB RE M r0.mem r1.mem (mp r1.map) nd nd' ∧ ∀ k ∈ kids M nd, k ∈ w1.seen := by
    intro x hx hn
    obtain ⟨nd, nd', e1, e2, e3, e4⟩ := h1.done x hx hn
    refine ⟨nd, nd', e1, ?_, e3, e4⟩
    rw [(hst x hx).1, (hst x hx).2, e2]
  refine ⟨Nat.le_trans h1.cnt h2.cnt, Nat.le_trans h1.nref h2.nref, Nat.le_trans h1.ncache h2.ncache, h2.streams.trans h1.streams,
    fun x q h => h2.map x q (h1.map x q h), ?_, ?_, fun x h => h2.seen x (h1.seen x h), ?_, ?_⟩
  · intro y hy
    rw [h2.heap y (fun i ha hb => hy i (Nat.le_trans h1.cnt ha) hb), h1.heap y (fun i ha hb => hy i ha (Nat.lt_of_lt_of_le hb h2.cnt))]
  · intro v hv
    rw [h2.refs v (Nat.lt_of_lt_of_le hv h1.nref), h1.refs v hv]
  · intro x hx hn
    by_cases hx1 : x ∈ w1.seen
    · obtain ⟨nd, nd', e1, e2, e3, e4⟩ := done1 x hx1 hn
      refine ⟨nd, nd', e1, e2, ?_, fun k hk => h2.seen k (e4 k hk)⟩
      exact e3.congr (fun k hk => ((hst k (e4 k hk)).1).symm) (Nat.le_refl _) (Nat.le_refl _) rfl h2.nref h2.ncache h2.refs
    · obtain ⟨nd, nd', e1, e2, e3, e4⟩ := h2.done x hx hx1
      exact ⟨nd, nd', e1, e2, e3.congr (fun _ _ => rfl) h1.nref h1.ncache h1.streams.symm (Nat.le_refl _) (Nat.le_refl _)
        (fun _ _ => rfl), e4⟩
  · have low : ∀ x ∈ w1.seen, x ∉ w0.seen → ∀ v, r2.mem.heap (mp r2.map x) = some (.ref v) → v < r1.mem.nref := by
      intro x hx hn v hv
      obtain ⟨nd, nd', e1, e2, e3, e4⟩ := done1 x hx hn
      rw [hv, Option.some.injEq] at e2; subst e2
      cases e3 with
      | ref v v' a b c => exact b
    have high : ∀ x ∈ w2.seen, x ∉ w1.seen → ∀ v, r2.mem.heap (mp r2.map x) = some (.ref v) → r1.mem.nref ≤ v := by
      intro x hx hn v hv
      obtain ⟨nd, nd', e1, e2, e3, e4⟩ := h2.done x hx hn
      rw [hv, Option.some.injEq] at e2; subst e2
      cases e3 with
      | ref v v' a b c => exact a
    intro x hx hnx y hy hny v hvx hvy
    by_cases hx1 : x ∈ w1.seen <;> by_cases hy1 : y ∈ w1.seen
    · refine h1.apart x hx1 hnx y hy1 hny v ?_ ?_
      · rw [← (hst x hx1).2, ← (hst x hx1).1]; exact hvx
      · rw [← (hst y hy1).2, ← (hst y hy1).1]; exact hvy
    · have := low x hx1 hnx v hvx; have := high y hy hy1 v hvy; omega
    · have := low y hy1 hny v hvy; have := high x hx hx1 v hvx; omega
    · exact h2.apart x hx hx1 y hy hy1 v hvx hvy

/-- One call of the reader does what one call of the writer asks for. -/
def Reads (RB RE : Nat → Nat → Prop) (M : Mem) (alloc : Nat → Nat) (w w' : WS) (ts : List Tok)
    (g : RS → Except Err (Nat × RS)) (p : Nat) : Prop :=
  ∀ r rest, (∀ t ∈ rest, GoodTok t) → Inv alloc w r → r.inp = text (ts ++ rest) →
    ∃ q r', g r = .ok (q, r') ∧ r'.inp = text rest ∧ Inv alloc w' r' ∧ Step RB RE M alloc w w' r r' ∧ r'.map.lookup p = some q

theorem readAll_ok (ha : ∀ i j, alloc i = alloc j → i = j)
    (gw : WS → Nat → Except Err WS) (g : Tables → RS → Except Err (Nat × RS))
    (P : Nat → Prop)
    (hg : ∀ w w' p, P p → gw w p = .ok w' → ∃ ts, w'.out = w.out ++ ts ∧ (∀ t ∈ ts, GoodTok t) ∧ WMono w w' ∧
      ∀ T, TOK RB RE T w' → Reads RB RE M alloc w w' ts (g T) p) :
    ∀ ks w w', (∀ k ∈ ks, P k) → writeAll gw w ks = .ok w' →
    ∃ ts, w'.out = w.out ++ ts ∧ (∀ t ∈ ts, GoodTok t) ∧ WMono w w' ∧
      ∀ T, TOK RB RE T w' → ∀ r rest, (∀ t ∈ rest, GoodTok t) → Inv alloc w r → r.inp = text (ts ++ rest) →
        ∃ qs r', readAll (g T) ks.length r = .ok (qs, r') ∧ r'.inp = text rest ∧ Inv alloc w' r' ∧
          Step RB RE M alloc w w' r r' ∧ qs = ks.map (mp r'.map) ∧ ∀ k ∈ ks, ∃ q, r'.map.lookup k = some q := by
  intro ks
  induction ks with
  | nil =>
    intro w w' _ h
    simp only [writeAll, Except.ok.injEq] at h; subst h
    refine ⟨[], by simp, by simp, WMono.refl _, ?_⟩
    intro T _ r rest _ hi hin
    exact ⟨[], r, rfl, hin, hi, Step.refl _ _ _ _ rfl rfl rfl rfl, rfl, by simp⟩
  | cons k ks ih =>
    intro w w' hP h
    simp only [writeAll] at h
    cases e : gw w k with
    | error e' => rw [e] at h; simp at h
    | ok w1 =>
      rw [e] at h; simp only at h
      obtain ⟨t1, o1, g1, m1, R1⟩ := hg w w1 k (hP k (by simp)) e
      obtain ⟨t2, o2, g2, m2, R2⟩ := ih w1 w' (fun k hk => hP k (by simp [hk])) h
      refine ⟨t1 ++ t2, by rw [o2, o1, List.append_assoc], ?_, m1.trans m2, ?_⟩
      · intro t ht
        rcases List.mem_append.mp ht with h | h
        exacts [g1 t h, g2 t h]
      intro T hT r rest hrest hi hin
      obtain ⟨q, r1, e1, i1, inv1, s1, l1⟩ := R1 T (hT.mono m2) r (t2 ++ rest)
        (by intro t ht; rcases List.mem_append.mp ht with h | h; exacts [g2 t h, hrest t h]) hi (by rw [hin, List.append_assoc])
      obtain ⟨qs, r2, e2, i2, inv2, s2, l2, l3⟩ := R2 T hT r1 rest hrest inv1 i1
      refine ⟨q :: qs, r2, ?_, i2, inv2, s1.trans ha inv1 s2, ?_, ?_⟩
      · simp only [List.length_cons, readAll, e1, e2]
      · rw [List.map_cons, l2]
        congr 1
        unfold mp
        rw [s2.map k q l1]; rfl
      · intro k' hk'
        rcases List.mem_cons.mp hk' with rfl | h
        · exact ⟨q, s2.map _ q l1⟩
        · exact l3 k' h

theorem lookup_cons (p q x : Nat) (l : List (Nat × Nat)) : ((p, q) :: l).lookup x = if x = p then some q else l.lookup x := by
  rw [List.lookup_cons]
  by_cases h : x = p
  · simp [h]
  · have : (x == p) = false := by simp [h]
    rw [this, if_neg h]

theorem readPtr_ok (ha : ∀ i j, alloc i = alloc j → i = j) (h0 : ∀ i, alloc i ≠ 0) (P : Nat → Prop)
    (hP : ∀ x, P x → x ≠ 0 ∧ ∀ nd, M.heap x = some nd → Known M nd ∧ ∀ k ∈ kids M nd, P k) :
    ∀ f w w' p, P p → writePtr M f w p = .ok w' → ∃ ts, w'.out = w.out ++ ts ∧ (∀ t ∈ ts, GoodTok t) ∧ WMono w w' ∧
      ∀ T, TOK RB RE T w' → Reads RB RE M alloc w w' ts (readPtr T alloc f) p := by
  intro f
  induction f with
  | zero => intro w w' p _ h; simp [writePtr] at h
  | succ f ih =>
    intro w w' p hp h
    obtain ⟨hp0, hnd⟩ := hP p hp
    rw [writePtr, if_neg hp0] at h
    by_cases hs : p ∈ w.seen
    · rw [if_pos hs, Except.ok.injEq] at h; subst h
      refine ⟨[.ptr p], rfl, by intro t ht; simp at ht; subst ht; trivial, ⟨fun _ h => h, List.prefix_rfl, List.prefix_rfl, List.prefix_rfl⟩, ?_⟩
      intro T hT r rest hrest hi hin
      obtain ⟨q, hq⟩ := (hi.dom p).mp hs
      refine ⟨q, { r with inp := text rest }, ?_, rfl, ⟨hi.dom, hi.inj, hi.rng, hi.std⟩, Step.refl _ _ _ _ rfl rfl rfl rfl, hq⟩
      rw [readPtr, hin, List.singleton_append, rdPtr_text _ _ hrest]
      simp only
      rw [if_neg hp0, hq]
    · rw [if_neg hs] at h
      cases e : M.heap p with
      | none => rw [e] at h; simp at h
      | some nd =>
        rw [e] at h; simp only at h
        obtain ⟨hk, hkids⟩ := hnd nd e
        cases e1 : record M { w with out := w.out ++ [.ptr p], seen := p :: w.seen } nd with
        | none => rw [e1] at h; simp at h
        | some w1 =>
          rw [e1] at h; simp only at h
          obtain ⟨t1, R⟩ := record_ok RB RE M _ w1 nd hk e1
          obtain ⟨t2, o2, g2, m2, R2⟩ := readAll_ok ha (writePtr M f) (fun T => readPtr T alloc f) P ih (kids M nd) w1 w' hkids h
          have hg : ∀ t ∈ t1 ++ t2, GoodTok t := by
            intro t ht
            rcases List.mem_append.mp ht with h | h
            exacts [R.good t h, g2 t h]
          have hm1 : WMono w w1 := ⟨fun x hx => R.mono.seen x (by simp [hx]), R.mono.strs, R.mono.bools, R.mono.bexprs⟩
          refine ⟨.ptr p :: (t1 ++ t2), by rw [o2, R.out]; simp, ?_, hm1.trans m2, ?_⟩
          · intro t ht
            rcases List.mem_cons.mp ht with rfl | h
            exacts [trivial, hg t h]
          intro T hT r rest hrest hi hin
          have hnew : r.map.lookup p = none := by
            cases el : r.map.lookup p with
            | none => rfl
            | some q => exact absurd ((hi.dom p).mpr ⟨q, el⟩) hs
          have hrest2 : ∀ t ∈ t2 ++ rest, GoodTok t := by
            intro t ht
            rcases List.mem_append.mp ht with h | h
            exacts [g2 t h, hrest t h]
          have hrest1 : ∀ t ∈ t1 ++ (t2 ++ rest), GoodTok t := by
            intro t ht
            rcases List.mem_append.mp ht with h | h
            exacts [R.good t h, hrest2 t h]
          obtain ⟨sh, hsh, har, hb⟩ := R.read T r.mem (t2 ++ rest) (hT.mono m2) hrest2 hi.std
          let r1 : RS := { r with inp := text (t2 ++ rest), map := (p, alloc r.cnt) :: r.map, cnt := r.cnt + 1 }
          have hseen1 : w1.seen = p :: w.seen := R.seen
          have inv1 : Inv alloc w1 r1 := by
            refine ⟨?_, ?_, ?_, hi.std⟩
            · intro x
              show _ ↔ ∃ q, ((p, alloc r.cnt) :: r.map).lookup x = some q
              rw [hseen1, lookup_cons]
              by_cases hx : x = p
              · subst hx; simp
              · rw [if_neg hx, ← hi.dom x]; simp [hx]
            · intro x y q
              show ((p, alloc r.cnt) :: r.map).lookup x = some q → ((p, alloc r.cnt) :: r.map).lookup y = some q → x = y
              rw [lookup_cons, lookup_cons]
              by_cases hx : x = p <;> by_cases hy : y = p
              · intro _ _; rw [hx, hy]
              · rw [if_pos hx, if_neg hy]
                intro h1 h2
                simp only [Option.some.injEq] at h1; subst h1
                obtain ⟨i, hi1, hi2⟩ := hi.rng y _ h2
                have := ha _ _ hi2; omega
              · rw [if_neg hx, if_pos hy]
                intro h2 h1
                simp only [Option.some.injEq] at h1; subst h1
                obtain ⟨i, hi1, hi2⟩ := hi.rng x _ h2
                have := ha _ _ hi2; omega
              · rw [if_neg hx, if_neg hy]
                exact hi.inj x y q
            · intro x q
              show ((p, alloc r.cnt) :: r.map).lookup x = some q → ∃ i < r.cnt + 1, q = alloc i
              rw [lookup_cons]
              by_cases hx : x = p
              · rw [if_pos hx]
                intro h; simp only [Option.some.injEq] at h
                exact ⟨r.cnt, by omega, h.symm⟩
              · rw [if_neg hx]
                intro h
                obtain ⟨i, h1, h2⟩ := hi.rng x q h
                exact ⟨i, by omega, h2⟩
          obtain ⟨qs, r2, e2, i2, inv2, s2, l2, l3⟩ := R2 T hT r1 rest hrest inv1 rfl
          have hnz : ∀ k ∈ kids M nd, mp r2.map k ≠ 0 := by
            intro k hk
            obtain ⟨q, hq⟩ := l3 k hk
            obtain ⟨i, _, hi2⟩ := inv2.rng k q hq
            unfold mp; rw [hq, hi2]; exact h0 i
          obtain ⟨nd', M2, hbd, hsame, b1, b2, b3, b4, b5, b6⟩ := hb r2.mem (mp r2.map) s2.streams s2.nref s2.ncache hnz
          have hlp : r2.map.lookup p = some (alloc r.cnt) := s2.map p _ (by
            show ((p, alloc r.cnt) :: r.map).lookup p = _
            rw [lookup_cons, if_pos rfl])
          have hmpp : mp r2.map p = alloc r.cnt := by unfold mp; rw [hlp]; rfl
          have hps : p ∈ w'.seen := m2.seen p (by rw [hseen1]; simp)
          have hput : ∀ x ∈ w'.seen, x ≠ p → (put M2 (alloc r.cnt) nd').heap (mp r2.map x) = r2.mem.heap (mp r2.map x) := by
            intro x hx hxp
            obtain ⟨q, hq⟩ := (inv2.dom x).mp hx
            have : mp r2.map x = q := by unfold mp; rw [hq]; rfl
            show (if mp r2.map x = alloc r.cnt then some nd' else M2.heap (mp r2.map x)) = _
            rw [this, if_neg, b1]
            intro he
            subst he
            exact hxp (inv2.inj x p _ hq hlp)
          refine ⟨alloc r.cnt, { r2 with mem := put M2 (alloc r.cnt) nd' }, ?_, i2, ⟨inv2.dom, inv2.inj, inv2.rng, ?_⟩, ?_, hlp⟩
          · rw [readPtr, hin, List.cons_append, List.append_assoc, rdPtr_text _ _ hrest1]
            simp only
            rw [if_neg hp0, hnew]
            simp only [hsh, har]
            simp only [r1] at e2
            rw [e2]
            simp only [l2, hbd]
          · show ∀ n ∈ stdNames, ∃ id, (id, n) ∈ M2.streams
            rw [b2]; exact inv2.std
          · have hold : ∀ x ∈ w'.seen, x ∉ w.seen → x ≠ p → x ∉ w1.seen := by
              intro x _ hn hxp
              rw [hseen1]; simp [hxp, hn]
            have hc := s2.cnt
            simp only [r1] at hc
            refine ⟨by simp only; omega, Nat.le_trans s2.nref b3, Nat.le_trans s2.ncache b4, b2.trans s2.streams, ?_, ?_, ?_,
              fun x hx => m2.seen x (by rw [hseen1]; simp [hx]), ?_, ?_⟩
            · intro x q hq
              refine s2.map x q ?_
              show ((p, alloc r.cnt) :: r.map).lookup x = some q
              rw [lookup_cons, if_neg (by intro hx; rw [hx, hnew] at hq; simp at hq), hq]
            · intro y hy
              show (if y = alloc r.cnt then some nd' else M2.heap y) = _
              rw [if_neg (hy r.cnt (Nat.le_refl _) (by simp only; omega)), b1,
                s2.heap y (fun i h1 h2 => hy i (by simp only [r1] at h1; omega) h2)]
            · intro v hv
              show M2.refs v = _
              rw [b5 v (Nat.lt_of_lt_of_le hv s2.nref), s2.refs v hv]
            · intro x hx hn
              by_cases hxp : x = p
              · subst hxp
                refine ⟨nd, nd', e, ?_, ?_, fun k hk => (inv2.dom k).mpr (l3 k hk)⟩
                · show (if mp r2.map x = alloc r.cnt then some nd' else M2.heap (mp r2.map x)) = _
                  rw [if_pos hmpp]
                · exact hsame.congr (fun _ _ => rfl) (Nat.le_refl _) (Nat.le_refl _) rfl (Nat.le_refl _) (Nat.le_refl _) (fun _ _ => rfl)
              · obtain ⟨n1, n2, a1, a2, a3, a4⟩ := s2.done x hx (hold x hx hn hxp)
                refine ⟨n1, n2, a1, ?_, ?_, a4⟩
                · show (put M2 (alloc r.cnt) nd').heap (mp r2.map x) = _
                  rw [hput x hx hxp, a2]
                · exact a3.congr (fun _ _ => rfl) (Nat.le_refl _) (Nat.le_refl _) rfl b3 b4 b5
            · intro x hx hnx y hy hny v hvx hvy
              have hvx' : (put M2 (alloc r.cnt) nd').heap (mp r2.map x) = some (.ref v) := hvx
              have hvy' : (put M2 (alloc r.cnt) nd').heap (mp r2.map y) = some (.ref v) := hvy
              have hself : (put M2 (alloc r.cnt) nd').heap (mp r2.map p) = some nd' := by
                show (if mp r2.map p = alloc r.cnt then some nd' else M2.heap (mp r2.map p)) = _
                rw [if_pos hmpp]
              have low : ∀ z ∈ w'.seen, z ∉ w.seen → z ≠ p → r2.mem.heap (mp r2.map z) = some (.ref v) → v < r2.mem.nref := by
                intro z hz hnz hzp hv
                obtain ⟨n1, n2, a1, a2, a3, a4⟩ := s2.done z hz (hold z hz hnz hzp)
                rw [hv, Option.some.injEq] at a2; subst a2
                cases a3 with
                | ref v v' a b c => exact b
              by_cases hxp : x = p <;> by_cases hyp : y = p
              · rw [hxp, hyp]
              · rw [hxp, hself, Option.some.injEq] at hvx'
                rw [hput y hy hyp] at hvy'
                have := (b6 v hvx').1
                have := low y hy hny hyp hvy'
                omega
              · rw [hyp, hself, Option.some.injEq] at hvy'
                rw [hput x hx hxp] at hvx'
                have := (b6 v hvy').1
                have := low x hx hnx hxp hvx'
                omega
              · rw [hput x hx hxp] at hvx'
                rw [hput y hy hyp] at hvy'
                exact s2.apart x hx (hold x hx hnx hxp) y hy (hold y hy hny hyp) v hvx' hvy'

end Voss.Io.Save
