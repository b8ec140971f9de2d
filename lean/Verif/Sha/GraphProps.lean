import Verif.Sha.GraphLemmas
import Verif.Sha.Props

/-!
# C80: what the signature of a value tells
-/
namespace Voss.Sha

/-- **C80, termination.**  The traversal of a finite graph ends, also when the graph has cycles. -/
theorem c80_terminates (h : Heap) (N : List Addr) (root : Addr) (hr : root ∈ N)
    (hN : ∀ a ∈ N, ∀ c ∈ (h a).kids, c ∈ N) : ∃ ps, printed h (N.length + 1) root = some ps := by
  obtain ⟨r, h1⟩ := visit_total h N hN (N.length + 1) St.start root hr (by
    have : unseen N St.start ≤ N.length := List.length_filter_le _ _
    omega)
  exact ⟨r.2.out, by unfold printed; rw [h1]; rfl⟩

theorem printed_some {h : Heap} {n : Nat} {a : Addr} {ps : List Text} (hp : printed h n a = some ps) :
    ∃ k st, visit h n St.start a = some (k, st) ∧ st.out = ps := by
  unfold printed at hp
  cases h1 : visit h n St.start a with
  | none => rw [h1] at hp; simp at hp
  | some r =>
    rw [h1] at hp
    simp only [Option.map_some, Option.some.injEq] at hp
    exact ⟨r.1, r.2, rfl, hp⟩

theorem printed_lines {h : Heap} {n : Nat} {a : Addr} {ps : List Text} (hc : Clean h a) (hp : printed h n a = some ps) :
    ∀ p ∈ ps, IsLine p := by
  obtain ⟨k, st, h1, rfl⟩ := printed_some hp
  exact out_lines hc (visit_inv (reach_prop hc) n _ _ _ _ (start_inv h _) .root h1).1

/-- **C80, text.**  Two values without newlines in their strings for which the same text is hashed have the same graphs, up
to the addresses of the nodes and up to the contents of references.  Sharing and cycles are part of the graph. -/
theorem c80_text_partial (h h' : Heap) (a a' : Addr) (n n' : Nat) (ps ps' : List Text) (hc : Clean h a) (hc' : Clean h' a')
    (hp : printed h n a = some ps) (hp' : printed h' n' a' = some ps') (he : ps.flatten = ps'.flatten) :
    ∃ R, SameGraph (fun _ _ _ => True) h h' a a' R := by
  have hl := lines_inj ps ps' (printed_lines hc hp) (printed_lines hc' hp') he
  obtain ⟨k, st, h1, h2⟩ := printed_some hp
  obtain ⟨k', st', h3, h4⟩ := printed_some hp'
  exact ⟨_, same_of_out hc hc' h1 h3 (h2.trans (hl.trans h4.symm))⟩

/-- **C80, addresses.**  The signature does not depend on where the nodes are: values with the same graph have the same
signature, in every session. -/
theorem c80_addresses (h h' : Heap) (a a' : Addr) (R : Addr → Addr → Prop) (hs : SameGraph (fun R => R) h h' a a' R)
    (h0 : ∀ x y, R x y → (x = 0 ↔ y = 0)) (n : Nat) (junk : List Byte) :
    printed h n a = printed h' n a' ∧ signature junk h n a = signature junk h' n a' := by
  have hp : printed h n a = printed h' n a' := by
    have := visit_rel hs.node hs.right hs.left h0 n St.start St.start a a' ⟨rfl, .nil, rfl⟩ hs.root
    unfold printed
    cases h1 : visit h n St.start a with
    | none =>
      rw [h1] at this
      cases h2 : visit h' n St.start a' with
      | none => rfl
      | some r => rw [h2] at this; exact this.elim
    | some r =>
      rw [h1] at this
      cases h2 : visit h' n St.start a' with
      | none => rw [h2] at this; exact this.elim
      | some r' =>
        rw [h2] at this
        obtain ⟨_, _, _, h3⟩ := this
        simp only [Option.map_some, h3]
  exact ⟨hp, by unfold signature; rw [hp]⟩

theorem line_bytes {t : Text} (h : IsLine t) : ∀ c ∈ t, c.toNat < 256 := by
  obtain ⟨k, s, rfl, hs⟩ := h
  intro c hc
  unfold line at hc
  simp only [List.mem_append, List.mem_cons] at hc
  rcases hc with hc | rfl | hc | rfl | hc
  · exact (digit_ne_nl (dec_digit k c hc)).2
  · decide
  · exact (body_clean s hs c hc).2
  · decide
  · cases s <;> simp only [Shape.tail, List.mem_cons, List.not_mem_nil, or_false] at hc
    subst hc; decide

theorem toBytes_inj : ∀ (s t : Text), (∀ c ∈ s, c.toNat < 256) → (∀ c ∈ t, c.toNat < 256) → toBytes s = toBytes t → s = t := by
  intro s
  induction s with
  | nil => intro t _ _ h; cases t with
    | nil => rfl
    | cons c t => simp [toBytes] at h
  | cons c s ih =>
    intro t hs ht h
    cases t with
    | nil => simp [toBytes] at h
    | cons d t =>
      simp only [toBytes, List.map_cons, List.cons.injEq] at h
      have h1 := hs c (by simp)
      have h2 := ht d (by simp)
      have h3 : c.toNat = d.toNat := by
        have := congrArg BitVec.toNat h.1
        simp only [BitVec.toNat_ofNat] at this
        omega
      have h4 : c = d := Char.ext (UInt32.toNat_inj.1 h3)
      rw [h4, ih t (fun c hc => hs c (by simp [hc])) (fun c hc => ht c (by simp [hc])) h.2]

theorem flatten_bytes (ps : List Text) : (ps.map toBytes).flatten = toBytes ps.flatten := by
  unfold toBytes
  rw [← List.map_flatten]

/-- **C80.**  Two values, without newlines in their strings and with pieces of at most 4095 characters, that have the same
signature: either their graphs are the same up to addresses and the contents of references, or the texts of these two
values are a collision of SHA-256. -/
theorem c80_signature_partial : ∃ k h0, Fips.Constants k h0 ∧ ∀ (h h' : Heap) (a a' : Addr) (n n' : Nat)
    (ps ps' : List Text) (junk junk' : List Byte),
    Clean h a → Clean h' a' → printed h n a = some ps → printed h' n' a' = some ps' →
    (∀ p ∈ ps, p.length ≤ 4095) → (∀ p ∈ ps', p.length ≤ 4095) →
    8 * ps.flatten.length < 2 ^ 64 → 8 * ps'.flatten.length < 2 ^ 64 → junk.length = 64 → junk'.length = 64 →
    signature junk h n a = signature junk' h' n' a' →
    (∃ R, SameGraph (fun _ _ _ => True) h h' a a' R) ∨
    (toBytes ps.flatten ≠ toBytes ps'.flatten ∧
      (Fips.sha256 k h0 (toBytes ps.flatten)).flatMap Fips.hex = (Fips.sha256 k h0 (toBytes ps'.flatten)).flatMap Fips.hex) := by
  obtain ⟨k, h0, hk, hsha⟩ := c79_sha256
  refine ⟨k, h0, hk, ?_⟩
  intro h h' a a' n n' ps ps' junk junk' hc hc' hp hp' hl hl' hb hb' hj hj' hs
  have hb1 : ∀ c ∈ ps.flatten, c.toNat < 256 := by
    intro c hc1
    obtain ⟨p, hp1, hc2⟩ := List.mem_flatten.1 hc1
    exact line_bytes (printed_lines hc hp p hp1) c hc2
  have hb2 : ∀ c ∈ ps'.flatten, c.toNat < 256 := by
    intro c hc1
    obtain ⟨p, hp1, hc2⟩ := List.mem_flatten.1 hc1
    exact line_bytes (printed_lines hc' hp' p hp1) c hc2
  by_cases he : toBytes ps.flatten = toBytes ps'.flatten
  · exact .inl (c80_text_partial h h' a a' n n' ps ps' hc hc' hp hp' (toBytes_inj _ _ hb1 hb2 he))
  · refine .inr ⟨he, ?_⟩
    unfold signature at hs
    rw [hp, hp'] at hs
    simp only [Option.map_some, Option.some.injEq] at hs
    rw [hsha junk _ hj (by
        intro t ht
        obtain ⟨p, hp1, rfl⟩ := List.mem_map.1 ht
        simpa [toBytes] using hl p hp1) (by rw [flatten_bytes, toBytes, List.length_map]; exact hb),
      hsha junk' _ hj' (by
        intro t ht
        obtain ⟨p, hp1, rfl⟩ := List.mem_map.1 ht
        simpa [toBytes] using hl' p hp1) (by rw [flatten_bytes, toBytes, List.length_map]; exact hb'), flatten_bytes, flatten_bytes] at hs
    exact hs

/-! ### Cases that meet the hypotheses -/

/-- The list `["a", 7]`, and a function that calls itself. -/
def exHeap : Heap
  | 1 => .cons 2 3
  | 2 => .str ['a']
  | 3 => .cons 4 5
  | 4 => .int 7
  | 5 => .nil
  | 10 => .lam ['x'] 11
  | 11 => .app 10 12
  | 12 => .var ['x']
  | _ => .nil

/-- The same list at other addresses. -/
def exHeap' : Heap
  | 8 => .cons 7 6
  | 7 => .str ['a']
  | 6 => .cons 5 4
  | 5 => .int 7
  | 4 => .nil
  | _ => .nil

example : printed exHeap 6 1 = some ["2=\"a\"\n".toList, "4=I7\n".toList, "5=[]\n".toList, "3=4:5\n".toList, "1=2:3\n".toList] ∧
    printed exHeap 6 1 = printed exHeap' 6 8 := by decide +kernel
example : printed exHeap 6 10 = some ["3=VAR x\n".toList, "2=1@3\n".toList, "1=\\x.2\n".toList] := by decide +kernel
example : Clean exHeap 1 := by
  have key : ∀ a, Reach exHeap 1 a → a ∈ [1, 2, 3, 4, 5] := by
    intro a ha
    induction ha with
    | root => simp
    | @step a b _ hb ih =>
      simp only [List.mem_cons, List.not_mem_nil, or_false] at ih
      rcases ih with rfl | rfl | rfl | rfl | rfl <;> simp only [exHeap, Node.kids, List.mem_cons, List.not_mem_nil, or_false] at hb ⊢
      · rcases hb with rfl | rfl <;> decide
      · rcases hb with rfl | rfl <;> decide
  intro a ha
  have := key a ha
  revert this
  revert a
  have : ∀ a ∈ [1, 2, 3, 4, 5], a ≠ 0 ∧ ∀ c ∈ (exHeap a).text, c ≠ '\n' ∧ c.toNat < 256 := by decide +kernel
  exact fun a _ h => this a h
example : SameGraph (fun R => R) exHeap exHeap' 1 8
    (fun x y => (x, y) ∈ [(1, 8), (2, 7), (3, 6), (4, 5), (5, 4)]) := by
  refine ⟨by decide, ?_, ?_, ?_⟩
  · intro x y hxy
    simp only [List.mem_cons, List.not_mem_nil, or_false, Prod.mk.injEq] at hxy
    rcases hxy with ⟨rfl, rfl⟩ | ⟨rfl, rfl⟩ | ⟨rfl, rfl⟩ | ⟨rfl, rfl⟩ | ⟨rfl, rfl⟩
    · exact .cons (by decide) (by decide)
    · exact .str _
    · exact .cons (by decide) (by decide)
    · exact .int _
    · exact .nil
  · have : ∀ x y z : Nat, (x, y) ∈ [(1, 8), (2, 7), (3, 6), (4, 5), (5, 4)] →
        (x, z) ∈ [(1, 8), (2, 7), (3, 6), (4, 5), (5, 4)] → y = z := by
      intro x y z h1 h2
      simp only [List.mem_cons, List.not_mem_nil, or_false, Prod.mk.injEq] at h1 h2
      omega
    exact this
  · have : ∀ x y z : Nat, (x, z) ∈ [(1, 8), (2, 7), (3, 6), (4, 5), (5, 4)] →
        (y, z) ∈ [(1, 8), (2, 7), (3, 6), (4, 5), (5, 4)] → x = y := by
      intro x y z h1 h2
      simp only [List.mem_cons, List.not_mem_nil, or_false, Prod.mk.injEq] at h1 h2
      omega
    exact this

/-! ### Where the signature says less, or more, than it should -/

/-- The pair `("a\"\n3=\"b", "c")`. -/
def nlHeap : Heap
  | 1 => .cons 2 3
  | 2 => .str "a\"\n3=\"b".toList
  | 3 => .str "c".toList
  | _ => .nil

/-- The pair `("a", "b\"\n3=\"c")`. -/
def nlHeap' : Heap
  | 1 => .cons 2 3
  | 2 => .str "a".toList
  | 3 => .str "b\"\n3=\"c".toList
  | _ => .nil

/-- **C80, newlines.**  Strings are not quoted in the text: two pairs of different strings have the same signature. -/
theorem c80_newline_violated (junk : List Byte) (hj : junk.length = 64) :
    signature junk nlHeap 4 1 = signature junk nlHeap' 4 1 ∧ signature junk nlHeap 4 1 ≠ none ∧
      ¬ ∃ R, SameGraph (fun _ _ _ => True) nlHeap nlHeap' 1 1 R := by
  have e1 : printed nlHeap 4 1 = some ["2=\"a\"\n3=\"b\"\n".toList, "3=\"c\"\n".toList, "1=2:3\n".toList] := by decide +kernel
  have e2 : printed nlHeap' 4 1 = some ["2=\"a\"\n".toList, "3=\"b\"\n3=\"c\"\n".toList, "1=2:3\n".toList] := by decide +kernel
  refine ⟨?_, ?_, ?_⟩
  · unfold signature
    rw [e1, e2]
    simp only [Option.map_some]
    exact congrArg some (c79_pieces junk junk _ _ hj hj (by decide +kernel) (by decide +kernel) (by decide +kernel)
      (by decide +kernel))
  · unfold signature; rw [e1]; exact Option.some_ne_none _
  · rintro ⟨R, hR⟩
    have h1 := hR.node 1 1 hR.root
    simp only [nlHeap, nlHeap'] at h1
    cases h1 with
    | cons hl hr =>
      have h2 := hR.node 2 2 hl
      simp only [nlHeap, nlHeap'] at h2
      have : ∀ s t, NodeRel R (fun _ _ => True) (.str s) (.str t) → s = t := by
        intro s t h; cases h; rfl
      exact absurd (this _ _ h2) (by decide +kernel)

/-- A string at the address 1. -/
def strHeap (s : Text) : Heap := fun _ => .str s

/-- **C80, long strings.**  Strings that differ only after 4092 characters have the same signature. -/
theorem c80_long_violated (junk : List Byte) (pre s t : Text) (h : pre.length = 4092) :
    signature junk (strHeap (pre ++ s)) 1 1 = signature junk (strHeap (pre ++ t)) 1 1 := by
  have e : ∀ u : Text, signature junk (strHeap (pre ++ u)) 1 1 =
      some (hashOf junk [toBytes ("1=\"".toList ++ pre) ++ toBytes (u ++ ['"', '\n'])]) := by
    intro u
    have h1 : printed (strHeap (pre ++ u)) 1 1 = some [line 1 (.str (pre ++ u))] := rfl
    unfold signature
    rw [h1]
    simp only [Option.map_some, List.map_cons, List.map_nil]
    have h2 : line 1 (.str (pre ++ u)) = ("1=\"".toList ++ pre) ++ (u ++ ['"', '\n']) := by
      have : dec 1 = ['1'] := by decide
      simp [line, Shape.body, Shape.tail, this]
    rw [h2]
    simp only [toBytes, List.map_append]
  rw [e, e, c79_long_violated]
  simp [toBytes, h]

/-- The pair `let x = "a" in (x, x)`. -/
def sharedHeap : Heap
  | 1 => .cons 2 2
  | 2 => .str ['a']
  | _ => .nil

/-- The pair `("a", "a")`. -/
def copiedHeap : Heap
  | 1 => .cons 2 3
  | 2 => .str ['a']
  | 3 => .str ['a']
  | _ => .nil

/-- **C80, sharing.**  Equal values have different signatures when one of them shares its parts. -/
theorem c80_sharing_violated (junk : List Byte) (hj : junk.length = 64) :
    (∃ R : Addr → Addr → Prop, R 1 1 ∧ ∀ x y, R x y → NodeRel R R (sharedHeap x) (copiedHeap y)) ∧
      signature junk sharedHeap 4 1 ≠ signature junk copiedHeap 4 1 := by
  refine ⟨⟨fun x y => (x, y) ∈ [(1, 1), (2, 2), (2, 3)], by decide, ?_⟩, ?_⟩
  · intro x y hxy
    simp only [List.mem_cons, List.not_mem_nil, or_false, Prod.mk.injEq] at hxy
    rcases hxy with ⟨rfl, rfl⟩ | ⟨rfl, rfl⟩ | ⟨rfl, rfl⟩
    · exact .cons (by decide) (by decide)
    · exact .str _
    · exact .str _
  · have key : ∀ (h : Heap) (ps : List Text), printed h 4 1 = some ps → (∀ t ∈ ps.map toBytes, t.length ≤ 4095) →
        8 * (ps.map toBytes).flatten.length < 2 ^ 64 →
        signature junk h 4 1 = signature (List.replicate 64 0) h 4 1 := by
      intro h ps e h1 h2
      unfold signature
      rw [e]
      simp only [Option.map_some]
      exact congrArg some (c79_pieces _ _ _ _ hj rfl h1 h1 rfl h2)
    rw [key sharedHeap ["2=\"a\"\n".toList, "1=2:2\n".toList] (by decide +kernel) (by decide +kernel) (by decide +kernel),
      key copiedHeap ["2=\"a\"\n".toList, "3=\"a\"\n".toList, "1=2:3\n".toList] (by decide +kernel) (by decide +kernel)
        (by decide +kernel)]
    decide +kernel

/-- The list of "a", "b" and a reference with the contents at `c`. -/
def refHeap (c : Addr) : Heap
  | 1 => .cons 2 4
  | 2 => .str ['a']
  | 3 => .str ['b']
  | 4 => .cons 3 5
  | 5 => .ref 0 c
  | _ => .nil

/-- **C80, references.**  The number of the contents of a reference is not printed: the signature is the same whether the
reference holds the first or the second string. -/
theorem c80_ref_violated (junk : List Byte) : signature junk (refHeap 2) 6 1 = signature junk (refHeap 3) 6 1 ∧
    ¬ ∃ R, SameGraph (fun R => R) (refHeap 2) (refHeap 3) 1 1 R := by
  refine ⟨?_, ?_⟩
  · have : printed (refHeap 2) 6 1 = printed (refHeap 3) 6 1 := by decide +kernel
    unfold signature; rw [this]
  · rintro ⟨R, hR⟩
    have h1 := hR.node 1 1 hR.root
    simp only [refHeap] at h1
    cases h1 with
    | cons hl hr =>
      have h4 := hR.node 4 4 hr
      simp only [refHeap] at h4
      cases h4 with
      | cons h3 h5 =>
        have h6 := hR.node 5 5 h5
        simp only [refHeap] at h6
        cases h6 with
        | ref _ hc =>
          have h7 := hR.node 2 3 hc
          simp only [refHeap] at h7
          have : ∀ s t, NodeRel R R (.str s) (.str t) → s = t := by
            intro s t h; cases h; rfl
          exact absurd (this _ _ h7) (by decide)

/-- **C80, Boolean expressions.**  The signature of every Boolean expression with a conjunction at its root is undefined
behaviour: a number is printed with `%s`. -/
theorem c80_bexpr_violated (l r : BE) : shaBexpr ⟨1, [], []⟩ (.and l r) = none ∧ shaBexpr ⟨1, [], []⟩ (.neg (.and l r)) = none :=
  ⟨rfl, rfl⟩

end Voss.Sha
