import Verif.Iso.MakeLemmas

/-
C81: searching for a circuit in another one.
-/
namespace Voss.Iso
open Hier

/-! ### The search -/

/-- The instances that stand for each other, from instance `o` on. -/
def likeFrom (p g : Pex) (o : Nat) (i c : Nat) : Prop := ∃ x y, inst p (i + o) = some x ∧ inst g (c + o) = some y ∧ Alike x y

/-- **A search finds every occurrence once.**  For matrices of any size, where the wires of the haystack have no direction:
there is a list of exactly the occurrences, in lexicographic order, so that no one comes twice; the calls of a search answer
with its elements in turn, then with the empty list, and then begin again.  Every call ends. -/
theorem c81_matrices (R C : Nat) (iso p g : Mat) (hR : 0 < R) (hg : ∀ i j, g i j = g j i) :
    ∃ l : List (List Nat), (∀ f, f ∈ l ↔ Occurs R C (fun i c => iso i c = true) (fun i j => p i j = true) (fun i j => g i j = true) f) ∧
      l.Pairwise (List.Lex (· < ·)) ∧
      ∀ n, ∃ K, ∀ fuel, K ≤ fuel → steps fuel n (initSearch R C iso p g) = some ((List.range n).map (answer l)) := by
  classical
  refine ⟨_, ?_, ?_, fun n => steps_init R C iso p g hR n⟩
  · intro f
    have := dfs_spec R C iso p g hg R [] iso (fun _ => false) (Inv.init R C iso p g) (by simp)
    rw [List.length_nil] at this
    rw [this]
    simp only [List.nil_append, List.map_id', List.mem_filter, mem_seqs, good]
    constructor
    · exact fun h => of_decide_eq_true h.2
    · exact fun h => ⟨⟨h.length, h.inside⟩, decide_eq_true h⟩
  · have := dfs_spec R C iso p g hg R [] iso (fun _ => false) (Inv.init R C iso p g) (by simp)
    rw [List.length_nil] at this
    rw [this]
    simp only [List.nil_append, List.map_id']
    exact (seqs_sorted C R).sublist List.filter_sublist

/-- **A search for a circuit in a circuit finds every occurrence once.**  If both have wires, and all instances have a
signature and a fingerprint in the range of `int`, a search exists; its calls answer, in lexicographic order, exactly the
assignments of instances to instances of the same fingerprint or signature that keep different ones apart and wires
connected; then they answer with the empty list.  With `wrapped` the circuits themselves (instance 0) do not take part. -/
theorem c81_search_partial (p g : Pex) (ks ls : List Pex) (wrapped : Bool) (hk : p.kids = some ks) (hl : g.kids = some ls)
    (hks : ks ≠ []) (hls : ls ≠ [])
    (hp : ∀ i x, inst p i = some x → Signed x) (hg : ∀ i x, inst g i = some x → Signed x)
    (es fs : List (Nat × Nat)) (he : adjacencies p = some es) (hne : es ≠ []) (hf : adjacencies g = some fs) (hnf : fs ≠ []) :
    ∃ s l, create p g wrapped = .ok s ∧
      (∀ f, f ∈ l ↔
        let o := if wrapped then 1 else 0
        Occurs (ks.length + 1 - o) (ls.length + 1 - o) (likeFrom p g o) (fun i j => Joined p (i + o) (j + o))
          (fun i j => Joined g (i + o) (j + o)) f) ∧
      l.Pairwise (List.Lex (· < ·)) ∧
      ∀ n, ∃ K, ∀ fuel, K ≤ fuel → steps fuel n s = some ((List.range n).map (answer l)) := by
  obtain ⟨a, ha, ha'⟩ := mkAdj_spec p es he hne
  obtain ⟨b, hb, hb'⟩ := mkAdj_spec g fs hf hnf
  obtain ⟨c, hc, hc'⟩ := mkIso_spec p g ks ls hk hl hp hg
  have hs1 : topSize p = ks.length + 1 := by simp only [topSize, hk]; omega
  have hs2 : topSize g = ls.length + 1 := by simp only [topSize, hl]; omega
  have hpos : 0 < ks.length := List.length_pos_iff.2 hks
  have hpos' : 0 < ls.length := List.length_pos_iff.2 hls
  have hsym : ∀ i j, b i j = b j i := by
    intro i j
    rw [Bool.eq_iff_iff, hb', hb']
    constructor <;> rintro ⟨h1, l, h2, h3⟩ <;> exact ⟨Ne.symm h1, l, h2, h3.symm⟩
  have hcreate : create p g wrapped = if wrapped then
      .ok (initSearch ks.length ls.length (trimMatrix c) (trimMatrix a) (trimMatrix b))
      else .ok (initSearch (ks.length + 1) (ls.length + 1) c a b) := by
    unfold create
    rw [if_neg (by omega), if_neg (by omega), ha, hb, hc, hs1, hs2]
    cases wrapped <;> rfl
  cases wrapped with
  | false =>
    obtain ⟨l, h1, h2, h3⟩ := c81_matrices (ks.length + 1) (ls.length + 1) c a b (by omega) hsym
    refine ⟨_, l, hcreate, ?_, h2, h3⟩
    intro f
    rw [h1 f]
    simp only [hc', ha', hb', Bool.false_eq_true, if_false, Nat.sub_zero, Nat.add_zero]
    rfl
  | true =>
    obtain ⟨l, h1, h2, h3⟩ := c81_matrices ks.length ls.length (trimMatrix c) (trimMatrix a) (trimMatrix b) hpos
      (fun i j => hsym _ _)
    refine ⟨_, l, hcreate, ?_, h2, h3⟩
    intro f
    rw [h1 f]
    simp only [trimMatrix, hc', ha', hb', if_true, Nat.add_sub_cancel]
    rfl

/-! ### Examples -/

/-- An instance with signatures and a wire through it. -/
def gate (nm fp sha i o : String) : Pex :=
  .mk nm.toList [("FP".toList, fp.toList), ("SHA".toList, sha.toList)] true [⟨"i".toList, [i.toList]⟩] [⟨"o".toList, [o.toList]⟩] []
    none 1

/-- A chain of instances. -/
def chain (fp sha : String) (ks : List Pex) : Pex :=
  .mk "top".toList [("FP".toList, fp.toList), ("SHA".toList, sha.toList)] false [⟨"a".toList, []⟩] [⟨"z".toList, []⟩] [] (some ks) 0

/-- Two inverters in a row, and three inverters in a row. -/
def two : Pex := chain "77" "t2" [gate "inv" "5" "s" "a" "b", gate "inv" "5" "s" "b" "z"]
def three : Pex := chain "78" "t3" [gate "inv" "5" "s" "a" "b", gate "inv" "5" "s" "b" "c", gate "inv" "5" "s" "c" "z"]

/-- The answers of a search. -/
def answers (p g : Pex) (wrapped : Bool) (fuel n : Nat) : Option (List (List (Nat × Nat))) :=
  match create p g wrapped with
  | .ok s => steps fuel n s
  | _ => none

/-- Two inverters occur four times in three (in both directions), then the search says so and starts again. -/
example : answers two three true 100 6 =
    some [[(0, 0), (1, 1)], [(0, 1), (1, 0)], [(0, 1), (1, 2)], [(0, 2), (1, 1)], [], [(0, 0), (1, 1)]] := by
  decide +kernel

/-- The hypotheses hold of these circuits. -/
example : ∃ (s : Search) (l : List (List Nat)), create two three true = .ok s ∧ (∀ f, f ∈ l ↔ Occurs 2 3 (likeFrom two three 1)
    (fun i j => Joined two (i + 1) (j + 1)) (fun i j => Joined three (i + 1) (j + 1)) f) := by
  have hs : ∀ nm fp sha i o n, atoi fp.toList = some n → n ≠ 0 → Signed (gate nm fp sha i o) := by
    intro nm fp sha i o n h1 h2
    refine ⟨⟨n, fp.toList, rfl, h1, h2⟩, ⟨sha.toList, rfl⟩, ?_⟩
    intro a ha hk
    simp only [gate, Pex.attrs, List.mem_cons, List.not_mem_nil, or_false] at ha
    rcases ha with rfl | rfl
    · simp [h1]
    · exact absurd (show "SHA".toList = "FP".toList from hk) (by decide)
  have ht : ∀ fp sha ks n, atoi fp.toList = some n → n ≠ 0 → Signed (chain fp sha ks) := by
    intro fp sha ks n h1 h2
    refine ⟨⟨n, fp.toList, rfl, h1, h2⟩, ⟨sha.toList, rfl⟩, ?_⟩
    intro a ha hk
    simp only [chain, Pex.attrs, List.mem_cons, List.not_mem_nil, or_false] at ha
    rcases ha with rfl | rfl
    · simp [h1]
    · exact absurd (show "SHA".toList = "FP".toList from hk) (by decide)
  have h5 := hs "inv" "5" "s"
  have d5 : atoi "5".toList = some 5 := by decide +kernel
  obtain ⟨s, l, h1, h2, _⟩ := c81_search_partial two three
    [gate "inv" "5" "s" "a" "b", gate "inv" "5" "s" "b" "z"]
    [gate "inv" "5" "s" "a" "b", gate "inv" "5" "s" "b" "c", gate "inv" "5" "s" "c" "z"] true rfl rfl (by simp) (by simp)
    (by
      intro i x hx
      match i, hx with
      | 0, hx => obtain rfl := Option.some.inj hx; exact ht _ _ _ 77 (by decide +kernel) (by decide)
      | 1, hx => obtain rfl := Option.some.inj hx; exact h5 _ _ 5 d5 (by decide)
      | 2, hx => obtain rfl := Option.some.inj hx; exact h5 _ _ 5 d5 (by decide)
      | i + 3, hx => exact absurd hx (by simp [inst, two, chain, Pex.kids]))
    (by
      intro i x hx
      match i, hx with
      | 0, hx => obtain rfl := Option.some.inj hx; exact ht _ _ _ 78 (by decide +kernel) (by decide)
      | 1, hx => obtain rfl := Option.some.inj hx; exact h5 _ _ 5 d5 (by decide)
      | 2, hx => obtain rfl := Option.some.inj hx; exact h5 _ _ 5 d5 (by decide)
      | 3, hx => obtain rfl := Option.some.inj hx; exact h5 _ _ 5 d5 (by decide)
      | i + 4, hx => exact absurd hx (by simp [inst, three, chain, Pex.kids]))
    [(0, 1), (2, 0), (0, 1), (1, 2), (1, 2), (2, 0)] [(0, 1), (3, 0), (0, 1), (1, 2), (1, 2), (2, 3), (2, 3), (3, 0)]
    (by decide +kernel) (by simp) (by decide +kernel) (by simp)
  exact ⟨s, l, h1, h2⟩

/-! ### Where the program does something else -/

/-- Is there undefined behaviour, or a failure? -/
def Made.tag {α} : Made α → Nat
  | .ub => 0
  | .die => 1
  | .fail => 2
  | .ok _ => 3

/-- A fingerprint beyond the range of `int`, which the program itself computes for all but small circuits, is undefined
behaviour in a search (`atoi`). -/
theorem c81_fingerprint_violated :
    (create (chain "2147483648" "t2" [gate "inv" "5" "s" "a" "z"]) three true).tag = 0 := by
  decide +kernel

/-- A needle without wires fails, even if it occurs: here an instance that is not connected, in a circuit that has the same
instance. -/
theorem c81_unwired_violated :
    (create (chain "77" "t2" [gate "inv" "5" "s" "x" "y"]) three true).tag = 2 ∧
      Alike (gate "inv" "5" "s" "x" "y") (gate "inv" "5" "s" "a" "b") := by
  refine ⟨by decide +kernel, .inr ⟨"s".toList, by decide +kernel, by decide +kernel⟩⟩

/-- Wires have no direction for the search: one instance that drives the other occurs where it is the other way around. -/
theorem c81_direction_violated :
    answers (chain "77" "t2" [gate "and" "6" "s" "a" "b", gate "inv" "5" "t" "b" "z"])
      (chain "78" "t3" [gate "and" "6" "s" "b" "z", gate "inv" "5" "t" "a" "b"]) true 100 1 = some [[(0, 0), (1, 1)]] := by
  decide +kernel

end Voss.Iso
