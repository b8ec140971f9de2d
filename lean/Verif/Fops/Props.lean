import Verif.Fops.Lemmas

/-! C112: buffered files. -/

namespace Voss.Fops

variable {α : Type}

/-- Reading records of the given sizes one after the other gives the given records. -/
inductive Reads (os : Nat → Option Nat) : R α → List Nat → List (List α) → R α → Prop
  | nil (r : R α) : Reads os r [] [] r
  | cons {r r' r'' : R α} {n : Nat} {l : List α} {ns : List Nat} {ls : List (List α)} (fuel : Nat)
      (h : llRead os fuel r n = some (.bytes l r')) (t : Reads os r' ns ls r'') : Reads os r (n :: ns) (l :: ls) r''

/-- Records written to a file are added to what was in it, in order and complete, and the buffer is never exceeded. -/
theorem c112_write (old : List α) (ws : List (List α)) :
    fileClose (ws.foldl fileWrite ⟨old, []⟩) = old ++ ws.flatten ∧
      (ws.foldl fileWrite ⟨old, []⟩).buf.length ≤ bufSize := by
  have : ∀ (ws : List (List α)) (w : W α), w.buf.length ≤ bufSize →
      fileClose (ws.foldl fileWrite w) = fileClose w ++ ws.flatten ∧ (ws.foldl fileWrite w).buf.length ≤ bufSize := by
    intro ws
    induction ws with
    | nil => intro w h; exact ⟨by simp, h⟩
    | cons p ws ih =>
      intro w h
      obtain ⟨h1, h2⟩ := ih (fileWrite w p) (write_bound w p h)
      refine ⟨?_, h2⟩
      rw [List.foldl_cons, h1, write_spec]; simp
  have h := this ws ⟨old, []⟩ (by simp)
  simpa [fileClose] using h

example : fileClose ([[1, 2], [], [3]].foldl fileWrite ⟨[0], []⟩) = [0, 1, 2, 3] := (c112_write [0] [[1, 2], [], [3]]).1

/-- How long one is ready to wait does not change the result. -/
theorem c112_result (os : Nat → Option Nat) (fuel fuel' : Nat) (r : R α) (n : Nat) (x : Res α) (hf : fuel ≤ fuel')
    (h : llRead os fuel r n = some x) : llRead os fuel' r n = some x := by
  have key : ∀ (fuel fuel' : Nat) (r : R α) (n : Nat) (got : List α), fuel ≤ fuel' →
      readLoop os fuel r n got = some x → readLoop os fuel' r n got = some x := by
    intro fuel
    induction fuel with
    | zero =>
      intro fuel' r n got _ h
      rw [readLoop.eq_def] at h ⊢
      by_cases hb : n ≤ r.buf.length
      · simp only [if_pos hb] at h ⊢; exact h
      · simp only [if_neg hb] at h; simp at h
    | succ f ih =>
      intro fuel' r n got hf h
      obtain ⟨f', rfl⟩ : ∃ f', fuel' = f' + 1 := ⟨fuel' - 1, by omega⟩
      rw [readLoop] at h ⊢
      by_cases hb : n ≤ r.buf.length
      · rw [if_pos hb] at h ⊢; exact h
      · rw [if_neg hb] at h ⊢
        cases hc : os r.calls with
        | none => simp only [hc] at h ⊢; exact ih _ _ _ _ (by omega) h
        | some c =>
          simp only [hc] at h ⊢
          by_cases hd : r.disk = []
          · rw [if_pos hd] at h ⊢; exact h
          · rw [if_neg hd] at h ⊢; exact ih _ _ _ _ (by omega) h
  unfold llRead at h ⊢
  by_cases hb : bufSize < n
  · rw [if_pos hb] at h ⊢; exact h
  · rw [if_neg hb] at h ⊢; exact key _ _ _ _ _ hf h

/-- Records of at most 1024 bytes that were written to a new file are read back as they were, however many bytes each call
of `read` gives and whichever calls fail, as long as not all calls fail from some point on; after them comes the end of
the file. -/
theorem c112_roundtrip_partial (os : Nat → Option Nat) (hos : ∀ i, ∃ j, i ≤ j ∧ os j ≠ none) (ws : List (List α))
    (hw : ∀ l ∈ ws, l.length ≤ bufSize) :
    ∃ r, Reads os (openRead (fileClose (ws.foldl fileWrite ⟨[], []⟩))) (ws.map List.length) ws r ∧
      ∀ n, 0 < n → n ≤ bufSize → ∃ fuel r', llRead os fuel r n = some (.eof r') := by
  rw [(c112_write [] ws).1, List.nil_append]
  have key : ∀ (ws : List (List α)) (r : R α), (∀ l ∈ ws, l.length ≤ bufSize) → r.buf ++ r.disk = ws.flatten →
      ∃ r', Reads os r (ws.map List.length) ws r' ∧ r'.buf ++ r'.disk = [] := by
    intro ws
    induction ws with
    | nil => intro r _ h; exact ⟨r, .nil r, h⟩
    | cons l ws ih =>
      intro r hl h
      obtain ⟨f, r', e1, e2⟩ := read_spec os hos r.disk.length r l.length [] (Nat.le_refl _) (by rw [h]; simp)
      rw [h] at e1 e2
      simp only [List.flatten_cons, List.nil_append, List.take_left, List.drop_left] at e1 e2
      obtain ⟨r'', h1, h2⟩ := ih r' (fun x hx => hl x (List.mem_cons_of_mem _ hx)) e2
      refine ⟨r'', .cons f ?_ h1, h2⟩
      have : ¬ bufSize < l.length := by have := hl l List.mem_cons_self; omega
      rw [llRead, if_neg this]; exact e1
  obtain ⟨r, h1, h2⟩ := key ws (openRead ws.flatten) hw rfl
  refine ⟨r, h1, ?_⟩
  intro n hn hb
  obtain ⟨hb1, hd⟩ := List.append_eq_nil_iff.1 h2
  obtain ⟨j, hj, hok⟩ := hos r.calls
  obtain ⟨f, res, e1, e2⟩ := read_end os (j - r.calls) r n [] hd (by rw [hb1]; simpa using hn)
    (by rw [show r.calls + (j - r.calls) = j by omega]; exact hok)
  rw [hb1, List.append_nil, if_pos rfl] at e2
  obtain ⟨r', rfl, _⟩ := e2
  exact ⟨f, r', by rw [llRead, if_neg (by omega)]; exact e1⟩

/-- One byte at a time, with every other call failing. -/
example : ∃ r, Reads (fun i => if i % 2 = 0 then none else some 0)
    (openRead (fileClose ([[1, 2], [3]].foldl fileWrite ⟨[], []⟩))) [2, 1] [[1, 2], [3]] r := by
  obtain ⟨r, h, _⟩ := c112_roundtrip_partial (fun i => if i % 2 = 0 then none else some 0)
    (fun i => ⟨2 * i + 1, by omega, by simp⟩) [[1, 2], [3]] (by decide)
  exact ⟨r, h⟩

/-- A file that ends in the middle of a record is noticed. -/
theorem c112_short (os : Nat → Option Nat) (disk : List α) (n : Nat) (hos : ∀ i, ∃ j, i ≤ j ∧ os j ≠ none)
    (hd : disk ≠ []) (hn : disk.length < n) (hb : n ≤ bufSize) :
    ∃ fuel, llRead os fuel (openRead disk) n = some .unexpected := by
  have step : ∀ (m : Nat) (r : R α) (n : Nat) (got : List α), r.disk.length ≤ m → (r.buf ++ r.disk).length < n →
      got ++ (r.buf ++ r.disk) ≠ [] → ∃ fuel, readLoop os fuel r n got = some .unexpected := by
    intro m
    induction m with
    | zero =>
      intro r n got hm hn hne
      have hd : r.disk = [] := List.length_eq_zero_iff.1 (by omega)
      obtain ⟨j, hj, hok⟩ := hos r.calls
      obtain ⟨f, res, e1, e2⟩ := read_end os (j - r.calls) r n got hd (by rw [hd] at hn; simpa using hn)
        (by rw [show r.calls + (j - r.calls) = j by omega]; exact hok)
      rw [hd, List.append_nil] at hne
      rw [if_neg hne] at e2
      exact ⟨f, by rw [e1, e2]⟩
    | succ m ih =>
      intro r n got hm hn hne
      obtain ⟨j, hj, hok⟩ := hos r.calls
      obtain ⟨k, hk⟩ : ∃ k, j = r.calls + k := ⟨j - r.calls, by omega⟩
      induction k generalizing r n got with
      | zero =>
        by_cases hd : r.disk = []
        · exact ih r n got (by rw [hd]; simp) hn hne
        · obtain ⟨c, hc⟩ := Option.ne_none_iff_exists'.1 hok
          rw [hk, Nat.add_zero] at hc
          have hpos : 0 < r.disk.length := List.length_pos_iff.2 hd
          have hmin : 0 < min bufSize (c + 1) := by simp only [bufSize]; omega
          simp only [List.length_append] at hn
          obtain ⟨f, e⟩ := ih ⟨r.disk.drop (min bufSize (c + 1)), r.disk.take (min bufSize (c + 1)), r.calls + 1⟩
            (n - r.buf.length) (got ++ r.buf) (by simp only [List.length_drop]; omega)
            (by simp only [List.take_append_drop]; omega) (by simpa using hne)
          refine ⟨f + 1, ?_⟩
          rw [readLoop, if_neg (by omega)]; simp only [hc, if_neg hd]; exact e
      | succ k ihk =>
        cases hc : os r.calls with
        | none =>
          simp only [List.length_append] at hn
          obtain ⟨f, e⟩ := ihk ⟨r.disk, [], r.calls + 1⟩ (n - r.buf.length) (got ++ r.buf) hm (by simp; omega)
            (by simpa using hne) (by simp; omega) (by simp; omega)
          refine ⟨f + 1, ?_⟩
          rw [readLoop, if_neg (by omega)]; simp only [hc]; exact e
        | some c =>
          by_cases hd : r.disk = []
          · exact ih r n got (by rw [hd]; simp) hn hne
          · have hpos : 0 < r.disk.length := List.length_pos_iff.2 hd
            have hmin : 0 < min bufSize (c + 1) := by simp only [bufSize]; omega
            simp only [List.length_append] at hn
            obtain ⟨f, e⟩ := ih ⟨r.disk.drop (min bufSize (c + 1)), r.disk.take (min bufSize (c + 1)), r.calls + 1⟩
              (n - r.buf.length) (got ++ r.buf) (by simp only [List.length_drop]; omega)
              (by simp only [List.take_append_drop]; omega) (by simpa using hne)
            refine ⟨f + 1, ?_⟩
            rw [readLoop, if_neg (by omega)]; simp only [hc, if_neg hd]; exact e
  obtain ⟨f, e⟩ := step disk.length (openRead disk) n [] (Nat.le_refl _) (by simpa [openRead] using hn)
    (by simpa [openRead] using hd)
  exact ⟨f, by rw [llRead, if_neg (by omega)]; exact e⟩

example : ∃ fuel, llRead (fun _ => some 0) fuel (openRead [1, 2]) 3 = some .unexpected :=
  c112_short _ _ _ (fun i => ⟨i, Nat.le_refl i, by simp⟩) (by simp) (by decide) (by decide)

/-- Negation of "every record written can be read back": a record of more than 1024 bytes is read past the end of the
buffer for records. -/
theorem c112_long_violated (os : Nat → Option Nat) (fuel : Nat) (l : List α) (h : 1024 < l.length) :
    llRead os fuel (openRead (fileClose (fileWrite ⟨[], []⟩ l))) l.length = some .overrun := by
  rw [llRead, if_pos (by simpa [bufSize] using h)]

example : 1024 < (List.replicate 1025 0).length := by rw [List.length_replicate]; omega

/-- Negation of "reading comes to an end": if `read` fails from some call on, as it does for a directory, reading a byte
that is not in the buffer never ends. -/
theorem c112_fail_violated (os : Nat → Option Nat) (fuel : Nat) (disk : List α) (n : Nat) (hn : 0 < n) (hb : n ≤ bufSize)
    (h : ∀ i, os i = none) : llRead os fuel (openRead disk) n = none := by
  have key : ∀ (fuel : Nat) (r : R α) (n : Nat) (got : List α), r.buf = [] → 0 < n → readLoop os fuel r n got = none := by
    intro fuel
    induction fuel with
    | zero => intro r n got hr hn; rw [readLoop, if_neg (by rw [hr]; simp; omega)]
    | succ f ih =>
      intro r n got hr hn
      rw [readLoop, if_neg (by rw [hr]; simp; omega)]
      simp only [h]
      exact ih _ _ _ rfl (by rw [hr]; simpa using hn)
  rw [llRead, if_neg (by omega)]
  exact key _ _ _ _ rfl hn

end Voss.Fops
