import Verif.Fops.Model

namespace Voss.Fops

variable {α : Type}

theorem fill_append (b p : List α) : (fill b p).1 ++ (fill b p).2 = b ++ p := by
  induction p generalizing b with
  | nil => simp [fill]
  | cons x p ih =>
    rw [fill]; split
    · rw [ih]; simp
    · rfl

theorem fill_bound (b p : List α) (h : b.length ≤ bufSize) : (fill b p).1.length ≤ bufSize := by
  induction p generalizing b with
  | nil => simpa [fill] using h
  | cons x p ih =>
    rw [fill]; split
    · apply ih; simp; omega
    · exact h

theorem write_spec (w : W α) (p : List α) : fileClose (fileWrite w p) = fileClose w ++ p := by
  induction w, p using fileWrite.induct with
  | case1 w p h =>
    rw [fileWrite, if_pos h]
    have := fill_append w.buf p
    rw [h, List.append_nil] at this
    simp [fileClose, this]
  | case2 w p h ih =>
    rw [fileWrite, if_neg h, ih]
    simp only [fileClose, List.append_nil, List.append_assoc]
    rw [fill_append]

theorem write_bound (w : W α) (p : List α) (hb : w.buf.length ≤ bufSize) : (fileWrite w p).buf.length ≤ bufSize := by
  induction w, p using fileWrite.induct with
  | case1 w p h => rw [fileWrite, if_pos h]; exact fill_bound _ _ hb
  | case2 w p h ih => rw [fileWrite, if_neg h]; exact ih (by simp)

/-- As long as reading goes on to succeed now and then, the bytes there are can be read. -/
theorem read_spec (os : Nat → Option Nat) (hos : ∀ i, ∃ j, i ≤ j ∧ os j ≠ none) (m : Nat) :
    ∀ (r : R α) (n : Nat) (got : List α), r.disk.length ≤ m → n ≤ (r.buf ++ r.disk).length →
    ∃ fuel r', readLoop os fuel r n got = some (.bytes (got ++ (r.buf ++ r.disk).take n) r') ∧
      r'.buf ++ r'.disk = (r.buf ++ r.disk).drop n := by
  have done : ∀ (r : R α) (n : Nat) (got : List α), n ≤ r.buf.length →
      ∃ fuel r', readLoop os fuel r n got = some (.bytes (got ++ (r.buf ++ r.disk).take n) r') ∧
        r'.buf ++ r'.disk = (r.buf ++ r.disk).drop n := by
    intro r n got h
    refine ⟨0, { r with buf := r.buf.drop n }, ?_, ?_⟩
    · rw [readLoop, if_pos h, List.take_append_of_le_length h]
    · simp only; rw [List.drop_append_of_le_length h]
  induction m with
  | zero =>
    intro r n got hd hn
    apply done
    simp only [List.length_append] at hn; omega
  | succ m ih =>
    intro r n got hd hn
    obtain ⟨j, hj, hok⟩ := hos r.calls
    obtain ⟨k, hk⟩ : ∃ k, j = r.calls + k := ⟨j - r.calls, by omega⟩
    induction k generalizing r n got with
    | zero =>
      by_cases h : n ≤ r.buf.length
      · exact done r n got h
      · have hne : r.disk ≠ [] := by
          intro he; rw [he] at hn; simp at hn; omega
        have hpos : 0 < r.disk.length := List.length_pos_iff.2 hne
        obtain ⟨c, hc⟩ := Option.ne_none_iff_exists'.1 hok
        rw [hk, Nat.add_zero] at hc
        have hm : 0 < min bufSize (c + 1) := by simp only [bufSize]; omega
        simp only [List.length_append] at hn
        obtain ⟨f, r', e1, e2⟩ := ih ⟨r.disk.drop (min bufSize (c + 1)), r.disk.take (min bufSize (c + 1)), r.calls + 1⟩
          (n - r.buf.length) (got ++ r.buf) (by simp only [List.length_drop]; omega)
          (by simp only [List.take_append_drop]; omega)
        simp only [List.take_append_drop] at e1 e2
        refine ⟨f + 1, r', ?_, ?_⟩
        · rw [readLoop, if_neg h]
          simp only [hc, if_neg hne]
          rw [e1, List.take_append, List.take_of_length_le (l := r.buf) (by omega), List.append_assoc]
        · rw [e2, List.drop_append, List.drop_eq_nil_of_le (as := r.buf) (by omega), List.nil_append]
    | succ k ihk =>
      by_cases h : n ≤ r.buf.length
      · exact done r n got h
      · cases hc : os r.calls with
        | none =>
          simp only [List.length_append] at hn
          obtain ⟨f, r', e1, e2⟩ := ihk ⟨r.disk, [], r.calls + 1⟩ (n - r.buf.length) (got ++ r.buf) hd
            (by simp; omega) (by simp; omega) (by simp; omega)
          simp only [List.nil_append] at e1 e2
          refine ⟨f + 1, r', ?_, ?_⟩
          · rw [readLoop, if_neg h]
            simp only [hc]
            rw [e1, List.take_append, List.take_of_length_le (l := r.buf) (by omega), List.append_assoc]
          · rw [e2, List.drop_append, List.drop_eq_nil_of_le (as := r.buf) (by omega), List.nil_append]
        | some c =>
          have hne : r.disk ≠ [] := by
            intro he; rw [he] at hn; simp at hn; omega
          have hpos : 0 < r.disk.length := List.length_pos_iff.2 hne
          have hm : 0 < min bufSize (c + 1) := by simp only [bufSize]; omega
          simp only [List.length_append] at hn
          obtain ⟨f, r', e1, e2⟩ := ih ⟨r.disk.drop (min bufSize (c + 1)), r.disk.take (min bufSize (c + 1)), r.calls + 1⟩
            (n - r.buf.length) (got ++ r.buf) (by simp only [List.length_drop]; omega)
            (by simp only [List.take_append_drop]; omega)
          simp only [List.take_append_drop] at e1 e2
          refine ⟨f + 1, r', ?_, ?_⟩
          · rw [readLoop, if_neg h]
            simp only [hc, if_neg hne]
            rw [e1, List.take_append, List.take_of_length_le (l := r.buf) (by omega), List.append_assoc]
          · rw [e2, List.drop_append, List.drop_eq_nil_of_le (as := r.buf) (by omega), List.nil_append]

/-- At the end of the file, as long as one call of `read` succeeds. -/
theorem read_end (os : Nat → Option Nat) (k : Nat) : ∀ (r : R α) (n : Nat) (got : List α), r.disk = [] →
    r.buf.length < n → os (r.calls + k) ≠ none →
    ∃ fuel res, readLoop os fuel r n got = some res ∧
      (if got ++ r.buf = [] then ∃ r', res = .eof r' ∧ r'.buf ++ r'.disk = [] else res = .unexpected) := by
  induction k with
  | zero =>
    intro r n got hd hn hok
    obtain ⟨c, hc⟩ := Option.ne_none_iff_exists'.1 hok
    rw [Nat.add_zero] at hc
    by_cases he : got ++ r.buf = []
    · refine ⟨1, .eof ⟨[], [], r.calls + 1⟩, ?_, ?_⟩
      · rw [readLoop, if_neg (by omega)]; simp only [hc, if_pos hd, if_pos he]
      · rw [if_pos he]; exact ⟨_, rfl, rfl⟩
    · refine ⟨1, .unexpected, ?_, ?_⟩
      · rw [readLoop, if_neg (by omega)]; simp only [hc, if_pos hd, if_neg he]
      · rw [if_neg he]
  | succ k ih =>
    intro r n got hd hn hok
    cases hc : os r.calls with
    | none =>
      obtain ⟨f, res, e1, e2⟩ := ih ⟨r.disk, [], r.calls + 1⟩ (n - r.buf.length) (got ++ r.buf) hd (by simp; omega)
        (by rw [show r.calls + 1 + k = r.calls + (k + 1) by omega]; exact hok)
      refine ⟨f + 1, res, ?_, by simpa using e2⟩
      rw [readLoop, if_neg (by omega)]; simp only [hc]; exact e1
    | some c =>
      by_cases he : got ++ r.buf = []
      · refine ⟨1, .eof ⟨[], [], r.calls + 1⟩, ?_, ?_⟩
        · rw [readLoop, if_neg (by omega)]; simp only [hc, if_pos hd, if_pos he]
        · rw [if_pos he]; exact ⟨_, rfl, rfl⟩
      · refine ⟨1, .unexpected, ?_, ?_⟩
        · rw [readLoop, if_neg (by omega)]; simp only [hc, if_pos hd, if_neg he]
        · rw [if_neg he]

end Voss.Fops
