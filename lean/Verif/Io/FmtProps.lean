import Verif.Io.ScanLemmas
/-
C62, C63: formatted printing and scanning.
-/
namespace Voss.Io
open Voss.Arbi

/-- **C62** (part).  `sprintf` with a format made of literal text, `%%` and the directives `d`, `o`, `x`, `b`, `s`,
`S` and `B`, each with any flags and any width, written out or given as an argument, gives the texts of the fields
one after the other, when they fit into the buffer. -/
theorem c62_sprintf_partial (fs : List Field) (t : List Char) (hf : ∀ f ∈ fs, f.Ok) (h : textOf fs = some t)
    (hl : t.length ≤ strBlock) : sprintf (fmtOf fs) (argsOf fs) = .ok t := by
  have := run_fit fs [] t hf h (by simpa using hl)
  simpa [sprintf] using this

/-- **C62** (part).  It fails when a value is wider than its field. -/
theorem c62_too_wide (fs : List Field) (hf : ∀ f ∈ fs, f.Ok) (h : textOf fs = none) :
    sprintf (fmtOf fs) (argsOf fs) = .fail := run_none fs [] hf h

/-- **C62** (part).  It never does anything undefined, whatever the values and however long the texts. -/
theorem c62_defined (fs : List Field) (hf : ∀ f ∈ fs, f.Ok) : sprintf (fmtOf fs) (argsOf fs) ≠ .ub :=
  run_defined fs [] hf

/-- **C62** (part).  `printf` prints what `sprintf` gives, when there is an argument. -/
theorem c62_printf_partial (fs : List Field) (hf : ∀ f ∈ fs, f.Ok) (ha : argsOf fs ≠ []) :
    printf (fmtOf fs) (argsOf fs) = sprintf (fmtOf fs) (argsOf fs) := by
  unfold printf
  rw [arity_fields fs hf]
  cases e : argsOf fs with
  | nil => exact absurd e ha
  | cons a as => rfl

-- `sprintf "a=%05d %% %-6s|%8b %S" (-42) "xy" (-3) ["p", "q"]`
def sample : List Field :=
  [.lit 'a', .lit '=', .num 10 ⟨[.zero], .num 5⟩ (-42), .lit ' ', .percent, .lit ' ', .str ⟨[.minus], .num 6⟩ "xy".toList,
   .lit '|', .bin ⟨[], .num 8⟩ (-3), .lit ' ', .strs ⟨[], .star 2⟩ ["p".toList, "q".toList]]

example : fmtOf sample = "a=%05d %% %-6s|%8b %*S".toList := by decide +kernel
example : ∀ f ∈ sample, f.Ok := by decide +kernel
example : textOf sample = some "a=-0042 % xy    |11111101 [ p,  q]".toList := by decide +kernel
example : sprintf (fmtOf sample) (argsOf sample) = .ok "a=-0042 % xy    |11111101 [ p,  q]".toList := by decide +kernel
example : argsOf sample ≠ [] := by decide +kernel
example : textOf [.num 16 ⟨[], .num 2⟩ 256] = none := by decide +kernel

/-- **C62** fails: a width given as an argument may be negative; then a negative number is refused, although it is
not wider than its field. -/
theorem c62_width_violated : sprintf "%*d".toList [.int (-1), .int 5] = .ok "5".toList ∧
    sprintf "%*d".toList [.int (-1), .int (-5)] = .fail := by decide +kernel

/-- **C62** fails: at the end of a format that ends in the middle of a directive the program goes on to read. -/
theorem c62_end_violated : sprintf "100%".toList [] = .ub := by decide +kernel

/-- **C62** fails: `printf` does not print what `sprintf` gives. -/
theorem c62_printf_violated : sprintf "50%%".toList [] = .ok "50%".toList ∧ printf "50%%".toList [] = .ok "50%%".toList := by
  decide +kernel

/-- **C62** fails: an unknown directive is left out without a word. -/
theorem c62_unknown_violated : sprintf "%q%d".toList [.int 5] = .ok "5".toList := by decide +kernel

/-- **C62** fails: with `%0b` the sign of a number is lost. -/
theorem c62_zero_violated : sprintf "%0b".toList [.int (-5)] = .ok "011".toList ∧ sprintf "%b".toList [.int 3] = .ok "011".toList := by
  decide +kernel

/-- **C62** fails: a number that does not fit into a field of `%b` is not refused when its absolute value fits. -/
theorem c62_bits_violated : sprintf "%4b".toList [.int 1] = .ok "0001".toList ∧ sprintf "%4b".toList [.int (-15)] = .ok "0001".toList := by
  decide +kernel

/-- **C62** fails: a long text is cut off without a word. -/
theorem c62_long_violated : sprintf "%s".toList [.str (List.replicate 130001 'a')] = .ok (List.replicate 130000 'a') := by
  have e : "%s".toList = ['%', 's'] := by decide
  rw [sprintf, e, run, if_pos rfl, run_conv _ _ _ _ _ (by decide) (by decide) (by decide)]
  have : conv 's' Dir.start [.str (List.replicate 130001 'a')] [] = .ok ([], List.replicate 130000 'a') := by
    unfold conv
    simp only [(by decide : 's' ≠ '%'), (by decide : 's' ≠ 'b'), (by decide : 's' ≠ 'o'), (by decide : 's' ≠ 'x'),
      (by decide : 's' ≠ 'd'), if_false, if_true, Dir.start]
    unfold prs
    rw [if_neg (by omega)]
    simp only [gt_iff_lt, lt_irrefl, if_false, Nat.sub_self, fill, Bool.false_eq_true, put, app, List.nil_append,
      List.take_replicate, List.length_nil, strBlock]
    norm_num
  rw [this]
  rfl

/-- **C63** (part).  What `sprintf` wrote, `sscanf` reads back with the same format, when each number and each word is
followed by something that ends it or fills its field. -/
theorem c63_roundtrip_partial (fs : List Field) (hs : Scannable fs) (hf : ∀ f ∈ fs, f.Ok) (t : List Char)
    (hl : t.length ≤ strBlock) (h : textOf fs = some t) :
    sprintf (fmtOf fs) (argsOf fs) = .ok t ∧ sscanf (fmtOf fs) [] t = .ok (valsOf fs) := by
  refine ⟨c62_sprintf_partial fs t hf h hl, ?_⟩
  unfold sscanf
  rw [List.take_of_length_le hl]
  have := scan_all fs hs t [] [] [] h (Or.inl rfl)
  simpa [scan, prepend] using this

/-- **C63** (part).  Input that goes on with something else than the literal text of the format is refused. -/
theorem c63_literal_partial (fs : List Field) (hs : Scannable fs) (hc : closed fs = true) (t u l r : List Char) (args : List Val)
    (h : textOf fs = some t) (hl : (t ++ u).length ≤ strBlock) (hp : '%' ∉ l) (hu : ¬ l <+: u) :
    sscanf (fmtOf fs ++ (l ++ r)) args (t ++ u) = .fail := by
  unfold sscanf
  rw [List.take_of_length_le hl, scan_all fs hs t _ u args h (Or.inr hc), scan_lit l hp r args u hu]
  rfl

-- `sprintf "%s: %08x%4b%%-%d" "addr" 48879 5 (-7)`
def sample2 : List Field :=
  [.str ⟨[], .none⟩ "addr:".toList, .lit ' ', .num 16 ⟨[.zero], .num 8⟩ 48879, .bin ⟨[], .num 4⟩ 5, .percent, .lit '-',
   .num 10 ⟨[], .none⟩ (-7)]

example : Scannable sample2 := by
  refine .str _ _ _ (by decide) (by simp [strEnd]) (.lit _ _ (by decide) (.numW _ _ _ _ _ (by decide) (by decide) (by decide) (by decide)
    (by decide) (by decide) (.binW _ _ _ _ (by decide) (by decide) (by decide) (.percent _ (.lit _ _ (by decide)
    (.num _ _ _ _ (by decide) trivial .nil))))))
example : ∀ f ∈ sample2, f.Ok := by decide +kernel
example : textOf sample2 = some "addr: 0000beef0101%--7".toList := by decide +kernel
example : sscanf "%s %08x%4b%%-%d".toList [] "addr: 0000beef0101%--7".toList =
    .ok [.str "addr:".toList, .int 48879, .int 5, .int (-7)] := by decide +kernel

example : sscanf "%d/%d".toList [] "12-13".toList = .fail := by decide +kernel
example : closed [.num 10 ⟨[], .none⟩ 12, .lit '/'] = true ∧ textOf [.num 10 ⟨[], .none⟩ 12, .lit '/'] = some "12/".toList ∧
    ¬ "ab".toList <+: "a".toList := by decide +kernel

/-- **C63** fails: a field that is padded with blanks is read as zero. -/
theorem c63_blank_violated : sprintf "%5d".toList [.int 42] = .ok "   42".toList ∧
    sscanf "%5d".toList [] "   42".toList = .ok [.int 0] := by decide +kernel

/-- **C63** fails: a negative number written with `%b` is read as a positive one. -/
theorem c63_negative_violated : sprintf "%b".toList [.int (-1)] = .ok "11".toList ∧
    sscanf "%b".toList [] "11".toList = .ok [.int 3] := by decide +kernel

/-- **C63** fails: the minus sign is not counted in the width. -/
theorem c63_sign_violated : sprintf "%03d%d".toList [.int (-5), .int 7] = .ok "-057".toList ∧
    sscanf "%03d%d".toList [] "-057".toList = .ok [.int (-57), .int 0] := by decide +kernel

/-- **C63** fails: text that is no number is read as zero, without a failure. -/
theorem c63_mismatch_violated : sscanf "%d".toList [] "abc".toList = .ok [.int 0] := by decide +kernel

/-- **C63** fails: `g`, `G` and `:` are taken for hexadecimal digits, and then there is no value. -/
theorem c63_hex_violated : sscanf "%x".toList [] "1g".toList = .ub := by decide +kernel

/-- **C63** fails: a word that is shorter than its field is read past its end. -/
theorem c63_short_violated : sscanf "%5s".toList [] "ab".toList = .ub := by decide +kernel

end Voss.Io
