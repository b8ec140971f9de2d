import Verif.Io.Fmt
/-
What formatted printing should do, stated without the program: a format is a sequence of fields, and each
field has a text.
-/
namespace Voss.Io
open Voss.Arbi

inductive Flag where
  | minus
  | zero
deriving DecidableEq

def Flag.char : Flag → Char
  | .minus => '-'
  | .zero => '0'

/-- The width of a field: none, written in the format, or given as an argument. -/
inductive Width where
  | none
  | num (w : Nat)
  | star (w : Nat)
deriving DecidableEq

structure Opts where
  flags : List Flag
  width : Width
deriving DecidableEq

inductive Field where
  | lit (c : Char)
  | percent
  | num (base : Nat) (o : Opts) (z : Int)
  | bin (o : Opts) (z : Int)
  | str (o : Opts) (s : List Char)
  | strs (o : Opts) (l : List (List Char))
  | bool (o : Opts) (s : List Char)
deriving DecidableEq

/-- The width as a number; `0` for none. -/
def Opts.w (o : Opts) : Nat := match o.width with
  | .none => 0
  | .num w => w
  | .star w => w

def Opts.left (o : Opts) : Bool := .minus ∈ o.flags
def Opts.zeros (o : Opts) : Bool := .zero ∈ o.flags

/-- How flags and width are written. -/
def Opts.fmt (o : Opts) : List Char :=
  o.flags.map Flag.char ++
  match o.width with
  | .none => []
  | .num w => numeral 10 w
  | .star _ => ['*']

def Opts.args (o : Opts) : List Val := match o.width with
  | .star w => [.int w]
  | _ => []

/-- A width is an `int`; a width in the format is not zero. -/
def Opts.Ok (o : Opts) : Prop := match o.width with
  | .none => True
  | .num w => 0 < w ∧ w < 2147483648
  | .star w => w < 2147483648

instance (o : Opts) : Decidable o.Ok := by unfold Opts.Ok; split <;> infer_instance

/-- The letter of a directive for numbers. -/
def letter (base : Nat) : Char := if base = 8 then 'o' else if base = 16 then 'x' else 'd'

/-- How a field is written in the format. -/
def Field.fmt : Field → List Char
  | .lit c => [c]
  | .percent => ['%', '%']
  | .num b o _ => '%' :: o.fmt ++ [letter b]
  | .bin o _ => '%' :: o.fmt ++ ['b']
  | .str o _ => '%' :: o.fmt ++ ['s']
  | .strs o _ => '%' :: o.fmt ++ ['S']
  | .bool o _ => '%' :: o.fmt ++ ['B']

/-- The arguments that belong to a field. -/
def Field.args : Field → List Val
  | .lit _ => []
  | .percent => []
  | .num _ o z => o.args ++ [.int z]
  | .bin o z => o.args ++ [.int z]
  | .str o s => o.args ++ [.str s]
  | .strs o l => o.args ++ [.strs l]
  | .bool o s => o.args ++ [.bool s]

/-- A sign and a text in a field of width `w` (`0`: no width); `none` when they do not fit. -/
def pad (left zeros : Bool) (w : Nat) (sign body : List Char) : Option (List Char) :=
  if w = 0 then some (sign ++ body)
  else if w < sign.length + body.length then none
  else
    let n := w - (sign.length + body.length)
    some (if left then sign ++ body ++ List.replicate n ' '
      else if zeros then sign ++ List.replicate n '0' ++ body
      else List.replicate n ' ' ++ sign ++ body)

/-- The lowest `w` bits of an integer, most significant first, negative numbers in two's complement. -/
def bits : Nat → Int → List Char
  | 0, _ => []
  | w + 1, z => bits w (z / 2) ++ [if z % 2 = 1 then '1' else '0']

/-- The number of binary digits of a natural number; `0` for zero. -/
def bitLength (n : Nat) : Nat := if n = 0 then 0 else n.log2 + 1

/-- `%b`: with a width, that many bits; without one, one bit more than the absolute value needs. -/
def binText (w : Nat) (z : Int) : Option (List Char) :=
  if w = 0 then some (bits (bitLength z.natAbs + 1) z)
  else if w < bitLength z.natAbs then none
  else some (bits w z)

/-- The texts of a list, each in its own field. -/
def padAll (left zeros : Bool) (w : Nat) : List (List Char) → Option (List (List Char))
  | [] => some []
  | s :: ss =>
    match pad left zeros w [] s, padAll left zeros w ss with
    | some t, some ts => some (t :: ts)
    | _, _ => none

/-- The text of a field, or `none` when something does not fit. -/
def Field.text : Field → Option (List Char)
  | .lit c => some [c]
  | .percent => some ['%']
  | .num b o z => pad o.left o.zeros o.w (if z < 0 then ['-'] else []) (numeral b z.natAbs)
  | .bin o z => binText o.w z
  | .str o s => pad o.left o.zeros o.w [] s
  | .strs o l => (padAll o.left o.zeros o.w l).map fun ts => '[' :: [',', ' '].intercalate ts ++ [']']
  | .bool o s => pad o.left o.zeros o.w [] s

def Field.Ok : Field → Prop
  | .lit c => c ≠ '%'
  | .percent => True
  | .num b o _ => (b = 8 ∨ b = 10 ∨ b = 16) ∧ o.Ok
  -- without a width, `%0b` leaves out the leading bit
  | .bin o _ => o.Ok ∧ (o.w = 0 → o.zeros = false)
  | .str o _ => o.Ok
  | .strs o _ => o.Ok
  | .bool o _ => o.Ok

instance (f : Field) : Decidable f.Ok := by unfold Field.Ok; split <;> infer_instance

def fmtOf (fs : List Field) : List Char := fs.flatMap Field.fmt
def argsOf (fs : List Field) : List Val := fs.flatMap Field.args

/-- The text of a sequence of fields; `none` when something does not fit. -/
def textOf : List Field → Option (List Char)
  | [] => some []
  | f :: fs =>
    match f.text, textOf fs with
    | some t, some ts => some (t ++ ts)
    | _, _ => none

/-- The values that can be read back. -/
def Field.vals : Field → List Val
  | .num _ _ z => [.int z]
  | .bin _ z => [.int z]
  | .str _ s => [.str s]
  | _ => []

def valsOf (fs : List Field) : List Val := fs.flatMap Field.vals

/-- The text that follows a number does not begin with something that could belong to it: it begins with a
character that is none of `0`-`9`, `:`, `a`-`g`, `A`-`G`. -/
def numEnd : List Field → Prop
  | [] => True
  | .lit c :: _ => c ∉ "0123456789:abcdefgABCDEFG".toList
  | .percent :: _ => True
  | _ => False

/-- A word is followed by the end, or by white space. -/
def strEnd : List Field → Prop
  | [] => True
  | .lit c :: _ => c ∈ [' ', '\t', '\n', '\x0b', '\x0c', '\r']
  | _ => False

/-- Fields whose texts can be read back with the same format: numbers with no width and words, each followed by
something that ends them, and fields with a width that their text fills with digits or letters. -/
inductive Scannable : List Field → Prop
  | nil : Scannable []
  | lit (c fs) : c ≠ '%' → Scannable fs → Scannable (.lit c :: fs)
  | percent (fs) : Scannable fs → Scannable (.percent :: fs)
  | num (b z fl fs) : b = 8 ∨ b = 10 ∨ b = 16 → numEnd fs → Scannable fs →
      Scannable (.num b ⟨fl, .none⟩ z :: fs)
  | numW (b w fl z fs) : b = 8 ∨ b = 10 ∨ b = 16 → 0 < w → w < 2147483648 → .zero ∈ fl → .minus ∉ fl → 0 ≤ z →
      Scannable fs → Scannable (.num b ⟨fl, .num w⟩ z :: fs)
  | bin (z fs) : 0 ≤ z → numEnd fs → Scannable fs → Scannable (.bin ⟨[], .none⟩ z :: fs)
  | binW (w fl z fs) : 0 < w → w < 2147483648 → 0 ≤ z → Scannable fs → Scannable (.bin ⟨fl, .num w⟩ z :: fs)
  | str (fl s fs) : (∀ c ∈ s, c ∉ [' ', '\t', '\n', '\x0b', '\x0c', '\r']) → strEnd fs → Scannable fs →
      Scannable (.str ⟨fl, .none⟩ s :: fs)
  | strW (w fl s fs) : (∀ c ∈ s, c ∉ [' ', '\t', '\n', '\x0b', '\x0c', '\r']) → 0 < w → w < 2147483648 →
      s.length = w → Scannable fs → Scannable (.str ⟨fl, .num w⟩ s :: fs)

/-- A field that ends where its text ends, whatever follows. -/
def Field.closed : Field → Bool
  | .lit _ => true
  | .percent => true
  | .num _ o _ => o.width ≠ .none
  | .bin o _ => o.width ≠ .none
  | .str o _ => o.width ≠ .none
  | _ => false

/-- The last field is closed. -/
def closed : List Field → Bool
  | [] => true
  | [f] => f.closed
  | _ :: fs => closed fs

end Voss.Io
