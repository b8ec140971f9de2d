import Verif.Lst.Model
/-
Model of the builtin functions on strings: `src/bin/fl/voss_strings.c:593-1367`.

Conventions.
* A string is the list of its characters; the terminating zero is not in the list.
* `strstr`, `strcmp`, `strncmp` and `isspace` are functions of the C library and modelled after the C standard
  (`isspace` in the "C" locale).
* `strtemp` is a copy of the string (C47).  Strings have at most 130000 characters (C46).
* Undefined behaviour includes reading past the end of a string in the buffer of `strtemp`, where there is what
  earlier strings have left.
-/
namespace Voss.Txt

/-- Outcome of a builtin: a value, a failure, or undefined behaviour. -/
inductive Res (α : Type) where
  | ok (a : α)
  | fail
  | ub
deriving DecidableEq

/-- The size of the buffer of `strtemp`, less one: `STR_BLOCK_SIZE` strmgr.h:22. -/
def blockSize : Int := 130000

/-- `GET_INT`, with what is done with it. -/
def withInt {α : Type} (z : Int) (f : Int → Res α) : Res α :=
  match Lst.getInt z with
  | some i => f i
  | none => .ub

/-- `strcmp` of the C library: the sign of its result. -/
def strcmp : List Char → List Char → Ordering
  | [], [] => .eq
  | [], _ :: _ => .lt
  | _ :: _, [] => .gt
  | a :: s, b :: t => if a = b then strcmp s t else if a.toNat < b.toNat then .lt else .gt

/-- `strncmp` of the C library. -/
def strncmp : List Char → List Char → Nat → Ordering
  | _, _, 0 => .eq
  | [], [], _ => .eq
  | [], _ :: _, _ => .lt
  | _ :: _, [], _ => .gt
  | a :: s, b :: t, n + 1 => if a = b then strncmp s t n else if a.toNat < b.toNat then .lt else .gt

/-- `strstr` of the C library: the offset of the first occurrence. -/
def strstr (s needle : List Char) : Option Nat :=
  if needle.isPrefixOf s then some 0
  else match s with
    | [] => none
    | _ :: t => (strstr t needle).map (· + 1)

/-- `isspace` of the C library. -/
def isspace (c : Char) : Bool := c.toNat == 32 || (9 ≤ c.toNat && c.toNat ≤ 13)

/-- `do_strlen` voss_strings.c:752-760. -/
def strlen (s : List Char) : Int := s.length

/-- `str_is_prefix` voss_strings.c:792-809. -/
def isPrefix (pre s : List Char) : Bool := strncmp pre s pre.length == .eq

/-- `str_is_suffix` voss_strings.c:811-829. -/
def isSuffix (suf s : List Char) : Bool :=
  decide (suf.length ≤ s.length) && strcmp (s.drop (s.length - suf.length)) suf == .eq

/-- `str_is_substr` voss_strings.c:831-847. -/
def isSubstr (needle haystack : List Char) : Bool := (strstr haystack needle).isSome

/-- `string_strstr` voss_strings.c:1139-1155. -/
def strstr1 (haystack needle : List Char) : Int :=
  match strstr haystack needle with
  | none => 0
  | some i => 1 + i

/-- The loop of `str_split` voss_strings.c:894-908; the first argument bounds the rounds. -/
def splitLoop (sep : List Char) : Nat → List Char → Bool → List (List Char)
  | 0, _, _ => []
  | n + 1, cur, atLeastOne =>
    match strstr cur sep with
    | some i => cur.take i :: splitLoop sep n (cur.drop (i + sep.length)) true
    | none => if !cur.isEmpty || atLeastOne then [cur] else []

/-- `str_split` voss_strings.c:866-912. -/
def split (s sep : List Char) : List (List Char) :=
  if sep.length = 0 then s.map ([·]) else splitLoop sep (s.length + 1) s false

/-- `string_lastn` voss_strings.c:1078-1095. -/
def lastn (s : List Char) (z : Int) : Res (List Char) :=
  withInt z fun cnt =>
    if s.length ≤ cnt then .ok s
    else if cnt < 0 then .ub
    else .ok (s.drop (s.length - cnt.toNat))

/-- `string_butlastn` voss_strings.c:1097-1114: for a negative number the zero is written after the end. -/
def butlastn (s : List Char) (z : Int) : Res (List Char) :=
  withInt z fun cnt =>
    if s.length ≤ cnt then .ok []
    else if s.length - cnt > blockSize then .ub
    else .ok (s.take (s.length - cnt).toNat)

/-- `string_butfirstn` voss_strings.c:1116-1137. -/
def butfirstn (s : List Char) (z : Int) : Res (List Char) :=
  withInt z fun cnt =>
    if s.length < cnt then .fail
    else if cnt < 0 then .ub
    else .ok (s.drop cnt.toNat)

/-- `string_substr` voss_strings.c:1173-1219.  `loc + cnt` may overflow. -/
def substr (s : List Char) (zl zc : Int) : Res (List Char) :=
  withInt zl fun loc => withInt zc fun cnt =>
    if loc < 1 then .fail
    else if loc > s.length then .ok []
    else if cnt < 0 then .ok (s.drop (loc - 1).toNat)
    else if loc + cnt ≥ 2147483648 then .ub
    else if loc + cnt - 1 > s.length then .fail
    else .ok ((s.drop (loc - 1).toNat).take cnt.toNat)

/-- The second loop of `string_trim` voss_strings.c:1238: from the last character back, not before the first. -/
def trimBack : List Char → List Char
  | [] => []
  | c :: cs => if isspace c && !cs.isEmpty then trimBack cs else c :: cs

/-- `string_trim` voss_strings.c:1223-1246.  The characters are visited from the end in the second loop. -/
def trim (s : List Char) : List Char :=
  match s.dropWhile isspace with
  | [] => []
  | f => (trimBack f.reverse).reverse

/-- The loop of `string_gen_trim` voss_strings.c:1270-1273: `found` is the offset in `s`.  `none`: past the end. -/
def lastOcc (s suff : List Char) : Nat → Nat → Option Nat
  | 0, _ => none
  | n + 1, found =>
    if found + 1 > s.length then none
    else match strstr (s.drop (found + 1)) suff with
      | none => some found
      | some i => lastOcc s suff n (found + 1 + i)

/-- `string_gen_trim` voss_strings.c:1247-1289. -/
def genTrim (pref suff s : List Char) : Res (List Char) :=
  match strstr s pref with
  | none => .fail
  | some l =>
    let s' := s.drop (l + pref.length)
    match strstr s' suff with
    | none => .fail
    | some f =>
      match lastOcc s' suff (s'.length + 1) f with
      | none => .ub
      | some last => .ok (s'.take last)

/-- The loop of `string_str_cluster` voss_strings.c:1311-1321; the first argument bounds the rounds. -/
def clusterLoop (sz : Nat) : Nat → List Char → List (List Char)
  | 0, _ => []
  | _ + 1, [] => []
  | n + 1, c :: t => (c :: t).take sz :: clusterLoop sz n ((c :: t).drop sz)

/-- `string_str_cluster` voss_strings.c:1291-1324.  `len % sz` is undefined for 0; for a negative size the loop
writes before the buffer. -/
def cluster (s : List Char) (z : Int) : Res (List (List Char)) :=
  withInt z fun sz =>
    if sz = 0 then .ub
    else if (s.length : Int).tmod sz ≠ 0 then .fail
    else if sz < 0 then (if s.isEmpty then .ok [] else .ub)
    else .ok (clusterLoop sz.toNat (s.length + 1) s)

/-- The loop of `implode` voss_strings.c:1352-1363. -/
def implodeLoop : List (List Char) → Int → List Char → Res (List Char)
  | [], _, res => .ok res
  | s :: sl, len, res => if len + s.length > blockSize - 1 then .fail else implodeLoop sl (len + s.length) (res ++ s)

/-- `implode` voss_strings.c:1342-1368. -/
def implode (l : List (List Char)) : Res (List Char) := implodeLoop l 0 []

/-- The loop of `tcl2list` voss_strings.c:681-727: the characters that follow, the level, the characters since
`start`, and the elements so far.  `none`: the terminating zero is skipped. -/
def tclLoop : List Char → Int → List Char → List (List Char) → Option (List (List Char))
  | [], _, cur, out => some (if cur = [] then out else out ++ [cur])
  | c :: cs, level, cur, out =>
    if c = ' ' then
      if level = 0 then tclLoop cs level [] (out ++ [cur]) else tclLoop cs level (cur ++ [c]) out
    else if c = '\\' then
      match cs with
      | [] => none
      | d :: cs' => tclLoop cs' level (cur ++ [c, d]) out
    else if c = '{' then
      if level = 0 then tclLoop cs (level + 1) [] out else tclLoop cs (level + 1) (cur ++ [c]) out
    else if c = '}' then
      if level > 1 then tclLoop cs (level - 1) (cur ++ [c]) out
      else match cs with
        | [] => some (out ++ [cur])
        | d :: cs' => if d = ' ' then tclLoop cs' (level - 1) [] (out ++ [cur]) else tclLoop (d :: cs') (level - 1) [] (out ++ [cur])
    else tclLoop cs level (cur ++ [c]) out

/-- `tcl2list` voss_strings.c:670-734. -/
def tcl2list (s : List Char) : Res (List (List Char)) :=
  match tclLoop s 0 [] [] with
  | some l => .ok l
  | none => .ub

end Voss.Txt
