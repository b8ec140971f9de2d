/-!
# The list functions of the preamble

Model of list functions of `/repo/src/bin/fl/preamble.fl`.  The value of a
function is its completely evaluated result; `none` is a failure anywhere in
it.  (A list with a failure in its tail can be used as far as it is evaluated;
this is not modelled.)  Lists are finite.  The builtins `firstn`, `butfirstn`,
`el`, `length` and `append` (list_ops.c, C66) are used as functions on lists
of fewer than 2^31 elements.
-/

namespace Voss.Plist

variable {α β γ δ ε : Type}

/-- `firstn` (list_ops.c:743-786, C66): fails if the list is too short. -/
def firstn (z : Int) (l : List α) : Option (List α) :=
  if z.toNat ≤ l.length then some (l.take z.toNat) else none

/-- `butfirstn` (list_ops.c:630-665, C66). -/
def butfirstn (z : Int) (l : List α) : Option (List α) :=
  if z.toNat ≤ l.length then some (l.drop z.toNat) else none

/-- `el` (list_ops.c, from 1; builtins.fl:1014). -/
def el (z : Int) (l : List α) : Option α := if z ≤ 0 then none else l[z.toNat - 1]?

/-- `zip` preamble.fl:17-24. -/
def zip : List α → List β → Option (List (α × β))
  | [], [] => some []
  | [], _ :: _ => none
  | _ :: _, [] => none
  | a :: l1, b :: l2 => (zip l1 l2).map fun r => (a, b) :: r

/-- `upto` preamble.fl:195-198; the first argument bounds the recursion. -/
def uptoGen (t : Int) : Nat → Int → List Int
  | 0, _ => []
  | k + 1, i => if i > t then [] else i :: uptoGen t k (i + 1)

def upto (f t : Int) : List Int := uptoGen t ((t - f).toNat + 2) f

/-- `downto` preamble.fl:202-205. -/
def downtoGen (t : Int) : Nat → Int → List Int
  | 0, _ => []
  | k + 1, i => if i < t then [] else i :: downtoGen t k (i - 1)

def downto (f t : Int) : List Int := downtoGen t ((f - t).toNat + 2) f

/-- `--` preamble.fl:211-213. -/
def range (f t : Int) : List Int := if f < t then upto f t else downto f t

/-- `atmost` preamble.fl:225. -/
def atmost (cnt : Int) (l trunc : List α) : Option (List α) :=
  if (l.length : Int) ≤ cnt then some l else (firstn cnt l).map fun r => r ++ trunc

/-- `replicate` preamble.fl:228-231. -/
def replicateGo : Nat → α → List α
  | 0, _ => []
  | n + 1, x => x :: replicateGo n x

def replicate (n : Int) (x : α) : Option (List α) :=
  if n < 0 then none else some (replicateGo n.toNat x)

/-- `map2` preamble.fl:239-245. -/
def map2 (f : α → β → γ) : List α → List β → Option (List γ)
  | [], [] => some []
  | [], _ :: _ => none
  | _ :: _, [] => none
  | a :: as, b :: bs => (map2 f as bs).map fun r => f a b :: r

/-- `map3` preamble.fl:253-260. -/
def map3 (f : α → β → γ → δ) (l1 : List α) (l2 : List β) (l3 : List γ) : Option (List δ) :=
  match l1, l2, l3 with
  | [], [], [] => some []
  | a :: as, b :: bs, c :: cs => (map3 f as bs cs).map fun r => f a b c :: r
  | _, _, _ => none

/-- `map4` preamble.fl:264-274. -/
def map4 (f : α → β → γ → δ → ε) (l1 : List α) (l2 : List β) (l3 : List γ) (l4 : List δ) :
    Option (List ε) :=
  match l1, l2, l3, l4 with
  | [], [], [], [] => some []
  | a :: as, b :: bs, c :: cs, d :: ds => (map4 f as bs cs ds).map fun r => f a b c d :: r
  | _, _, _, _ => none

/-- `map_index` preamble.fl:309. -/
def mapIndex (f : Int → α → β) (l : List α) : Option (List β) := map2 f (upto 1 l.length) l

/-- `itlist` preamble.fl:316. -/
def itlist (f : α → β → β) : List α → β → β
  | [], x => x
  | a :: l, x => f a (itlist f l x)

/-- `accumulate` preamble.fl:320; `butlast` and `last` fail on the empty
list (C66). -/
def accumulate (f : α → α → α) (l : List α) : Option α :=
  match l.getLast? with
  | none => none
  | some z => some (itlist f l.dropLast z)

/-- `rev_itlist` preamble.fl:323. -/
def revItlist (f : α → β → β) : List α → β → β
  | [], x => x
  | a :: l, x => revItlist f l (f a x)

/-- `flatmap` preamble.fl:327-330. -/
def flatmap (f : α → List β) : List α → List β
  | [] => []
  | a :: l => f a ++ flatmap f l

/-- `split_list` preamble.fl:334-339. -/
def splitList (idx : Int) (l : List α) : Option (List α × α × List α) :=
  match firstn (idx - 1) l, el idx l, butfirstn idx l with
  | some a, some b, some c => some (a, b, c)
  | _, _, _ => none

/-- `process` in `cluster`, preamble.fl:354-357; the first argument bounds the
recursion. -/
def clusterGo (sz : Int) : Nat → List α → Option (List (List α))
  | 0, _ => none
  | k + 1, cl =>
    match cl with
    | [] => some []
    | _ =>
      match firstn sz cl, butfirstn sz cl with
      | some a, some b => (clusterGo sz k b).map fun r => a :: r
      | _, _ => none

/-- `cluster` preamble.fl:347-359. -/
def cluster (sz : Int) (l : List α) : Option (List (List α)) :=
  if sz ≤ 0 then none
  else if (l.length : Int) % sz ≠ 0 then none
  else clusterGo sz (l.length + 1) l

/-- `hdlist` in `interleave`, preamble.fl:363-366. -/
def hdlist : List (List α) → List α
  | [] => []
  | h :: ll => (match h with | [] => [] | a :: _ => [a]) ++ hdlist ll

/-- `rem` in `interleave`, preamble.fl:367-370. -/
def rem : List (List α) → List (List α)
  | [] => []
  | h :: ll => (match h with | [] => [] | _ :: t => [t]) ++ rem ll

/-- `interleave` preamble.fl:362-371; the first argument bounds the
recursion. -/
def interleaveGo : Nat → List (List α) → List α
  | 0, _ => []
  | k + 1, ll => match ll with
    | [] => []
    | _ => hdlist ll ++ interleaveGo k (rem ll)

def interleave (ll : List (List α)) : List α :=
  interleaveGo ((ll.map List.length).sum + ll.length + 1) ll

/-- `unzip` preamble.fl:396-399. -/
def unzip : List (α × β) → List α × List β
  | [] => ([], [])
  | h :: pl => (h.1 :: (unzip pl).1, h.2 :: (unzip pl).2)

/-- `map hd rr`: fails if one of the lists is empty. -/
def heads : List (List α) → Option (List α)
  | [] => some []
  | [] :: _ => none
  | (a :: _) :: rr => (heads rr).map fun r => a :: r

/-- `map tl rr`. -/
def tails : List (List α) → Option (List (List α))
  | [] => some []
  | [] :: _ => none
  | (_ :: t) :: rr => (tails rr).map fun r => t :: r

/-- `tr` in `transpose`, preamble.fl:1624-1627; `hd []` fails. -/
def transposeGo : Nat → List (List α) → Option (List (List α))
  | 0, _ => none
  | k + 1, rr =>
    match rr with
    | [] => none
    | [] :: _ => some []
    | (a :: r) :: rs =>
      match heads ((a :: r) :: rs), tails ((a :: r) :: rs) with
      | some h, some t => (transposeGo k t).map fun x => h :: x
      | _, _ => none

/-- `transpose` preamble.fl:1623-1629. -/
def transpose (ll : List (List α)) : Option (List (List α)) :=
  transposeGo ((ll.headD []).length + 1) ll

/-- `list2str` preamble.fl:556-564; strings are lists of characters. -/
def list2strDo (sep post : List Char) : List Char → List (List Char) → List Char
  | _, [] => post
  | csep, e :: es => csep ++ e ++ list2strDo sep post sep es

def list2str (printEmpty : Bool) (pre sep post : List Char) (pr : α → List Char) (l : List α) :
    List Char :=
  match l with
  | [] => if printEmpty then pre ++ post else []
  | _ => list2strDo sep post pre (l.map pr)

end Voss.Plist
