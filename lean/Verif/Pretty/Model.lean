/-
The pretty printer (`src/vosslib/pretty.fl`) and the C function that prints
its result (`src/bin/fl/doc.c`).

Texts are lists of bytes (`List Char`).  `none` stands for a failure
(`error` in fl, `Fail_pr` in C).  fl is lazy, the model is strict: where the
model does not fail, the values are the same.
-/

namespace Voss.Pretty

/-- `doc` (pretty.fl:9-18). -/
inductive Doc where
  | nil
  | nilAbove (d : Doc)
  | txt (i : Int) (s : List Char) (d : Doc)
  | nest (k : Int) (d : Doc)
  | union (p q : Doc)
  | beside (p : Doc) (b : Bool) (q : Doc)
  | above (p : Doc) (b : Bool) (q : Doc)
  | empty
  deriving DecidableEq, Repr

open Doc

/-- `str` (pretty.fl:29) together with the constructor `TxtBeside`. -/
def mkTxt (s : List Char) (d : Doc) : Doc := txt s.length s d

/-- `indent` (pretty.fl:32), used for positive numbers only. -/
def indent (n : Int) : List Char := List.replicate n.toNat ' '

/-- `text` (pretty.fl:43). -/
def text (s : List Char) : Doc := mkTxt s nil

/-- The local `nest_` of `nest` (pretty.fl:48-53). -/
def nestGo : Int → Doc → Doc
  | l, .nest i p => nestGo (l + i) p
  | _, empty => empty
  | _, nil => nil
  | l, p => if l = 0 then p else .nest l p

/-- `reduce` (pretty.fl:140-144) of what `reduce` has returned: the
identity.  Simplification: on anything else the model fails; the theorems
show that this does not happen. -/
def again : Doc → Option Doc
  | beside _ _ _ => none
  | above _ _ _ => none
  | d => some d

/-- `nest` (pretty.fl:46-56) of a document that has been reduced. -/
def nestR (k : Int) (d : Doc) : Option Doc := (again d).map (nestGo k)

/-- `join` (pretty.fl:59-61). -/
def join : Doc → Doc → Doc
  | nil, _ => nil
  | p, q => union p q

/-- `above` (pretty.fl:64-67): `$-$` (`b` false) and `$+$` (`b` true)
(pretty.fl:147-152). -/
def mkAbove : Doc → Bool → Doc → Doc
  | nil, _, q => q
  | p, b, q => if q = nil then p else above p b q

/-- `beside` (pretty.fl:70-73): `<->` (`b` false) and `<+>` (`b` true)
(pretty.fl:155-160). -/
def mkBeside : Doc → Bool → Doc → Doc
  | nil, _, q => q
  | p, b, q => if q = nil then p else beside p b q

/-- `besideNil` (pretty.fl:79-84). -/
def besideNil : Bool → Doc → Doc
  | _, nil => nil
  | b, .nest _ p => besideNil b p
  | true, p => mkTxt [' '] p
  | false, p => p

/-- `besideRed` (pretty.fl:86-97) of a first document that has been
reduced. -/
def besideN : Doc → Bool → Doc → Option Doc
  | empty, _, _ => some empty
  | nil, _, q => some q
  | nilAbove p, b, q => (besideN p b q).map nilAbove
  | txt i s p, b, q =>
    if p = nil then some (txt i s (besideNil b q)) else (besideN p b q).map (txt i s)
  | .nest i p, b, q => (besideN p b q).map (.nest i)
  | union pl pr, b, q =>
    (besideN pl b q).bind fun x => (besideN pr b q).map fun y => union x y
  | beside _ _ _, _, _ => none
  | above _ _ _, _, _ => none

/-- `aboveNil` (pretty.fl:106-113). -/
def aboveNil : Bool → Int → Doc → Option Doc
  | _, _, nil => some nil
  | b, k, .nest i q => aboveNil b (k + i) q
  | b, k, q => if !b && decide (k > 0) then some (mkTxt (indent k) q) else (nestR k q).map nilAbove

/-- `aboveNest` (pretty.fl:115-129). -/
def aboveNest : Doc → Bool → Int → Doc → Option Doc
  | empty, _, _, _ => some empty
  | nil, _, k, q => nestR k q
  | nilAbove p, b, k, q => (aboveNest p b k q).map nilAbove
  | txt i s p, b, k, q =>
    (if p = nil then aboveNil b (k - i) q else aboveNest p b (k - i) q).map (txt i s)
  | .nest i p, b, k, q => (aboveNest p b (k - i) q).map (.nest i)
  | union pl pr, b, k, q =>
    (aboveNest pl b k q).bind fun x => (aboveNest pr b k q).map fun y => union x y
  | beside _ _ _, _, _, _ => none
  | above _ _ _, _, _, _ => none

mutual
/-- `reduce` (pretty.fl:140-144). -/
def reduce : Doc → Option Doc
  | beside p b q => (reduce q).bind fun x => besideRed p b x
  | above p b q => (reduce q).bind fun x => aboveRed p b x
  | p => some p

/-- `besideRed` (pretty.fl:86-103).  Where the program calls `reduce` of the
same document, its definition is written out. -/
def besideRed : Doc → Bool → Doc → Option Doc
  | above p b' q', b, q =>
    ((reduce q').bind fun x => aboveRed p b' x).bind fun x => besideN x b q
  | beside p b' q', b, q =>
    if b' = b then (besideRed q' b q).bind fun x => besideRed p b' x
    else ((reduce q').bind fun x => besideRed p b' x).bind fun x => besideN x b q
  | p, b, q => besideN p b q

/-- `aboveRed` (pretty.fl:131-137).  As above. -/
def aboveRed : Doc → Bool → Doc → Option Doc
  | above p b' q', b, q => (aboveRed q' b q).bind fun x => aboveRed p b' x
  | beside p b' q', b, q =>
    ((reduce q').bind fun x => besideRed p b' x).bind fun x =>
      (again q).bind fun y => aboveNest x b 0 y
  | p, b, q => (again q).bind fun y => aboveNest p b 0 y
end

/-- `nest` (pretty.fl:46-56). -/
def mkNest (k : Int) (d : Doc) : Option Doc := (reduce d).map (nestGo k)

/-- `emptyReduce` (pretty.fl:164-167). -/
def emptyReduce (cons : Doc → Bool → Doc → Doc) : Doc → Bool → Bool × Doc → Bool × Doc
  | nil, _, q => q
  | p, b, q => (false, if q.1 then p else cons p b q.2)

/-- `verticalReduce` (pretty.fl:169-173). -/
def verticalReduce : Doc → Bool × Doc
  | above p b q => emptyReduce above (verticalReduce p).2 b (verticalReduce q)
  | d => (false, d)

/-- `horizontalReduce` (pretty.fl:175-179). -/
def horizontalReduce : Doc → Bool × Doc
  | beside p b q => emptyReduce beside (horizontalReduce p).2 b (horizontalReduce q)
  | d => (false, d)

/-- `oneLine` (pretty.fl:181-190). -/
def oneLine : Doc → Option Doc
  | empty => some empty
  | nil => some nil
  | nilAbove _ => some empty
  | txt i s p => (oneLine p).map (txt i s)
  | .nest k p => (oneLine p).map (.nest k)
  | union p _ => oneLine p
  | beside _ _ _ => none
  | above _ _ _ => none

/-- `hsep` (`b` true, pretty.fl:230-232) and `hcat` (`b` false,
pretty.fl:234-236). -/
def hcat (b : Bool) (ds : List Doc) : Doc :=
  (horizontalReduce (ds.foldr (fun p q => beside p b q) nil)).2

/-- `vcat` (pretty.fl:238-240). -/
def vcat (ds : List Doc) : Doc :=
  (verticalReduce (ds.foldr (fun p q => above p false q) nil)).2

/-- The case `Nil` of `sepNB` (pretty.fl:200-204). -/
def sepEnd (b : Bool) (k : Int) (ds : List Doc) : Option Doc :=
  (reduce (hcat b ds)).bind fun x =>
  (oneLine (besideNil b x)).bind fun y =>
  (reduce (vcat ds)).bind fun v =>
  (aboveNil false k v).map fun z => join y z

/-- `sepLine` (pretty.fl:208-221) and `sepNB` (pretty.fl:198-206); `inner`
says that it is `sepNB` that is called.  `rest` is what `sepSpace b ds`
returns. -/
def sepLine (rest : Option Doc) (b : Bool) (ds : List Doc) (inner : Bool) : Doc → Int → Option Doc
  | .nest n p, k =>
    if inner then sepLine rest b ds true p k
    else (sepLine rest b ds false p (k - n)).map (.nest n)
  | nil, k => if inner then sepEnd b k ds else rest.bind fun x => nestR k x
  | empty, _ => some empty
  | nilAbove p, k =>
    (reduce (vcat ds)).bind fun v => (aboveNest p false k v).map nilAbove
  | txt i s p, k => (sepLine rest b ds true p (k - i)).map (txt i s)
  | union pl pr, k =>
    (sepLine rest b ds false pl k).bind fun x =>
    (reduce (vcat ds)).bind fun v => (aboveNest pr false k v).map fun y => union x y
  | beside _ _ _, _ => none
  | above _ _ _, _ => none

/-- `sepSpace` (pretty.fl:223-225): `sep` (`b` true) and `cat` (`b` false)
(pretty.fl:227-228). -/
def sepSpace (b : Bool) : List Doc → Option Doc
  | [] => some nil
  | d :: ds => (reduce d).bind fun x => sepLine (sepSpace b ds) b ds false x 0

/-- The local `go` of `punctuate` (pretty.fl:246-248). -/
def punctGo (p x : Doc) : List Doc → List Doc
  | [] => [x]
  | y :: ys => mkBeside x false p :: punctGo p y ys

/-- `punctuate` (pretty.fl:244-251). -/
def punctuate (p : Doc) : List Doc → List Doc
  | [] => []
  | d :: ds => punctGo p d ds

/-- `fits` (pretty.fl:255-268). -/
def fits : Int → Doc → Option Bool
  | m, empty => some (if m < 0 then false else false)
  | m, nil => some (if m < 0 then false else true)
  | m, nilAbove _ => some (if m < 0 then false else true)
  | m, txt i _ p => if m < 0 then some false else fits (m - i) p
  | m, .nest _ _ => if m < 0 then some false else none
  | m, union _ _ => if m < 0 then some false else none
  | m, beside _ _ _ => if m < 0 then some false else none
  | m, above _ _ _ => if m < 0 then some false else none

/-- `nicestL` (pretty.fl:270-272); `nicest` (pretty.fl:274) has `l` 0. -/
def nicestL (w r l : Int) (p q : Doc) : Option Doc :=
  (fits (min w r - l) p).map fun f => if f then p else q

/-- `niceL` (pretty.fl:278-292; `inner` is some column) and `nice`
(pretty.fl:294-306; `inner` is none). -/
def nice (r : Int) : Option Int → Int → Doc → Option Doc
  | _, _, empty => some empty
  | _, _, nil => some nil
  | some l, w, nilAbove q => (nice r none (w - l) q).map nilAbove
  | none, w, nilAbove q => (nice r none w q).map nilAbove
  | some l, w, txt i s q => (nice r (some (l + i)) w q).map (txt i s)
  | none, w, txt i s q => (nice r (some i) w q).map (txt i s)
  | some l, w, .nest _ q => nice r (some l) w q
  | none, w, .nest i q => (nice r none (w - i) q).map (.nest i)
  | some l, w, union ql qr =>
    (nice r (some l) w ql).bind fun x => (nice r (some l) w qr).bind fun y => nicestL w r l x y
  | none, w, union ql qr =>
    (nice r none w ql).bind fun x => (nice r none w qr).bind fun y => nicestL w r 0 x y
  | _, _, beside _ _ _ => none
  | _, _, above _ _ _ => none

/-- What `printf` writes for `"%*s"` with the width `k` and the text of one
blank: at least the blank, and as many as the absolute value of `k` (a
negative width means to fill on the right). -/
def blanks (k : Int) : List Char := List.replicate (max 1 k.natAbs) ' '

/-- `doc2print` (doc.c:162-217).  `inner` is false at the label `start`,
true at `startL`.  Simplifications: columns are integers, not C `int`s, and
`tprintf` (error.c:214-225) does not cut the first text of a line after 16383
bytes. -/
def doc2print (fin : List Char) : Bool → Int → Doc → Option (List Char)
  | _, _, nil => some fin
  | _, k, nilAbove p => (doc2print fin false k p).map fun r => '\n' :: r
  | false, k, txt len s p => (doc2print fin true (k + len) p).map fun r => blanks k ++ s ++ r
  | true, k, txt len s p => (doc2print fin true (k + len) p).map fun r => s ++ r
  | false, k, .nest i p => doc2print fin false (k + i) p
  | true, k, .nest _ p => doc2print fin true k p
  | _, _, union _ _ => none
  | _, _, beside _ _ _ => none
  | _, _, above _ _ _ => none
  | _, _, empty => none

/-- `render` (pretty.fl:318-321) with `line_width` `w`, the ribbon `r` and
the text `fin` at the end: what is written. -/
def render (d : Doc) (w r : Int) (fin : List Char) : Option (List Char) :=
  (reduce d).bind fun x => (nice r none w x).bind fun y => doc2print fin false 0 y

end Voss.Pretty
