import Verif.Inst.Fp
import Verif.Sha.Graph

/-
Model of the SHA-256 signatures of instances (pexlif.c).
Simplified: numbers of lines, functions and actuals are not bounded; the records that are sorted hold only what is compared
and printed; the functions of a leaf are trees of pairs, lists, numbers and strings (constructors are strings), which is what
the expressions of a leaf are made of.
-/
namespace Voss.Inst
open Hier Sha

/-- A function of a leaf as the program sees it. -/
inductive T where
  | nil
  | cons (a b : T)
  | int (z : Int)
  | str (s : Text)
deriving DecidableEq

/-- The order of lists that the loops in pexlif.c:3117-3154 and `strcmp` compute. -/
def lexCmp {α} (cmp : α → α → Ordering) : List α → List α → Ordering
  | [], [] => .eq
  | [], _ :: _ => .lt
  | _ :: _, [] => .gt
  | a :: as, b :: bs => (cmp a b).then (lexCmp cmp as bs)

/-- `strcmp` (C11 7.24.4.2). -/
def strcmp : Text → Text → Ordering := lexCmp fun c d => compare c.toNat d.toNat

/-- list_ops.c:108-199 `Graph_cmp` on such trees; a null pointer is below every node. -/
def tcmp : T → T → Ordering
  | .nil, .nil => .eq
  | .nil, _ => .lt
  | _, .nil => .gt
  | .cons a b, .cons c d => (tcmp a c).then (tcmp b d)
  | .cons _ _, _ => .lt
  | _, .cons _ _ => .gt
  | .int x, .int y => compare x y
  | .int _, .str _ => .lt
  | .str _, .int _ => .gt
  | .str s, .str t => strcmp s t

/-- `signature_rec` (pexlif.h:125-130): name, signature and actuals. -/
structure Key where
  name : Text
  sha : Text
  ins : List (List Text)
  outs : List (List Text)
deriving DecidableEq

/-- pexlif.c:3108-3156 `signature_rec_cmp`. -/
def keyCmp (a b : Key) : Ordering :=
  (strcmp a.name b.name).then <| (strcmp a.sha b.sha).then <|
    (lexCmp (lexCmp strcmp) a.ins b.ins).then (lexCmp (lexCmp strcmp) a.outs b.outs)

/-- sha256.c:521-644 `SHA256_acyclic_type`: the lines for a tree whose number is `k`, and the next number. -/
def lines : Nat → T → List Text × Nat
  | k, .nil => ([line k .nil], k + 1)
  | k, .int z => ([line k (.int z)], k + 1)
  | k, .str s => ([line k (.str s)], k + 1)
  | k, .cons a b =>
    let (o, k1) := lines (k + 1) a
    let (o', k2) := lines k1 b
    (o ++ o' ++ [line k (.cons (k + 1) k1)], k2)

/-- pexlif.c:3198-3204: the functions, numbered from `i`. -/
def fnLines : Nat → Nat → List T → List Text
  | _, _, [] => []
  | i, k, t :: ts =>
    let (o, k1) := lines k t
    o ++ ("fn[".toList ++ dec i ++ "]:".toList ++ dec k ++ ['\n']) :: fnLines (i + 1) k1 ts

/-- pexlif.c:3095-3105 `find_sha`; the program ends if there is none. -/
def findSha : List (Name × Name) → Option Text
  | [] => none
  | (k, v) :: as => if k = "SHA".toList then some v else findSha as

/-- pexlif.c:3217-3222: what is compared and printed of an instance inside. -/
def key (c : Kid) : Option Key :=
  (findSha c.attrs).map fun s => ⟨c.name, s, c.inps.map Pin.acts, c.outs.map Pin.acts⟩

def keys : List Kid → Option (List Key)
  | [] => some []
  | c :: cs => do let k ← key c; let r ← keys cs; some (k :: r)

/-- pexlif.c:3237-3246, 3250-3259: the actuals of the pins. -/
def pinText : Nat → List (List Text) → List Text
  | _, [] => []
  | i, as :: ps => ("act[".toList ++ dec i ++ "]:".toList) :: (as.map (· ++ [' ']) ++ pinText (i + 1) ps)

/-- pexlif.c:3228-3260: the instances, numbered from `i`. -/
def kidText : Nat → List Key → List Text
  | _, [] => []
  | i, k :: ks =>
    ("ch[".toList ++ dec i ++ "]:".toList) :: (k.name ++ [' ']) :: (k.sha ++ [' ']) :: "act_inps:\n".toList ::
      (pinText 1 k.ins ++ "act_outs:\n".toList :: (pinText 1 k.outs ++ kidText (i + 1) ks))

section
variable (sortT : List T → List T) (sortK : List Key → List Key)

/-- pexlif.c:3188-3262: the text of the contents. -/
def contentText : Content T → Option (List Text)
  | .leaf fns => some (fnLines 1 1 (sortT fns))
  | .hier cs => (keys cs).map fun ks => kidText 1 (sortK ks)

/-- pexlif.c:3173-3185: the name and the interface. -/
def headText (p : Inst T) : List Text :=
  (p.name ++ ['\n']) :: (p.inps.map (fun q => 'i' :: ':' :: (q.formal ++ ['\n'])) ++
    p.outs.map (fun q => 'o' :: ':' :: (q.formal ++ ['\n'])) ++ p.ints.map fun n => 'm' :: ':' :: (n ++ ['\n']))

/-- pexlif.c:3166-3267 `compute_sha_pinst`: the text, in pieces. -/
def shaText (p : Inst T) : Option (List Text) := (contentText sortT sortK p.content).map (headText p ++ ·)

/-- pexlif.c:3166-3267 `compute_sha_pinst`. -/
def shaInst (junk : List Byte) (p : Inst T) : Option Text :=
  (shaText sortT sortK p).map fun ps => hashOf junk (ps.map toBytes)
end

end Voss.Inst
