import Verif.Vec.Merge

/-
Model of the nodes of a compiled circuit (fsm.c): declaring vectors, and going from names to nodes and back.
Strings are lists of characters without 0; sizes and node numbers do not overflow, and the loops over a range do not run
past the ends of `int`.
-/
namespace Voss.Node
open Voss.Vec

/-- `ilist_rec` (fsm.h): a run of nodes. -/
structure Run where
  frm : Int
  to : Int
  size : Nat
deriving DecidableEq

/-- `vec_info_rec` (fsm.h): a declared vector. -/
structure Info where
  hier : List Char
  decl : Vec
  map : List Run
deriving DecidableEq

/-- The declared vectors in order (`all_name_tbl`; a table of names with chains), and for each node the vector it
belongs to (`nodes`; `np->idx` is the position). -/
structure State where
  infos : List Info
  nodes : List Info
deriving DecidableEq

/-- A result, a failure (reported by the program), or undefined behaviour. -/
inductive Res (α : Type) where
  | ok (a : α)
  | miss
  | ub
deriving DecidableEq

/-- fsm.c:5382-5397 `get_stride`. -/
def stride : Vec → Nat
  | [] => 1
  | .txt _ :: v => stride v
  | .idx rs :: v => (rs.map fun r => (r.up - r.lo + 1).natAbs).sum * stride v

/-- fsm.c:5399-5405 `inside`. -/
def inside (i up lo : Int) : Bool :=
  decide (up < lo ∧ up ≤ i ∧ i ≤ lo) || decide (up ≥ lo ∧ up ≥ i ∧ i ≥ lo)

/-- fsm.c:5160-5166: the offset of an index, with what has been passed so far. -/
def findOff (i : Int) (st : Nat) : List Rng → Nat → Option Nat
  | [], _ => none
  | r :: rs, n =>
    if inside i r.up r.lo then some (n + (r.up - i).natAbs * st)
    else findOff i st rs (n + ((r.up - r.lo).natAbs + 1) * st)

/-- fsm.c:5146-5171 `find_node_index`. -/
def findNode : Vec → Vec → Int → Res Int
  | .txt _ :: d, .txt _ :: v, n => findNode d v n
  | [], [], n => .ok n
  | .idx rs :: d, .idx (q :: _) :: v, n =>
    match findOff q.up (stride d) rs 0 with
    | none => .miss
    | some o => findNode d v (n + o)
  | _, _, _ => .ub

/-- fsm.c:577-594: the index in a group, with the offset that is left.  `none`: past the last range. -/
def chunk (st : Nat) : List Rng → Nat → Option (Int × Nat)
  | [], _ => none
  | r :: rs, k =>
    if k ≥ ((r.up - r.lo).natAbs + 1) * st then chunk st rs (k - ((r.up - r.lo).natAbs + 1) * st)
    else some (if r.up > r.lo then r.up - (k / st : Nat) else r.up + (k / st : Nat), k - k / st * st)

/-- fsm.c:567-599 `get_real_name`, without the hierarchy. -/
def realName : Vec → Nat → Option (List Char)
  | [], _ => some []
  | .txt s :: d, k => (realName d k).map (s ++ ·)
  | .idx rs :: d, k =>
    match chunk (stride d) rs k with
    | none => none
    | some (i, k') => (realName d k').map (decimal i ++ ·)

/-- fsm.c:5425-5453 `is_full_range`.  Simplified: the loop over the ranges is an equality. -/
def isFull : Vec → Vec → Option Bool
  | [], [] => some true
  | .txt s :: d, .txt t :: v => if s ≠ t then some false else isFull d v
  | .idx rs :: d, .idx qs :: v => if rs = qs then isFull d v else some false
  | _, _ => none

/-- fsm.c:5455-5467 `ilist_sel`. -/
def sel : List Run → Nat → Option Int
  | [], _ => none
  | r :: rs, k =>
    if r.size ≤ k then sel rs (k - r.size) else some (if r.frm ≥ r.to then r.frm - k else r.frm + k)

/-- fsm.c:5481-5508: one more node at the end of `idx_map_result`. -/
def push : List Run → Int → List Run
  | [], n => [⟨n, n, 1⟩]
  | [r], n =>
    if r.frm ≥ r.to ∧ n = r.to - 1 then [{ r with to := n, size := r.size + 1 }]
    else if r.frm ≤ r.to ∧ n = r.to + 1 then [{ r with to := n, size := r.size + 1 }]
    else [r, ⟨n, n, 1⟩]
  | r :: r' :: rs, n => r :: push (r' :: rs) n

/-- fsm.c:5407-5422 `find_index_from_end`. -/
def findIdx (i : Int) : List Rng → Nat → Option Nat
  | [], _ => none
  | r :: rs, n =>
    if inside i r.up r.lo then some (n + (i - r.up).natAbs)
    else findIdx i rs (n + ((r.up - r.lo).natAbs + 1))

/-- fsm.c:5513-5524: the indices of a group one after the other; `go` maps the rest. -/
def mapIdx (go : Nat → List Run → Res (List Run)) (rs : List Rng) (st cur : Nat) : List Int → List Run → Res (List Run)
  | [], acc => .ok acc
  | i :: is, acc =>
    match findIdx i rs 0 with
    | none => .miss
    | some k =>
      match go (cur + st * k) acc with
      | .ok acc' => mapIdx go rs st cur is acc'
      | .miss => .miss
      | .ub => .ub

/-- fsm.c:5469-5526 `map_node`. -/
def mapNode : Vec → Vec → List Run → Nat → List Run → Res (List Run)
  | .txt _ :: d, .txt _ :: v, m, cur, acc => mapNode d v m cur acc
  | [], [], m, cur, acc =>
    match sel m cur with
    | none => .ub
    | some n => .ok (push acc n)
  | .idx rs :: d, .idx qs :: v, m, cur, acc =>
    mapIdx (fun c a => mapNode d v m c a) rs (stride d) cur (qs.flatMap Rng.bits) acc
  | _, _, _, _, _ => .ub

/-- The chain found under a full name (fsm.c:5219, 5242). -/
def chain (st : State) (key : List Char) : List Info := st.infos.filter fun e => e.hier ++ sig e.decl = key

/-- The loop of `name2idx` (fsm.c:5243-5247). -/
def nameLoop (v : Vec) : List Info → Res Int
  | [] => .miss
  | e :: es =>
    match e.map with
    | [] => .ub
    | r :: _ =>
      match findNode e.decl v r.frm with
      | .ok n => if n ≥ 0 then .ok n else nameLoop v es
      | .miss => nameLoop v es
      | .ub => .ub

/-- fsm.c:5237-5250 `name2idx`. -/
def name2idx (st : State) (s : List Char) : Res Int :=
  match split s with
  | none => .ub
  | some v => nameLoop v (chain st (sig v))

/-- fsm.c:5173-5180 `idx2name`. -/
def idx2name (st : State) (n : Nat) : Option (List Char) := do
  let e ← st.nodes[n]?
  let r ← e.map.head?
  (realName e.decl (n - r.frm).toNat).map (e.hier ++ ·)

/-- One declaration in the loops of `vec2indices` and `map_vector`. -/
def mapOne (d v : Vec) (m : List Run) : Res (List Run) :=
  match isFull d v with
  | none => .ub
  | some true => .ok m
  | some false => mapNode d v m 0 []

/-- The loop of `vec2indices` (fsm.c:5220-5234); the first segment holds the hierarchy. -/
def indLoop (v : Vec) : List Info → Res (List Run)
  | [] => .miss
  | e :: es =>
    match mapOne e.decl.tail v e.map with
    | .ok m => .ok m
    | .miss => indLoop v es
    | .ub => .ub

/-- fsm.c:5210-5235 `vec2indices`. -/
def vec2indices (st : State) (s : List Char) : Res (List Run) :=
  match split s with
  | some (x :: v) => indLoop v (chain st (sig (x :: v)))
  | _ => .ub

/-- A constant as nodes (fsm.c:5259-5275). -/
def mapConst : List Char → Res (List Run)
  | [] => .ok []
  | c :: cs =>
    match mapConst cs with
    | .ok m =>
      if c = '0' then .ok (⟨0, 0, 1⟩ :: m)
      else if c = '1' then .ok (⟨1, 1, 1⟩ :: m)
      else if c = 'x' then .ok (⟨2, 2, 1⟩ :: m)
      else .miss
    | r => r

/-- The loop over the declarations with the signature (fsm.c:5304-5318, 5327-5341). -/
def declLoop (v : Vec) : List Info → Res (List Run)
  | [] => .miss
  | e :: es =>
    match mapOne e.decl v e.map with
    | .ok m => .ok m
    | .miss => declLoop v es
    | .ub => .ub

/-- Bit by bit (fsm.c:5320-5359): the next result is hung behind the first run of the one before. -/
def bitLoop (es : List Info) : List Vec → Res (List Run)
  | [] => .ok []
  | b :: bs =>
    match declLoop b es with
    | .ok (r :: rs) =>
      match bitLoop es bs with
      | .ok [] => .ok (r :: rs)
      | .ok m => .ok (r :: m)
      | x => x
    | .ok [] => .ub
    | .miss => .miss
    | .ub => .ub

/-- fsm.c:5255-5361 `map_vector`.  `tbl` are the vectors declared in the module.  Simplified: an undeclared signal is a
failure (the program declares a new signal with a warning). -/
def mapVector (tbl : List Info) (s : List Char) : Res (List Run) :=
  match s with
  | '0' :: 'b' :: cs => mapConst cs
  | s =>
    match split s with
    | none => .ub
    | some v =>
      match declLoop v (tbl.filter fun e => sig e.decl = sig v) with
      | .miss => bitLoop (tbl.filter fun e => sig e.decl = sig v) (expand v)
      | r => r

/-- fsm.c:5550-5593 `append_range`. -/
def appendRange : List Run → Int → Int → List Run
  | [], a, b => [⟨a, b, (b - a).natAbs + 1⟩]
  | [r], a, b =>
    if (r.frm = r.to ∨ r.frm < r.to) ∧ r.to + 1 = a ∧ (a < b ∨ a = b) then [⟨r.frm, b, (b - r.frm).natAbs + 1⟩]
    else if (r.frm = r.to ∨ r.frm > r.to) ∧ r.to - 1 = a ∧ (a > b ∨ a = b) then
      [⟨r.frm, b, (b - r.frm).natAbs + 1⟩]
    else [r, ⟨a, b, (b - a).natAbs + 1⟩]
  | r :: r' :: rs, a, b => r :: appendRange (r' :: rs) a b

/-- fsm.c:5602-5607: the run with the first position, and the position at which it begins. -/
def seek (frm : Int) : List Run → Int → Option (Int × List Run)
  | [], _ => none
  | r :: rs, cur => if cur + r.size > frm then some (cur, r :: rs) else seek frm rs (cur + r.size)

/-- fsm.c:5609-5625. -/
def take : List Run → Int → Int → Int → List Run → Option (List Run)
  | [], _, _, _, _ => none
  | r :: rs, cur, frm, size, res =>
    let dir : Int := if r.frm > r.to then -1 else 1
    let start := r.frm + (frm - cur) * dir
    if (r.size : Int) - (start - r.frm).natAbs ≥ size then some (appendRange res start (start + (size - 1) * dir))
    else
      let used : Int := (r.to - start).natAbs + 1
      take rs (cur + r.size) (frm + used) (size - used) (appendRange res start r.to)

/-- fsm.c:5595-5627 `translate_range`.  `none`: a failed assertion. -/
def translate (m : List Run) (frm to : Int) : Option (List Run) :=
  if frm ≤ to then
    match seek frm m 0 with
    | none => none
    | some (cur, m') => take m' cur frm (to - frm + 1) []
  else none

/-- A call of `declare_vector`: hierarchy, name, and the nodes of the actuals if the vector is a formal. -/
structure Decl where
  hier : List Char
  name : List Char
  act : Option (List Run)

/-- fsm.c:5067-5144 `declare_vector`.  `none`: undefined behaviour, or a length mismatch (reported). -/
def declare (st : State) (d : Decl) : Option State :=
  match split d.name with
  | none => none
  | some v =>
    match d.act with
    | some m =>
      if size v ≠ (m.map Run.size).sum then none
      else some { st with infos := st.infos ++ [⟨d.hier, v, m⟩] }
    | none =>
      let n : Int := st.nodes.length
      let e : Info := ⟨d.hier, v, [⟨n, n + size v - 1, size v⟩]⟩
      some ⟨st.infos ++ [e], st.nodes ++ List.replicate (size v) e⟩

/-- All declarations of a circuit. -/
def declareAll : State → List Decl → Option State
  | st, [] => some st
  | st, d :: ds =>
    match declare st d with
    | none => none
    | some st' => declareAll st' ds

end Voss.Node
