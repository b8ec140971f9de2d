import Verif.Lst.Model
/-
Model of `assoc`, `rev_assoc`, `mem` and `el` (list_ops.c:255-408, 486-528), which keep a table for each list they
have been applied to, and of what happens to these tables in a garbage collection (list_ops.c:56-86).

* A list is identified by the address of its first node.  `heap` tells what is at an address.
* The four tables of tables are functions from addresses; a `find_hash` that gives `NULL` is `none`.
* `step` has a bound `n` on the number of list nodes visited.
-/
namespace Voss.Lst

section
variable {α σ : Type}

/-- `assoc_tbl_rec`: the table filled so far and `next_to_insert`. -/
structure Tab (α σ : Type) where
  tbl : List (α × α)
  next : σ

/-- The record of a list for `el`; its keys are positions. -/
structure ElTab (α σ : Type) where
  tbl : List (Int × α)
  next : σ

/-- `assoc_tbls`, `rev_assoc_tbls`, `mem_tbls`, `el_tbls`. -/
structure Tbls (α σ : Type) where
  assoc : σ → Option (Tab α σ)
  rassoc : σ → Option (Tab α σ)
  mem : σ → Option (Tab α σ)
  el : σ → Option (ElTab α σ)

/-- `List_ops_Init` list_ops.c:42-52. -/
def Tbls.init : Tbls α σ := ⟨fun _ => none, fun _ => none, fun _ => none, fun _ => none⟩

/-- `find_hash(&(atp->tbl), key)`. -/
def look (eq : α → α → Bool) (tbl : List (α × α)) (key : α) : Option α :=
  (tbl.find? (fun x => eq key x.1)).map (·.2)

/-- The loops list_ops.c:279-293, 326-340, 510-522.  `get` takes an entry of the list apart into key and
value. -/
def scan (eq : α → α → Bool) (get : α → α × α) (heap : σ → Cell α σ) (key : α) :
    Nat → Tab α σ → Tab α σ × Res α
  | 0, r => (r, .more)
  | n + 1, r =>
    match heap r.next with
    | .nil => (r, .own)
    | .fail _ => (r, .ub)
    | .cons e t =>
      let lkey := (get e).1
      let v := (get e).2
      let r' : Tab α σ := ⟨if (look eq r.tbl lkey).isNone then (lkey, v) :: r.tbl else r.tbl, t⟩
      if eq key lkey then (r', .ok v) else scan eq get heap key n r'

/-- The common part of `assoc`, `rev_assoc`, `mem`: find or make the record of the list, look in its table, go on
with the list. -/
def assocLike (eq : α → α → Bool) (get : α → α × α) (heap : σ → Cell α σ) (n : Nat) (key : α) (alist : σ)
    (r? : Option (Tab α σ)) : Tab α σ × Res α :=
  let r := match r? with
    | some r => r
    | none => ⟨[], alist⟩
  match look eq r.tbl key with
  | some v => (r, .ok v)
  | none => scan eq get heap key n r

/-- The loop of `el`, list_ops.c:383-402. -/
def elLoop (heap : σ → Cell α σ) (idx : Int) : Nat → ElTab α σ → Int → ElTab α σ × Res α
  | 0, r, _ => (r, .more)
  | n + 1, r, lastIdx =>
    match heap r.next with
    | .nil => (r, .own)
    | .fail _ => (r, .ub)
    | .cons e t => match heap t with
      | .fail m => (r, .fail m)
      | _ =>
        let r' : ElTab α σ := ⟨(lastIdx + 1, e) :: r.tbl, t⟩
        if lastIdx + 1 = idx then (r', .ok e) else elLoop heap idx n r' (lastIdx + 1)

/-- `el` list_ops.c:349-408, after the test of the index; `hash_size` is the number of entries. -/
def elLike (heap : σ → Cell α σ) (n : Nat) (idx : Int) (alist : σ) (r? : Option (ElTab α σ)) : ElTab α σ × Res α :=
  let r := match r? with
    | some r => r
    | none => ⟨[], alist⟩
  match r.tbl.find? (fun x => idx == x.1) with
  | some x => (r, .ok x.2)
  | none => elLoop heap idx n r r.tbl.length

/-- Values of the calls: an element, or a truth value. -/
inductive Val (α : Type) where
  | elem (a : α)
  | bool (b : Bool)
deriving DecidableEq

inductive Call (α σ : Type) where
  | assoc (key : α) (l : σ)
  | rassoc (key : α) (l : σ)
  | mem (key : α) (l : σ)
  | el (i : Int) (l : σ)

def Res.map {β γ : Type} (f : β → γ) : Res β → Res γ
  | .ok v => .ok (f v)
  | .fail m => .fail m
  | .own => .own
  | .ub => .ub
  | .more => .more

/-- The result of `mem`: found, or at the end of the list. -/
def memRes : Res α → Res (Val α)
  | .ok _ => .ok (.bool true)
  | .own => .ok (.bool false)
  | .fail m => .fail m
  | .ub => .ub
  | .more => .more

def put {β : Type} [DecidableEq σ] (f : σ → Option β) (s : σ) (r : β) : σ → Option β :=
  fun x => if x = s then some r else f x

/-- One call.  `pair` takes a pair apart. -/
def call [DecidableEq σ] (eq : α → α → Bool) (pair : α → α × α) (heap : σ → Cell α σ) (n : Nat) (T : Tbls α σ) :
    Call α σ → Tbls α σ × Res (Val α)
  | .assoc key l =>
    let x := assocLike eq pair heap n key l (T.assoc l)
    ({ T with assoc := put T.assoc l x.1 }, x.2.map .elem)
  | .rassoc key l =>
    let x := assocLike eq (fun e => ((pair e).2, (pair e).1)) heap n key l (T.rassoc l)
    ({ T with rassoc := put T.rassoc l x.1 }, x.2.map .elem)
  | .mem key l =>
    let x := assocLike eq (fun e => (e, e)) heap n key l (T.mem l)
    ({ T with mem := put T.mem l x.1 }, memRes x.2)
  | .el i l =>
    match getInt i with
    | none => (T, .ub)
    | some idx =>
      if idx ≤ 0 then (T, .own)
      else
        let x := elLike heap n idx l (T.el l)
        ({ T with el := put T.el l x.1 }, x.2.map .elem)

/-- `List_GC` list_ops.c:56-86: the tables of lists that are not in use any more are dropped. -/
def gc (dead : σ → Bool) (T : Tbls α σ) : Tbls α σ where
  assoc := fun s => if dead s then none else T.assoc s
  rassoc := fun s => if dead s then none else T.rassoc s
  mem := fun s => if dead s then none else T.mem s
  el := fun s => if dead s then none else T.el s

end
end Voss.Lst
