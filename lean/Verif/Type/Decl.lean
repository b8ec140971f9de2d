import Verif.Type.Spec
/-
Model of type declarations: `lettype`, `andlettype` and `type_abbrev` (`language.y`, `typecheck.c`, `symbol.c`).

Conventions.
* A record of a declared type (`concrete_type_tp`) has an identity, because its field `place_holder` is
  changed later; the other type records are trees.
* A type variable is written as its number: `find_typevar` (language.y:2346-2357) gives the same variable for
  the same name within a declaration.
* The functions that a declaration adds for saving, loading and taking apart values, and the printing of the
  declared constructors, are modelled by the types they have and by the crash of the printing (`ub`).
-/
namespace Voss.TC

mutual
/-- `typeExp_rec`, with the identity of records of declared types. -/
inductive DTy where
  | var (v : Nat)
  | con (op : Op) (args : DTys)
  | dec (name : String) (args : DTys) (id : Nat)
inductive DTys where
  | nil
  | cons (t : DTy) (ts : DTys)
end

deriving instance DecidableEq for DTy, DTys

def DTys.length : DTys → Nat
  | .nil => 0
  | .cons _ ts => ts.length + 1

mutual
/-- The type, without the identities: `unify` compares declared types by name (typecheck.c:1153-1155). -/
def DTy.erase : DTy → Ty
  | .var v => .var v
  | .con o ts => .con o ts.erase
  | .dec name ts _ => .con (.concrete name) ts.erase
def DTys.erase : DTys → Tys
  | .nil => .nil
  | .cons t ts => .cons t.erase ts.erase
end

/-- `ConcreteTypeTable` and `TypeAbrevTable` (typecheck.c), the fields `place_holder`, the next new record. -/
structure Decls where
  conc : String → Option DTy
  abbr : String → Option DTy
  holder : Nat → Bool
  next : Nat

/-- `insert_missing` (typecheck.h:143-147). -/
inductive Mode where
  | full | holder

/-- The names of types with a meaning of their own (typecheck.c:486-506), other than `tbl`. -/
def builtin (name : String) : Option Op :=
  if name = "int" then some .int
  else if name = "string" then some .string
  else if name = "bool" then some .bool
  else if name = "bexpr" then some .bexpr
  else if name = "obsolete_fsm" then some .fsm
  else if name = "void" then some .void
  else if name = "stream" then some .fp
  else none

/-- `new_concrete_type` typecheck.c:352-368. -/
def newConcrete (d : Decls) (name : String) (tvars : DTys) (hold : Bool) : DTy × Decls :=
  let t := DTy.dec name tvars d.next
  (t, { conc := fun x => if x = name then some t else d.conc x
        abbr := fun x => if x = name then none else d.abbr x
        holder := fun i => if i = d.next then hold else d.holder i
        next := d.next + 1 })

/-- `Get_Type` typecheck.c:455-519; `none`: the message about the number of type arguments was printed. -/
def getType (d : Decls) (name : String) (tvars : DTys) (m : Mode) : Option DTy × Decls :=
  match d.conc name with
  | some (.dec nm ps id) =>
    if ps ≠ .nil then
      if tvars.length ≠ ps.length then (none, d)
      else
        -- a copy, which is no place holder
        (some (.dec nm tvars d.next),
         { d with holder := fun i => if i = d.next then false else d.holder i, next := d.next + 1 })
    else
      match m with
      | .full => (some (.dec nm ps id), { d with holder := fun i => if i = id then false else d.holder i })
      | .holder => (some (.dec nm ps id), d)
  | some t => (some t, d)
  | none =>
    match d.abbr name with
    | some t => (some t, d)
    | none =>
      match builtin name with
      | some o => (some (.con o .nil), d)
      | none =>
        if name = "tbl" then (some (.con .tbl tvars), d)
        else
          let (t, d) := newConcrete d name tvars (match m with | .full => false | .holder => true)
          (some t, d)

mutual
/-- Types as written (`simple_type`, `type_literal` language.y:1186-1265). -/
inductive Syn where
  | name (x : String)
  | var (v : Nat)
  | app (args : Syns) (x : String)
  | op (o : Op) (args : Syns)
inductive Syns where
  | nil
  | cons (t : Syn) (ts : Syns)
end

mutual
/-- Their meaning (`o` is one of `->`, `#`, `ref`, `list`, with its arguments). -/
def Syn.elab (d : Decls) : Syn → Option DTy × Decls
  | .name x => getType d x .nil .holder
  | .var v => (some (.var v), d)
  | .app args x =>
    match args.elab d with
    | (none, d) => (none, d)
    | (some ts, d) => getType d x ts .holder
  | .op o args =>
    match args.elab d with
    | (none, d) => (none, d)
    | (some ts, d) => (some (.con o ts), d)
def Syns.elab (d : Decls) : Syns → Option DTys × Decls
  | .nil => (some .nil, d)
  | .cons t ts =>
    match t.elab d with
    | (none, d) => (none, (ts.elab d).2)
    | (some t, d) =>
      match ts.elab d with
      | (none, d) => (none, d)
      | (some ts, d) => (some (.cons t ts), d)
end

/-- The type of a constructor: `Make_TYPE`, `Unify_Constr` typecheck.c:759-770 and the first line of
`Fix_Types` typecheck.c:599-602, which puts the declared type at the end. -/
def arrowsTo : DTys → DTy → DTy
  | .nil, t => t
  | .cons a as, t => .con .arrow (.cons a (.cons (arrowsTo as t) .nil))

/-- The arguments of a constructor, as the tuple that follows its name: `make_proper`
typecheck.c:2294-2301. -/
def properArgs (cur : Ty) : Tys → Ty
  | .nil => cur
  | .cons a as => properArgs (.con .tuple (.cons cur (.cons a .nil))) as

/-- The type of a destructor: `Fix_Types` typecheck.c:603-606; `b` is the new variable. -/
def destructorType (args : Tys) (t : Ty) (b : Nat) : Ty :=
  .arrow (.arrow (properArgs (.base .string) args) (.var b)) (.arrow t (.var b))

mutual
/-- `Check_no_undef_types` typecheck.c:872-908: the arguments of declared types are not looked at. -/
def noUndef (holder : Nat → Bool) : DTy → Bool
  | .var _ => true
  | .con _ ts => noUndefAll holder ts
  | .dec _ _ id => !holder id
def noUndefAll (holder : Nat → Bool) : DTys → Bool
  | .nil => true
  | .cons t ts => noUndef holder t && noUndefAll holder ts
end

mutual
/-- Printing the type does not follow a null pointer (`print_type_rec` typecheck.c:2651-2744, which
`Get_tmp_type_string` symbol.c:1560-1570 calls for each constructor). -/
def printable : DTy → Bool
  | .var _ => true
  | .con o ts =>
    (match o with
     | .tbl => 2 ≤ ts.length
     | _ => true) && printableAll ts
  | .dec _ ts _ => printableAll ts
def printableAll : DTys → Bool
  | .nil => true
  | .cons t ts => printable t && printableAll ts
end

/-- A constructor: its name, the types of its arguments and of its result. -/
structure Ctor where
  name : String
  args : DTys
  res : DTy
deriving DecidableEq

/-- A declared type as written: its name, parameters, constructors. -/
structure TypeDef where
  name : String
  params : List Nat
  ctors : List (String × Syns)

def varsOf : List Nat → DTys
  | [] => .nil
  | v :: vs => .cons (.var v) (varsOf vs)

/-- `type_expr` language.y:1098-1130. -/
def elabCtors (d : Decls) : List (String × Syns) → Option (List (String × DTys)) × Decls
  | [] => (some [], d)
  | (c, as) :: cs =>
    match as.elab d with
    | (none, d) => (none, (elabCtors d cs).2)
    | (some ts, d) =>
      match elabCtors d cs with
      | (none, d) => (none, d)
      | (some r, d) => (some ((c, ts) :: r), d)

/-- `new_type_decl` language.y:980-1005: first the name of the type, then its constructors.
`ub`: the printing of a constructor's type (`Add_Destructors` symbol.c:691-699) crashes. -/
def elabDef (d : Decls) (t : TypeDef) : Res (Option (List Ctor) × Decls) :=
  match getType d t.name (varsOf t.params) .full with
  | (none, d) => .ok (none, (elabCtors d t.ctors).2)
  | (some r, d) =>
    match elabCtors d t.ctors with
    | (none, d) => .ok (none, d)
    | (some cs, d) =>
      if cs.all (fun c => printableAll c.2) then .ok (some (cs.map fun c => ⟨c.1, c.2, r⟩), d)
      else .ub

/-- The definitions of a group, in order. -/
def elabDefs (d : Decls) : List TypeDef → Res (Option (List Ctor) × Decls)
  | [] => .ok (some [], d)
  | t :: ts =>
    match elabDef d t with
    | .ok (o, d) =>
      match elabDefs d ts with
      | .ok (o', d) => .ok ((match o, o' with | some l, some l' => some (l ++ l') | _, _ => none), d)
      | r => r
    | r => r

/-- A statement: a group of type definitions, or an abbreviation. -/
inductive Stmt where
  | lettype (defs : List TypeDef)
  | abbrev (name : String) (t : Syn)

/-- `type_decl` language.y:960-978, `Check_No_Undefined_Types` symbol.c:1534-1544, `New_Type_Abbrev`
typecheck.c:342-350.  The list are the constructors that the statement defines; `none`: an error was
reported. -/
def exec (d : Decls) : Stmt → Res (Option (List Ctor) × Decls)
  | .lettype defs =>
    match elabDefs d defs with
    | .ok (some cs, d) =>
      .ok ((if cs.all (fun c => noUndef d.holder (arrowsTo c.args c.res)) then some cs else none), d)
    | r => r
  | .abbrev name t =>
    match t.elab d with
    | (none, d) => .ok (none, d)
    | (some t, d) =>
      .ok (some [], { d with abbr := fun x => if x = name then some t else d.abbr x
                             conc := fun x => if x = name then none else d.conc x })

/-- The session before any declaration. -/
def Decls.start : Decls := ⟨fun _ => none, fun _ => none, fun _ => false, 0⟩

/-- A session: the constructors defined by each statement. -/
def run (d : Decls) : List Stmt → Res (List (Option (List Ctor)) × Decls)
  | [] => .ok ([], d)
  | s :: ss =>
    match exec d s with
    | .ok (o, d) =>
      match run d ss with
      | .ok (os, d) => .ok (o :: os, d)
      | .fail => .fail
      | .ub => .ub
      | .out => .out
    | .fail => .fail
    | .ub => .ub
    | .out => .out

end Voss.TC
