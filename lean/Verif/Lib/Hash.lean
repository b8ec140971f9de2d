/-
Model of `src/lib/hash.c` (`src/include/hash.h`): chained hash tables with automatic resizing.

Conventions.
* A key of type `K` is the pointer given to the table; `h` and `eq` are the two functions given to
  `create_hash`.  Stored data is a pointer: `none` is `NULL`.
* `none` as the result of an operation is undefined behaviour: a null pointer is followed, or the table
  of primes is read past its end.
* Buckets come from a record manager (`src/lib/rec.c`, modelled in `Verif.Lib.Rec`); here a chain is a list.
-/
namespace Voss.Lib

/-- The table `primes` (hash.c:12-41), without the 0 at its end. -/
def primes : List Nat :=
  [13, 23, 59, 113, 241, 503, 1019, 2039, 4091, 8179, 16369, 32749, 65521, 131063, 262139, 524269,
   1048571, 2097143, 4194287, 8388593, 16777199, 33554393, 67108859, 134217689, 268435399, 536870879,
   1073741789, 2147483629]

/-- The loop `while( primes[i] < size ) i++` (hash.c:56-59, 211-214).  The 0 at the end of the table
does not stop it: it runs off the table (`none`) if no prime is large enough. -/
def nextPrime (n : Nat) : Option Nat := primes.find? (fun p => decide (n ≤ p))

/-- `hash_record` (hash.h:35-45). -/
structure Tbl (K V : Type) where
  autosize : Bool
  size : Nat
  elements : Nat
  table : List (List (K × Option V))

section
variable {K V : Type} (h : K → Nat → Nat) (eq : K → K → Bool)

/-- `create_hash` hash.c:48-73. -/
def create (size : Nat) : Option (Tbl K V) := do
  let p ← nextPrime size
  some ⟨true, p, 0, List.replicate p []⟩

/-- `find_hash` hash.c:182-197: the data of the first entry in the chain whose key is equal. -/
def find (t : Tbl K V) (key : K) : Option (Option V) := do
  let chain ← t.table[h key t.size]?
  some ((chain.find? (fun e => eq key e.1)).bind (·.2))

/-- Put one entry in front of the chain it belongs to (hash.c:227-229, 237-242). -/
def place (size : Nat) (tbl : List (List (K × Option V))) (e : K × Option V) : Option (List (List (K × Option V))) := do
  let chain ← tbl[h e.1 size]?
  some (tbl.set (h e.1 size) (e :: chain))

/-- `place` for a list of entries, from the first to the last. -/
def placeAll (size : Nat) : List (List (K × Option V)) → List (K × Option V) → Option (List (List (K × Option V)))
  | tbl, [] => some tbl
  | tbl, e :: es => do
    let tbl ← place h size tbl e
    placeAll size tbl es

/-- The resizing part of `insert_hash` (hash.c:206-235): the chains are walked from the first to the
last, each from its head, and every bucket is put in front of its new chain. -/
def resize (t : Tbl K V) : Option (Tbl K V) :=
  if t.autosize = true ∧ t.elements > 2 * t.size then do
    let p ← nextPrime t.elements
    let tbl ← placeAll h p (List.replicate p []) t.table.flatten
    some { t with size := p, table := tbl }
  else some t

/-- `insert_hash` hash.c:199-244. -/
def insert (t : Tbl K V) (key : K) (data : Option V) : Option (Tbl K V) := do
  let t ← resize h t
  let tbl ← place h t.size t.table (key, data)
  some { t with elements := t.elements + 1, table := tbl }

/-- Unlink the first entry with an equal key (hash.c:255-260); at the end of the chain the code
follows a null pointer. -/
def unlink (key : K) : List (K × Option V) → Option (List (K × Option V))
  | [] => none
  | e :: es => if eq key e.1 then some es else (unlink key es).map (e :: ·)

/-- `delete_hash` hash.c:246-263. -/
def delete (t : Tbl K V) (key : K) : Option (Tbl K V) := do
  let chain ← t.table[h key t.size]?
  let chain ← unlink eq key chain
  some { t with elements := t.elements - 1, table := t.table.set (h key t.size) chain }

/-- The entries in the order in which `scan_hash` (hash.c:265-279) visits them. -/
def scan (t : Tbl K V) : List (K × Option V) := t.table.flatten

/-- `insert_check_hash` hash.c:287-294. -/
def insertCheck (t : Tbl K V) (key : K) (data : Option V) : Option (Bool × Tbl K V) := do
  match ← find h eq t key with
  | some _ => some (false, t)
  | none =>
    let t ← insert h t key data
    some (true, t)

/-- Operations on a table. -/
inductive Op (K V : Type) where
  | insert (key : K) (data : Option V)
  | delete (key : K)
  | find (key : K)
  | insertCheck (key : K) (data : Option V)
  | size
  | autosize (b : Bool)

/-- What an operation returns. -/
inductive Out (V : Type) where
  | unit
  | data (d : Option V)
  | bool (b : Bool)
  | num (n : Nat)
deriving DecidableEq

def step (t : Tbl K V) : Op K V → Option (Tbl K V × Out V)
  | .insert key d => do
    let t ← insert h t key d
    some (t, .unit)
  | .delete key => do
    let t ← delete h eq t key
    some (t, .unit)
  | .find key => do
    let d ← find h eq t key
    some (t, .data d)
  | .insertCheck key d => do
    let (b, t) ← insertCheck h eq t key d
    some (t, .bool b)
  | .size => some (t, .num t.elements)
  | .autosize b => some ({ t with autosize := b }, .unit)

def run : Tbl K V → List (Op K V) → Option (Tbl K V × List (Out V))
  | t, [] => some (t, [])
  | t, op :: ops => do
    let (t, o) ← step h eq t op
    let (t, os) ← run t ops
    some (t, o :: os)

end

end Voss.Lib
