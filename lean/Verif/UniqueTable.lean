/-
Model of the hash-consing layer of the decision diagrams:
`Vertex` reference counting (/repo/src/bdd.h 138-198), `WeakIntrusivePtr` (/repo/src/bdd.h 78-125),
`UniqueTable` (/repo/src/bdd.h 392-532) and `Bdd::FindOrAddVertex` (/repo/src/bdd.cc 88-102).

A vertex is named by its id (ids come from the counter `function_id_`, /repo/src/bdd.cc 98, and act as its
address); the terminal One has id 1 and is kept alive by the manager.

Simplifications: `boost::hash_combine` is an arbitrary function; `GetNextCapacity` (/repo/src/bdd.h 511-520) is an
arbitrary positive function; the slot default-constructed by `FindOrAdd` is filled at once by its only caller.
Machine-integer overflow of ids and counts is not modelled.
-/
namespace Scram.UniqueTable

/-- Functional update. -/
def upd {α : Type} (f : Nat → α) (i : Nat) (v : α) : Nat → α := fun j => if j = i then v else f j

/-- A live non-terminal vertex: `NonTerminal`/`Ite` data members (/repo/src/bdd.h 321-328, 376)
with the reference count `use_count_` (/repo/src/bdd.h 196). -/
structure Cell where
  index : Nat
  order : Nat
  high : Nat
  low : Nat
  cedge : Bool
  rc : Nat
deriving DecidableEq, Repr

/-- The signature `(index, get_high_id, get_low_id)` of a vertex (/repo/src/bdd.h 227-232, 345-347). -/
structure Sig where
  index : Nat
  high : Nat
  low : Int
deriving DecidableEq, Repr

/-- The low id is negated for a complement edge (/repo/src/bdd.h 345-347; /repo/src/bdd.cc 93). -/
def sigOf (index high low : Nat) (cedge : Bool) : Sig :=
  { index := index, high := high, low := if cedge then - (low : Int) else (low : Int) }

/-- The signature retrieved from a vertex. -/
def Cell.sig (c : Cell) : Sig := sigOf c.index c.high c.low c.cedge

/-- `std::forward_list<WeakIntrusivePtr<T>>` (/repo/src/bdd.h 396): `none` is an expired pointer. -/
abbrev Bucket := List (Option Nat)

/-- `UniqueTable` data members (/repo/src/bdd.h 522-530); the capacity is the number of buckets. -/
structure Table where
  size : Nat
  buckets : List Bucket
deriving Repr

/-- The parameters outside of the table's control. -/
structure Params where
  hash : Sig → Nat
  nextCapacity : Nat → Nat
  nextCapacity_pos : ∀ n, 0 < nextCapacity n

/-- The manager: vertices alive, the unique table, the id counter and (ghost) the number of
pointers to each vertex held from outside of the diagram (clients, computation tables, the stack). -/
structure State where
  cells : Nat → Option Cell
  table : Table
  nextId : Nat
  client : Nat → Nat

/-- The chain scan of `FindOrAdd` (/repo/src/bdd.h 447-460): drops the expired pointers met before the match;
returns the new chain, the id of the match, and the number of the dropped pointers. -/
def scan (cells : Nat → Option Cell) (key : Sig) : Bucket → Bucket × Option Nat × Nat
  | [] => ([], none, 0)
  | none :: rest =>
    let r := scan cells key rest
    (r.1, r.2.1, r.2.2 + 1)
  | some v :: rest =>
    if (cells v).map Cell.sig = some key then (some v :: rest, some v, 0)
    else
      let r := scan cells key rest
      (some v :: r.1, r.2.1, r.2.2)

/-- Moves one pointer in the loop of `Rehash` (/repo/src/bdd.h 476-489): expired ones stay behind. -/
def rehashEntry (P : Params) (cells : Nat → Option Cell) (t : Table) : Option Nat → Table
  | none => t
  | some v =>
    match cells v with
    | none => t            -- unreachable: a non-expired pointer points to a live vertex
    | some c =>
      { size := t.size + 1
        buckets := t.buckets.modify (P.hash c.sig % t.buckets.length) (fun b => some v :: b) }

/-- `Rehash` (/repo/src/bdd.h 470-495). -/
def rehash (P : Params) (cells : Nat → Option Cell) (t : Table) (newCapacity : Nat) : Table :=
  t.buckets.flatten.foldl (rehashEntry P cells) { size := 0, buckets := List.replicate newCapacity [] }

/-- The growth check at the start of `FindOrAdd` (/repo/src/bdd.h 440-441). -/
def grow (P : Params) (cells : Nat → Option Cell) (t : Table) : Table :=
  if 4 * t.size ≥ 3 * t.buckets.length then rehash P cells t (P.nextCapacity t.buckets.length) else t

/-- Increments the use count (`intrusive_ptr_add_ref`, /repo/src/bdd.h 145-147); the terminal is not counted. -/
def addRef (cells : Nat → Option Cell) (v : Nat) : Nat → Option Cell :=
  upd cells v ((cells v).map fun c => { c with rc := c.rc + 1 })

/-- `Bdd::FindOrAddVertex` (/repo/src/bdd.cc 88-102) together with `UniqueTable::FindOrAdd`
(/repo/src/bdd.h 439-463). The result pointer is handed to the client. -/
def findOrAddVertex (P : Params) (s : State) (index order high low : Nat) (cedge : Bool) : State × Nat :=
  let key := sigOf index high low cedge
  let t := grow P s.cells s.table
  let b := P.hash key % t.buckets.length
  let (chain, found, n) := scan s.cells key (t.buckets.getD b [])
  match found with
  | some v =>
    ({ s with cells := addRef s.cells v
              table := { size := t.size - n, buckets := t.buckets.set b chain }
              client := upd s.client v (s.client v + 1) }, v)
  | none =>
    let v := s.nextId
    let cells := addRef (addRef s.cells high) low
    ({ cells := upd cells v (some { index, order, high, low, cedge, rc := 1 })
       table := { size := t.size - n + 1, buckets := t.buckets.set b (chain ++ [some v]) }
       nextId := v + 1
       client := upd s.client v (s.client v + 1) }, v)

/-- `~Vertex` (/repo/src/bdd.h 188-191): the weak pointer of the table is told of the destruction. -/
def expire (v : Nat) (t : Table) : Table :=
  { t with buckets := t.buckets.map fun b => b.map fun e => if e = some v then none else e }

/-- `intrusive_ptr_release` (/repo/src/bdd.h 154-163) on a pointer held by the client; the last reference destroys
the vertex, which in turn releases its branches. `fuel` bounds the recursion depth by the vertex id,
since branches are older than the vertex. -/
def release (fuel : Nat) (s : State) (v : Nat) : State :=
  match fuel with
  | 0 => s
  | fuel + 1 =>
    match s.cells v with
    | none => { s with client := upd s.client v (s.client v - 1) }      -- the terminal vertex
    | some c =>
      let client := upd s.client v (s.client v - 1)
      if c.rc = 1 then
        let client := upd client c.high (client c.high + 1)
        let client := upd client c.low (client c.low + 1)
        let s : State := { s with cells := upd s.cells v none, table := expire v s.table, client := client }
        release fuel (release fuel s c.low) c.high
      else
        { s with cells := upd s.cells v (some { c with rc := c.rc - 1 }), client := client }

/-- Client operations: make a vertex from two held branches, copy a held pointer, drop a held pointer. -/
inductive Op where
  | make (index order high low : Nat) (cedge : Bool)
  | copy (v : Nat)
  | drop (v : Nat)

/-- The client holds a pointer; the terminal (id 1) is always available. -/
def State.holds (s : State) (v : Nat) : Bool := v == 1 || 0 < s.client v

/-- One client operation; operations on pointers that the client does not hold are impossible (no-op here). -/
def step (P : Params) (s : State) : Op → State
  | .make index order high low cedge =>
    if s.holds high && s.holds low then (findOrAddVertex P s index order high low cedge).1 else s
  | .copy v => if 0 < s.client v then
      { s with cells := addRef s.cells v, client := upd s.client v (s.client v + 1) } else s
  | .drop v => if 0 < s.client v then release (v + 1) s v else s

/-- A new manager (/repo/src/bdd.cc 41-45, /repo/src/bdd.h 404-408). -/
def init (initCapacity : Nat) : State :=
  { cells := fun _ => none, table := { size := 0, buckets := List.replicate initCapacity [] }
    nextId := 2, client := fun _ => 0 }

/-- The state after a history of client operations. -/
def run (P : Params) (initCapacity : Nat) (ops : List Op) : State :=
  ops.foldl (step P) (init initCapacity)

end Scram.UniqueTable
