import Mathlib.Data.List.Nodup
import Mathlib.Data.Set.Card
import Mathlib.Data.List.Dedup
/-
Model of the vector-based map and set: /repo/src/ext/linear_map.h, /repo/src/ext/linear_set.h.

The underlying `std::vector` is a list in order, an iterator is a position in it. Allocation, moved-from values and
exceptions of user types are not modelled.
-/
namespace Scram.LinearMap
variable {K V : Type} [DecidableEq K]

/-- The two erase policies (/repo/src/ext/linear_map.h 33-83). -/
inductive Eraser where
  | default
  | move
deriving DecidableEq

/-- `erase(it, &container)` (/repo/src/ext/linear_map.h 46-50, 68-75): `pos` is the position of the iterator. -/
def Eraser.erase {α : Type} (e : Eraser) (l : List α) (pos : Nat) : List α :=
  match e with
  | .default => l.eraseIdx pos
  | .move =>
    match l.getLast? with
    | none => l
    | some x => (if pos ≠ l.length - 1 then l.set pos x else l).dropLast

/-- `find` (/repo/src/ext/linear_map.h 204-213): the position of the entry, or the length (the end iterator). -/
def find (m : List (K × V)) (k : K) : Nat := m.findIdx fun p => p.1 == k

/-- `count` (/repo/src/ext/linear_map.h 222-224). -/
def count (m : List (K × V)) (k : K) : Nat := if find m k ≠ m.length then 1 else 0

/-- `at` (/repo/src/ext/linear_map.h 259-268); `none` is the exception. -/
def at? (m : List (K × V)) (k : K) : Option V := (m[find m k]?).map (·.2)

/-- `m[k] = v` (/repo/src/ext/linear_map.h 233-247): access to an existing or a default entry, then assignment. -/
def assign (m : List (K × V)) (k : K) (v : V) : List (K × V) :=
  match m[find m k]? with
  | some p => m.set (find m k) (p.1, v)
  | none => m ++ [(k, v)]

/-- Evaluation of `m[k]` (/repo/src/ext/linear_map.h 233-247) with the default value `dflt`. -/
def index (dflt : V) (m : List (K × V)) (k : K) : List (K × V) × V :=
  match m[find m k]? with
  | some p => (m, p.2)
  | none => (m ++ [(k, dflt)], dflt)

/-- `insert` and `emplace` (/repo/src/ext/linear_map.h 279-293, 318-320): the map, the position and the flag. -/
def insert (m : List (K × V)) (p : K × V) : List (K × V) × Nat × Bool :=
  if find m p.1 ≠ m.length then (m, find m p.1, false) else (m ++ [p], (m ++ [p]).length - 1, true)

/-- `insert` of a range (/repo/src/ext/linear_map.h 304-309). -/
def insertRange (m : List (K × V)) : List (K × V) → List (K × V)
  | [] => m
  | p :: ps => insertRange (if find m p.1 = m.length then m ++ [p] else m) ps

/-- `erase` by key (/repo/src/ext/linear_map.h 339-345). -/
def eraseKey (e : Eraser) (m : List (K × V)) (k : K) : List (K × V) × Nat :=
  if find m k = m.length then (m, 0) else (e.erase m (find m k), 1)

/-- `operator==` (/repo/src/ext/linear_map.h 142-150). -/
def equal [DecidableEq V] (a b : List (K × V)) : Bool := a.length == b.length && a.all fun p => b.contains p

/-- The operations of a program with two maps. -/
inductive Op (K V : Type) where
  | assign (k : K) (v : V)
  | index (k : K)
  | insert (k : K) (v : V)
  | insertRange (l : List (K × V))
  | construct (l : List (K × V))
  | eraseKey (k : K)
  | eraseAt (pos : Nat)
  | clear
  | swap

/-- Execution; `eraseAt` with an end iterator is undefined in the program, it is skipped here. -/
def step (e : Eraser) (dflt : V) (s : List (K × V) × List (K × V)) : Op K V → List (K × V) × List (K × V)
  | .assign k v => (LinearMap.assign s.1 k v, s.2)
  | .index k => ((LinearMap.index dflt s.1 k).1, s.2)
  | .insert k v => ((LinearMap.insert s.1 (k, v)).1, s.2)
  | .insertRange l => (LinearMap.insertRange s.1 l, s.2)
  | .construct l => (LinearMap.insertRange [] l, s.2)
  | .eraseKey k => ((LinearMap.eraseKey e s.1 k).1, s.2)
  | .eraseAt pos => (if pos < s.1.length then e.erase s.1 pos else s.1, s.2)
  | .clear => ([], s.2)
  | .swap => (s.2, s.1)

def run (e : Eraser) (dflt : V) (s : List (K × V) × List (K × V)) (ops : List (Op K V)) :=
  ops.foldl (step e dflt) s

/-- `linear_set` (/repo/src/ext/linear_set.h): `find` 142-154 by key with the extraction policy `key`. -/
def setFind {W : Type} (key : W → K) (s : List W) (k : K) : Nat := s.findIdx fun w => k == key w

/-- `linear_set::insert` (/repo/src/ext/linear_set.h 175-189). -/
def setInsert {W : Type} (key : W → K) (s : List W) (w : W) : List W × Nat × Bool :=
  if setFind key s (key w) ≠ s.length then (s, setFind key s (key w), false) else (s ++ [w], (s ++ [w]).length - 1, true)

/-- `linear_set::insert` of a range (/repo/src/ext/linear_set.h 200-205). -/
def setInsertRange {W : Type} (key : W → K) (s : List W) : List W → List W
  | [] => s
  | w :: ws => setInsertRange key (if setFind key s (key w) = s.length then s ++ [w] else s) ws

/-- `linear_set::erase` (/repo/src/ext/linear_set.h 226-241). -/
def setErase {W : Type} (key : W → K) (s : List W) (k : K) : List W × Nat :=
  if setFind key s k = s.length then (s, 0) else (s.eraseIdx (setFind key s k), 1)

/-- `linear_set::operator==` (/repo/src/ext/linear_set.h 88-94). -/
def setEqual {W : Type} (key : W → K) (a b : List W) : Bool :=
  a.length == b.length && a.all fun w => setFind key b (key w) != b.length

inductive SetOp (K W : Type) where
  | insert (w : W)
  | insertRange (l : List W)
  | construct (l : List W)
  | erase (k : K)
  | eraseAt (pos : Nat)
  | clear
  | swap

def setStep {W : Type} (key : W → K) (s : List W × List W) : SetOp K W → List W × List W
  | .insert w => ((setInsert key s.1 w).1, s.2)
  | .insertRange l => (setInsertRange key s.1 l, s.2)
  | .construct l => (setInsertRange key [] l, s.2)
  | .erase k => ((setErase key s.1 k).1, s.2)
  | .eraseAt pos => (if pos < s.1.length then s.1.eraseIdx pos else s.1, s.2)
  | .clear => ([], s.2)
  | .swap => (s.2, s.1)

def setRun {W : Type} (key : W → K) (s : List W × List W) (ops : List (SetOp K W)) := ops.foldl (setStep key) s

end Scram.LinearMap
