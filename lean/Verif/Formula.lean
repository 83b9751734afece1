import Mathlib.Data.List.Nodup
/-
Model of Boolean formulas of the input model: /repo/src/event.h 196-380, /repo/src/event.cc 52-260.
-/
namespace Scram.Mef

/-- `Connective` (/repo/src/event.h 199-213). -/
inductive Connective where
  | and | or | atleast | xor | not | nand | nor | null | iff | imply | cardinality
deriving DecidableEq, Repr

/-- The kinds of `ArgEvent`, with the two predefined constant house events (/repo/src/event.cc 36-42). -/
inductive Kind where
  | gate | basic | house | constTrue | constFalse
deriving DecidableEq, Repr

/-- An event as an argument: the kind, the object identity and the identifier string. -/
structure Event where
  kind : Kind
  ptr : Nat
  id : String
deriving DecidableEq, Repr

/-- `Formula::Arg` (/repo/src/event.h 234-237). -/
structure Arg where
  complement : Bool
  event : Event
deriving DecidableEq, Repr

/-- The kinds of exceptions. -/
inductive Err where
  | duplicate | logic | validity
deriving DecidableEq, Repr

/-- `ArgSet::Add` (/repo/src/event.cc 55-66). The usage flag of events is not modelled. -/
def argAdd (args : List Arg) (event : Event) (complement : Bool) : Except Err (List Arg) :=
  if args.any fun a => a.event.id == event.id then .error .duplicate
  else .ok (args ++ [⟨complement, event⟩])

/-- `ArgSet` constructors from ranges (/repo/src/event.h 252-256). -/
def argSet (l : List Arg) : Except Err (List Arg) := l.foldlM (fun as a => argAdd as a.event a.complement) []

/-- `ArgSet::Remove` (/repo/src/event.cc 68-74). -/
def argRemove (args : List Arg) (event : Event) : Except Err (List Arg) :=
  if args.any fun a => a.event == event then .ok (args.eraseIdx (args.findIdx fun a => a.event == event))
  else .error .logic

/-- `Formula` (/repo/src/event.h 364-367). -/
structure Formula where
  connective : Connective
  minNumber : Nat
  maxNumber : Nat
  args : List Arg
deriving Repr

/-- The stored form of a number: a `std::uint16_t` initialized by `value_or(0)` of an optional `int`
(/repo/src/event.cc 78-79, /repo/src/event.h 365-366). -/
def stored (n : Option Int) : Nat := ((n.getD 0) % 65536).toNat

/-- `Formula::ValidateMinMaxNumber` (/repo/src/event.cc 132-173) without the debug assertions. -/
def validateMinMax (c : Connective) (min max : Option Int) : Except Err Unit := do
  if let some m := min then
    if m < 0 then throw .logic
    if c ≠ .atleast ∧ c ≠ .cardinality then throw .logic
  if let some x := max then
    if x < 0 then throw .logic
    if c ≠ .cardinality then throw .logic
    if let some m := min then
      if m > x then throw .validity

/-- `Formula::ValidateConnective` (/repo/src/event.cc 175-234). -/
def validateConnective (c : Connective) (minN maxN : Nat) (n : Nat) (min max : Option Int) : Except Err Unit :=
  match c with
  | .and | .or | .nand | .nor => if n < 2 then .error .validity else .ok ()
  | .not | .null => if n ≠ 1 then .error .validity else .ok ()
  | .xor | .iff | .imply => if n ≠ 2 then .error .validity else .ok ()
  | .atleast =>
    if min.isNone then .error .validity
    else if minN < 2 then .error .validity
    else if n ≤ minN then .error .validity
    else .ok ()
  | .cardinality =>
    if min.isNone ∨ max.isNone then .error .validity
    else if n = 0 then .error .validity
    else if n < maxN then .error .validity
    else .ok ()

/-- `Formula::ValidateNesting` (/repo/src/event.cc 236-248). -/
def validateNesting (c : Connective) (a : Arg) : Except Err Unit :=
  if a.complement ∧ (c = .null ∨ c = .not) then .error .logic
  else if c = .not ∧ (a.event.kind = .constTrue ∨ a.event.kind = .constFalse) then .error .logic
  else .ok ()

/-- The `Formula` constructor (/repo/src/event.cc 76-95). -/
def mkFormula (c : Connective) (args : List Arg) (min max : Option Int) : Except Err Formula := do
  validateMinMax c min max
  validateConnective c (stored min) (stored max) args.length min max
  forM args (validateNesting c)
  return ⟨c, stored min, stored max, args⟩

/-- Construction of a formula from a range of arguments. -/
def construct (c : Connective) (l : List Arg) (min max : Option Int) : Except Err Formula := do
  let args ← argSet l
  mkFormula c args min max

/-- `Formula::Swap` (/repo/src/event.cc 109-130). -/
def Formula.swap (f : Formula) (current other : Event) : Except Err Formula := do
  let pos := f.args.findIdx fun a => a.event == current
  match f.args[pos]? with
  | none => throw .logic
  | some it =>
    if f.args.any fun a => a.event != current && a.event.id == other.id then throw .duplicate
    validateNesting f.connective ⟨it.complement, other⟩
    return { f with args := f.args.set pos ⟨it.complement, other⟩ }

end Scram.Mef
