import Verif.Ids
import Verif.Formula
import Verif.Cycle
import Mathlib.Data.Fintype.List
/-!
# Loading the input files: registration, definition, validation

Models `Initializer::ProcessInputFiles` (src/initializer.cc 191-234) for fault trees and their data: all the documents are
registered first (`ProcessInputFile`, in `Verif.Ids`), then all the elements are defined (`ProcessTbdElements`), then the
result is validated (`ValidateInitialization`).

Simplifications: an exception ends the loading (`none`), so only the first error would differ with the order of the checks
inside of one definition. The XML element of an entry of `tbd_` is given by the function `Bodies` of the registered element:
two declarations that register the same element are refused anyway. Numbers in expressions are opaque constants. Extern
functions, event trees, rules, alignments and substitutions are not part of this model. What the CCF groups and the numeric
validation check (`CcfGroup::AddFactor`, `Expression::Validate`, `CcfGroup::Validate`, `BasicEvent::Validate`) is a parameter
(`Env`); it sees everything that is defined.
-/
namespace Scram.Load
open Scram.Ids

/-- The element name or the `type` attribute of a formula argument (src/initializer.cc 724-750). -/
inductive RefType | event | gate | basic | house
  deriving DecidableEq

/-- An argument of a formula (src/initializer.cc 756-770): a constant, or a reference, possibly inside of `not`. -/
inductive ArgNode where
  | const (b : Bool)
  | ref (neg : Bool) (type : RefType) (name : Str)

/-- The XML element of a formula (src/initializer.cc 708-718, 775-785): a reference or a constant on its own has the connective
`null` and itself as the argument. -/
structure FNode where
  conn : Mef.Connective
  args : List ArgNode
  min : Option Int
  max : Option Int

/-- What an argument points to: `HouseEvent::kTrue`, `HouseEvent::kFalse` or an element. -/
inductive Target where
  | const (b : Bool)
  | elem (e : Elem)
  deriving DecidableEq

/-- A formula of a gate. -/
structure FDef where
  conn : Mef.Connective
  minN : Nat
  maxN : Nat
  args : List (Bool × Target)
  deriving DecidableEq

/-- What the argument set and the formula look at in an event (src/event.cc 166-245): its type and its id. The literal events
have the ids `__true__` and `__false__` (src/event.cc 35-40). -/
def Target.event : Target → Mef.Event
  | .const true => ⟨.constTrue, 0, "__true__"⟩
  | .const false => ⟨.constFalse, 0, "__false__"⟩
  | .elem e => ⟨match e.kind with | .gate => .gate | .house => .house | _ => .basic, 0, String.ofList e.id⟩

def toArg (a : Bool × Target) : Mef.Arg := ⟨a.1, a.2.event⟩

/-- `arg_event` (src/initializer.cc 733-749). -/
def getRef (s : St) (base : Str) : RefType → Str → Option Elem
  | .event, n => getEvent s n base
  | .gate, n => getEntity s .gate n base
  | .basic, n => getEntity s .basic n base
  | .house, n => getEntity s .house n base

/-- `add_arg` (src/initializer.cc 756-770), without the insertion into the set. -/
def getArg (s : St) (base : Str) : ArgNode → Option (Bool × Target)
  | .const b => some (false, .const b)
  | .ref neg t n => (getRef s base t n).map fun e => (neg, .elem e)

/-- The arguments in their order. -/
def getArgs (s : St) (base : Str) : List ArgNode → Option (List (Bool × Target))
  | [] => some []
  | a :: as => do
    let x ← getArg s base a
    let xs ← getArgs s base as
    return x :: xs

/-- `Initializer::GetFormula` (src/initializer.cc 708-785), with `ArgSet::Add` and the constructor of `Formula`. -/
def getFormula (s : St) (base : Str) (f : FNode) : Option FDef := do
  let args ← getArgs s base f.args
  match Mef.construct f.conn (args.map toArg) f.min f.max with
  | .ok g => some ⟨f.conn, g.minNumber, g.maxNumber, args⟩
  | .error _ => none

/-- The XML element of an expression (src/initializer.cc 1157-1225); `leaf` stands for the constants, `pi` and the tests of
events; the arguments of `histogram` and `switch` are listed flat. Units are positions in `kUnitsToString`. -/
inductive XNode where
  | leaf (c : Nat)
  | param (name : Str) (unit : Option Nat)
  | mission (unit : Option Nat)
  | op (name : String) (args : List XNode)

/-- An expression. -/
inductive Val where
  | leaf (c : Nat)
  | param (e : Elem)
  | mission
  | op (name : String) (args : List Val)

/-- The definitions in the XML elements of the registered elements. -/
structure Bodies where
  gate : Elem → FNode
  basic : Elem → Option XNode
  house : Elem → Option Bool
  param : Elem → XNode
  /-- the attribute `unit` of a parameter, `unitless` (0) if there is none -/
  unit : Elem → Nat
  ccf : Elem → List XNode

/-- `check_units` (src/initializer.cc 1231-1240). -/
def unitOk (asked : Option Nat) (has : Nat) : Bool :=
  match asked with
  | none => true
  | some u => u = has

/-- `kHours`, the unit of the mission time (src/parameter.h 36, 58). -/
def kHours : Nat := 4

/-- What the constructors refuse: `Mean` (src/expression/numerical.cc 70-73), `PeriodicTest` (src/initializer.cc 1066-1081). -/
def ctorOk (op : String) (n : Nat) : Bool :=
  if op = "mean" then 2 ≤ n
  else if op = "periodic-test" then n = 4 || n = 5 || n = 11
  else true

mutual
/-- `Initializer::GetExpression` and `GetParameter` (src/initializer.cc 1157-1260). -/
def getExpr (s : St) (b : Bodies) (base : Str) : XNode → Option Val
  | .leaf c => some (.leaf c)
  | .param n u => do
    let e ← getEntity s .param n base
    if unitOk u (b.unit e) then some (.param e) else none
  | .mission u => if unitOk u kHours then some .mission else none
  | .op o args => do
    let vs ← getExprs s b base args
    if ctorOk o vs.length then some (.op o vs) else none
def getExprs (s : St) (b : Bodies) (base : Str) : List XNode → Option (List Val)
  | [] => some []
  | x :: xs => do
    let v ← getExpr s b base x
    let vs ← getExprs s b base xs
    return v :: vs
end

/-- What an element is defined to be. -/
inductive Def where
  | gate (f : FDef)
  | basic (v : Option Val)
  | house (state : Bool)
  | param (v : Val)
  | ccf (vs : List Val)

/-- The settings and the checks that are parameters of this model. -/
structure Env where
  /-- `settings_.probability_analysis()` -/
  prob : Bool
  /-- `CcfGroup::AddDistribution`, `AddFactor` -/
  ccfOk : Elem → List Val → Bool
  /-- `Expression::Validate`, `CcfGroup::Validate`, `BasicEvent::Validate`, given all the definitions -/
  check : (Elem → Option Def) → Elem → Def → Bool

/-- `Initializer::Define` for gates, basic events, parameters and CCF groups (src/initializer.cc 412-463); the state of house
events (284-287). -/
def define (env : Env) (b : Bodies) (s : St) (e : Elem) : Option Def :=
  match e.kind with
  | .gate => (getFormula s e.base (b.gate e)).map .gate
  | .basic =>
    match b.basic e with
    | some x => (getExpr s b e.base x).map fun v => .basic (some v)
    | none => if env.prob then none else some (.basic none)
  | .house => some (.house ((b.house e).getD false))
  | .param => (getExpr s b e.base (b.param e)).map .param
  | .ccf => do
    let vs ← getExprs s b e.base (b.ccf e)
    if env.ccfOk e vs then some (.ccf vs) else none

/-- `ProcessTbdElements` (src/initializer.cc 593-620). -/
def defineAll (env : Env) (b : Bodies) (s : St) : List Elem → Option (List (Elem × Def))
  | [] => some []
  | e :: es => do
    let d ← define env b s e
    let ds ← defineAll env b s es
    return (e, d) :: ds

/-- What is defined about an element. -/
def lookup (defs : List (Elem × Def)) (e : Elem) : Option Def := (defs.find? fun p => p.1 = e).map (·.2)

/-- The elements as nodes of the graphs. -/
abbrev Node (s : St) := {e : Elem // e ∈ s.elems}

def node? (s : St) (e : Elem) : Option (Node s) := if h : e ∈ s.elems then some ⟨e, h⟩ else none

/-- `GetNodes(const Formula*)` (src/cycle.h 62-70): the arguments that are gates. -/
def gateNodes (s : St) (defs : List (Elem × Def)) (n : Node s) : List (Option (Node s)) :=
  match lookup defs n.1 with
  | some (.gate f) => f.args.map fun a =>
    match a.2 with
    | .elem e => if e.kind = .gate then node? s e else none
    | .const _ => none
  | _ => []

mutual
/-- An expression as a connector between parameters (src/cycle.h 71-93). -/
def toEx (s : St) : Val → Cycle.Ex (Node s)
  | .leaf _ => .other []
  | .mission => .other []
  | .param e => match node? s e with
    | some n => .param n
    | none => .other []
  | .op _ args => .other (toExs s args)
def toExs (s : St) : List Val → List (Cycle.Ex (Node s))
  | [] => []
  | v :: vs => toEx s v :: toExs s vs
end

/-- The argument of a parameter is the expression it is defined by (src/parameter.cc `Parameter::expression`). -/
def paramArgs (s : St) (defs : List (Elem × Def)) (n : Node s) : List (Cycle.Ex (Node s)) :=
  match lookup defs n.1 with
  | some (.param v) => [toEx s v]
  | _ => []

/-- The nodes of one kind: `model_->table<Gate>()`, `model_->table<Parameter>()`. -/
def nodesOf (s : St) (k : Kind) : List (Node s) := s.elems.attach.filter fun n => n.1.kind = k

/-- `ValidateInitialization` (src/initializer.cc 1544-1546) and `ValidateExpressions` (1795-1823). -/
def validate (env : Env) (s : St) (defs : List (Elem × Def)) : Bool :=
  Cycle.checkCycle (fun d n => Cycle.contFormula d (gateNodes s defs n)) (s.elems.length + 1) (nodesOf s .gate) = some none &&
  Cycle.checkCycle (fun d n => Cycle.contArgs d (paramArgs s defs n)) (s.elems.length + 1) (nodesOf s .param) = some none &&
  defs.all fun p => env.check (lookup defs) p.1 p.2

/-- The loaded model. -/
structure Model where
  elems : List Elem
  trees : List Str
  defs : List (Elem × Def)

/-- `ProcessInputFiles` (src/initializer.cc 191-234); `files` are the declarations of the documents. The members of CCF groups
are not in `tbd_`: the group gives them its distribution (src/ccf_group.cc 76-79). -/
def loadModel (env : Env) (b : Bodies) (files : List (List Item)) : Option Model := do
  let s ← load files.flatten
  let defs ← defineAll env b s (s.elems.filter fun e => !e.member)
  if validate env s defs then some ⟨s.elems, s.trees, defs⟩ else none

end Scram.Load
