import Verif.EventTree
/-!
# Validation of event trees

Model of the checks of event trees in `Initializer::ValidateInitialization` (src/initializer.cc 1544–1594)
that follow the checks for cycles: `CheckFunctionalEventOrder` (1596–1635), `EnsureLinksOnlyInSequences`
(1637–1664) and `EnsureHomogeneousEventTree` (1666–1718).  As in `EventTree`, named branches and linked
event trees are unfolded into the places that refer to them (there are no cycles, C28).  A thrown error is
`false` or `none`.
-/
namespace Scram.Et

variable {K : Type}

mutual
/-- `CheckOrder` (initializer.cc 1597–1620) on the target of a branch: the next functional event on the
way has a higher order than `fe`. -/
def Branch.after (order : String → Nat) (fe : String) : Branch K → Bool
  | .mk _ t => t.after order fe
def Target.after (order : String → Nat) (fe : String) : Target K → Bool
  | .sequence _ _ => true
  | .named b => b.after order fe
  | .fork fe' _ => decide (order fe < order fe')
end

mutual
/-- `CheckFunctionalEventOrder` (initializer.cc 1596–1635); `order` gives the orders of the functional
events of the event tree. -/
def Branch.inOrder (order : String → Nat) : Branch K → Bool
  | .mk _ t => t.inOrder order
/-- `OrderValidator` (initializer.cc 1622–1632) -/
def Target.inOrder (order : String → Nat) : Target K → Bool
  | .sequence _ _ => true
  | .named _ => true
  | .fork fe ps => ps.inOrder order fe
def Paths.inOrder (order : String → Nat) (fe : String) : Paths K → Bool
  | .nil => true
  | .cons _ b rest => b.inOrder order && b.after order fe && rest.inOrder order fe
end

mutual
/-- The `Validator` of `EnsureLinksOnlyInSequences` (initializer.cc 1638–1643) with the defaults of
`NullVisitor` (src/instruction.h 187–227), which visits both alternatives of a condition. -/
def Instr.noLink : Instr K → Bool
  | .setHouse _ _ => true
  | .formula _ => true
  | .expression _ => true
  | .ite _ t e => t.noLink && e.noLink
  | .block is => is.noLink
  | .rule is => is.noLink
  | .link _ => false
def Instrs.noLink : Instrs K → Bool
  | .nil => true
  | .cons i rest => i.noLink && rest.noLink
end

mutual
/-- `EnsureLinksOnlyInSequences` (initializer.cc 1637–1664). -/
def Branch.linksAtEnd : Branch K → Bool
  | .mk is t => is.noLink && t.linksAtEnd
def Target.linksAtEnd : Target K → Bool
  | .sequence _ _ => true
  | .named _ => true
  | .fork _ ps => ps.linksAtEnd
def Paths.linksAtEnd : Paths K → Bool
  | .nil => true
  | .cons _ b rest => b.linksAtEnd && rest.linksAtEnd
end

/-- `Type` (initializer.cc 1667). -/
inductive Collects
  | unknown | expression | formula
deriving DecidableEq

mutual
/-- The `Visitor` of `EnsureHomogeneousEventTree` (initializer.cc 1669–1715); the state is the type. -/
def Instr.homogeneous : Instr K → Collects → Option Collects
  | .setHouse _ _, ty => some ty
  | .expression _, ty => if ty = .formula then none else some .expression
  | .formula _, ty => if ty = .expression then none else some .formula
  | .ite _ t e, ty => (t.homogeneous ty).bind e.homogeneous
  | .block is, ty => is.homogeneous ty
  | .rule is, ty => is.homogeneous ty
  | .link b, ty => b.homogeneous ty
def Instrs.homogeneous : Instrs K → Collects → Option Collects
  | .nil, ty => some ty
  | .cons i rest, ty => (i.homogeneous ty).bind rest.homogeneous
def Branch.homogeneous : Branch K → Collects → Option Collects
  | .mk is t, ty => (is.homogeneous ty).bind t.homogeneous
def Target.homogeneous : Target K → Collects → Option Collects
  | .sequence _ is, ty => is.homogeneous ty
  | .fork _ ps, ty => ps.homogeneous ty
  | .named b, ty => b.homogeneous ty
def Paths.homogeneous : Paths K → Collects → Option Collects
  | .nil, ty => some ty
  | .cons _ b rest, ty => (b.homogeneous ty).bind rest.homogeneous
end

/-- An event tree: its initial state, its named branches, and the orders of its functional events
(initializer.cc 633: the place of the definition). -/
structure EventTree (K : Type) where
  initial : Branch K
  branches : List (Branch K)
  order : String → Nat

/-- The branches that are checked (initializer.cc 1563–1568, 1580–1583). -/
def EventTree.all (et : EventTree K) : List (Branch K) := et.branches ++ [et.initial]

/-- The checks of event trees in `ValidateInitialization` (initializer.cc 1561–1589). -/
def validate (ets : List (EventTree K)) : Bool :=
  (ets.all fun et => et.all.all fun b => b.inOrder et.order && b.linksAtEnd) &&
  ets.all fun et => et.all.all fun b => (b.homogeneous .unknown).isSome

end Scram.Et
