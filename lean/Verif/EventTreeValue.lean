import Verif.EventTree
import Mathlib.Algebra.Group.Pi.Basic
import Mathlib.Algebra.Ring.Pi
/-!
# The value of a sequence with collected expressions

The event tree analysis stores the expressions themselves (/repo/src/event_tree_analysis.cc 196-199) and makes the expression of the sequence from them (113-162). It is evaluated after the analysis of the
tree (/repo/src/risk_analysis.cc 88-100), when test expressions read the context as the walk left it (/repo/src/expression/test_event.cc 25-33). An expression is therefore a function of the states of
the functional events; the initiating event is fixed.
-/
namespace Scram.Et

/-- `TestFunctionalEvent::value` (/repo/src/expression/test_event.cc 29-33) -/
def testFunctional {R : Type} [One R] [Zero R] (name state : String) (ctx : Ctx) : R :=
  match ctx name with
  | some s => if s = state then 1 else 0
  | none => 0

/-- `Ite::Compute` (/repo/src/expression/conditional.h 38-44) on expressions that read the context -/
def iteExpr {R : Type} [Zero R] [DecidableEq R] (c t e : Ctx → R) (ctx : Ctx) : R := if c ctx ≠ 0 then t ctx else e ctx

/-- The context after the walk: `context_->functional_events` at the end of `CollectSequences` (/repo/src/event_tree_analysis.cc 243-246). -/
def contextAfter {K : Type} (initial : Branch K) : Ctx := (initial.collect {} ((fun _ => none), [])).1

/-- The value of a sequence, when its gate has no formulas: the expression of the basic event in the context after the walk (/repo/src/risk_analysis.cc 88-108), or certainty. -/
def sequenceValue {R : Type} [CommSemiring R] (initial : Branch (Ctx → R)) (sequence : String) : Option R :=
  match analyze initial sequence with
  | some (.expression e) => some (e (contextAfter initial))
  | some .certain => some 1
  | _ => none

end Scram.Et
