import Verif.Formula
/-! Meaning of the connectives of the Open-PSA model exchange format (specification side). -/
namespace Scram.Mef

/-- The value of a connective applied to argument values. -/
def Connective.eval (c : Connective) (min max : Nat) (vs : List Bool) : Bool :=
  match c with
  | .and => vs.all id
  | .or => vs.any id
  | .atleast => decide (min ≤ vs.count true)
  | .xor => decide (vs.count true = 1)
  | .not => !(vs.all id)
  | .nand => !(vs.all id)
  | .nor => !(vs.any id)
  | .null => vs.all id
  | .iff => decide (vs.count true = 0 ∨ vs.count true = vs.length)
  | .imply => match vs with
    | [a, b] => !a || b
    | _ => true
  | .cardinality => decide (min ≤ vs.count true ∧ vs.count true ≤ max)

/-- The value of a formula for given values of the argument events. -/
def Formula.eval (f : Formula) (v : Event → Bool) : Bool :=
  f.connective.eval f.minNumber f.maxNumber (f.args.map fun a => a.complement ^^ v a.event)

end Scram.Mef
