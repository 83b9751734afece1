import Verif.Combination
import Verif.FormulaSem
import Mathlib.Algebra.Order.Field.Basic
/-
Model of common cause failure groups: /repo/src/ccf_group.cc 39-302, /repo/src/ccf_group.h 80-258.

Expressions are represented by their value and their interval, numbers by the elements of an ordered field `K`
(no rounding). Members are identified by their names.
-/
namespace Scram.Ccf
open Scram.Mef

variable {K : Type} [Field K] [LinearOrder K] [IsStrictOrderedRing K]

/-- The four models (/repo/src/ccf_group.h 206-258). -/
inductive Model where
  | beta | mgl | alpha | phi
deriving DecidableEq, Repr

/-- What a group observes of an `Expression`: `value()` and the bounds of `interval()`. -/
structure Expr (K : Type) where
  value : K
  lo : K
  hi : K

/-- The kinds of exceptions. -/
inductive CErr where
  | logic | validity | duplicate | domain
deriving DecidableEq, Repr

/-- `CcfGroup` (/repo/src/ccf_group.h 193-200). -/
structure CcfGroup (K : Type) where
  model : Model
  prevLevel : Int := 0
  distribution : Option (Expr K) := none
  members : List String := []
  factors : List (Int × Option (Expr K)) := []

/-- Member functions that may throw: the state written before a `throw` stays written. -/
abbrev Act (K : Type) := ExceptT CErr (StateM (CcfGroup K))

/-- `min_level` (/repo/src/ccf_group.h 174, 211, 226). -/
def CcfGroup.minLevel (g : CcfGroup K) : Int :=
  match g.model with
  | .beta => g.members.length
  | .mgl => 2
  | .alpha => 1
  | .phi => 1

/-- `CcfGroup::AddMember` (/repo/src/ccf_group.cc 54-67). -/
def addMember (name : String) : Act K Unit := do
  let g ← get
  if g.distribution.isSome || !g.factors.isEmpty then throw .logic
  if g.members.any (· == name) then throw .duplicate
  modify fun g => { g with members := g.members ++ [name] }

/-- `CcfGroup::AddDistribution` (/repo/src/ccf_group.cc 69-80); the expressions of the members are not part of the state. -/
def addDistribution (distr : Expr K) : Act K Unit := do
  let g ← get
  if g.distribution.isSome then throw .logic
  if g.members.length < 2 then throw .validity
  modify fun g => { g with distribution := some distr }

/-- `std::vector::resize` with null expressions and level 0. -/
def resize (l : List (Int × Option (Expr K))) (n : Nat) : List (Int × Option (Expr K)) :=
  l.take n ++ List.replicate (n - l.length) (0, none)

/-- `CcfGroup::AddFactor` (/repo/src/ccf_group.cc 82-115). -/
def addFactor (factor : Expr K) (level? : Option Int) : Act K Unit := do
  let g ← get
  let minLevel := g.minLevel
  let level := level?.getD (if g.prevLevel ≠ 0 then g.prevLevel + 1 else minLevel)
  if level ≤ 0 ∨ g.members.isEmpty then throw .logic
  if level < minLevel then throw .validity
  if (g.members.length : Int) < level then throw .validity
  let index := (level - minLevel).toNat
  if index < g.factors.length ∧ (g.factors[index]?.bind (·.2)).isSome then throw .validity
  if index ≥ g.factors.length then
    modify fun g => { g with factors := resize g.factors (index + 1) }
  modify fun g => { g with factors := g.factors.set index (level, some factor) }
  modify fun g => { g with prevLevel := level }

/-- `EnsureProbability` (/repo/src/expression.cc 75-85). -/
def ensureProbability (e : Expr K) : Except CErr Unit := do
  if e.value < 0 ∨ e.value > 1 then throw .domain
  if ¬ (0 ≤ e.lo ∧ e.hi ≤ 1) then throw .domain

/-- `PhiFactorModel::DoValidate` (/repo/src/ccf_group.cc 276-290) and `ext::is_close` (/repo/src/ext/float_compare.h). -/
def isClose (lhs rhs tol : K) : Bool := decide (|lhs - rhs| ≤ |lhs| * tol)

/-- `DoValidate` (/repo/src/ccf_group.h 181, /repo/src/ccf_group.cc 276-290). -/
def CcfGroup.doValidate (g : CcfGroup K) : Except CErr Unit :=
  match g.model with
  | .phi =>
    let fs := g.factors.filterMap (·.2)
    let sum := (fs.map (·.value)).foldl (· + ·) 0
    let sumMin := (fs.map (·.lo)).foldl (· + ·) 0
    let sumMax := (fs.map (·.hi)).foldl (· + ·) 0
    if !isClose 1 sum (1 / 10000) || !isClose 1 sumMin (1 / 10000) || !isClose 1 sumMax (1 / 10000) then .error .validity
    else .ok ()
  | _ => .ok ()

/-- The body of the loop of `CcfGroup::Validate` over the factors (/repo/src/ccf_group.cc 124-129). -/
def checkFactor (f : Int × Option (Expr K)) : Except CErr Unit :=
  match f.2 with
  | none => .error .validity
  | some e => ensureProbability e

/-- `CcfGroup::Validate` (/repo/src/ccf_group.cc 117-137). -/
def CcfGroup.validate (g : CcfGroup K) : Except CErr Unit := do
  match g.distribution with
  | none => throw .logic
  | some d =>
    if g.members.isEmpty || g.factors.isEmpty then throw .logic
    ensureProbability d
    forM g.factors checkFactor
    g.doValidate

/-! ### Probabilities -/

/-- `CalculateCombinationReciprocal` (/repo/src/ccf_group.cc 211-222). -/
def reciprocal (n k : Nat) : K :=
  let k' := if n - k > k then n - k else k
  (List.range (n - k')).foldl (fun r i => r * (((i + 1 : Nat) : K) / ((k' + (i + 1) : Nat) : K))) 1

/-- The expression of the factor at an index. -/
def CcfGroup.factor (g : CcfGroup K) (i : Nat) : K := ((g.factors[i]?.bind (·.2)).map (·.value)).getD 0

/-- The value of the distribution. -/
def CcfGroup.q (g : CcfGroup K) : K := (g.distribution.map (·.value)).getD 0

/-- `factors().back().first`. -/
def CcfGroup.maxLevel (g : CcfGroup K) : Nat := (g.factors.getLast?.map (·.1.toNat)).getD 0

/-- `CalculateProbabilities` (/repo/src/ccf_group.cc 184-200, 226-274, 292-302): levels and values of the expressions. -/
def CcfGroup.probabilities (g : CcfGroup K) : List (Nat × K) :=
  match g.model with
  | .beta => [(1, (1 - g.factor 0) * g.q), (((g.factors.head?.map (·.1.toNat)).getD 0), g.factor 0 * g.q)]
  | .mgl => (List.range g.maxLevel).map fun i =>
      (i + 1, ((reciprocal (g.members.length - 1) i : K) :: ((List.range i).map g.factor ++
        ((if i < g.maxLevel - 1 then [1 - g.factor i] else []) ++ [g.q]))).foldl (· * ·) 1)
  | .alpha =>
    let sum := (g.factors.map fun f => ((f.1.toNat : K)) * ((f.2.map (·.value)).getD 0)).foldl (· + ·) 0
    (List.range g.maxLevel).map fun i =>
      (i + 1, ([((i + 1 : Nat) : K), reciprocal (g.members.length - 1) i, g.factor i / sum, g.q]).foldl (· * ·) 1)
  | .phi => g.factors.map fun f => (f.1.toNat, ((f.2.map (·.value)).getD 0) * g.q)

/-! ### Application of the model -/

/-- A created `CcfEvent` with its probability (/repo/src/ccf_group.cc 39-52). -/
structure CcfEvent (K : Type) where
  members : List String
  prob : K

/-- Joined characters of names separated by spaces. -/
def joinChars : List (List Char) → List Char
  | [] => []
  | [a] => a
  | a :: b :: l => a ++ ' ' :: joinChars (b :: l)

/-- `CcfEvent::MakeName` (/repo/src/ccf_group.cc 44-52). -/
def makeName (members : List String) : String :=
  String.ofList ('[' :: (joinChars (members.map String.toList) ++ [']']))

/-- The state of `ApplyModel`: the order of the proxy gates, their argument sets and the created events. A proxy gate moves
together with its argument set in the code; here the argument sets are indexed by the gate. -/
structure ApplyState (K : Type) where
  order : List String
  args : String → List Arg
  events : List (CcfEvent K)

/-- The event object as an argument of formulas; its identifier is its name. -/
def ccfEvent (ptr : Nat) (members : List String) : Event := ⟨.basic, ptr, makeName members⟩

/-- The combination visitor (/repo/src/ccf_group.cc 156-171). -/
def visit (prob : K) (st : ApplyState K) (comb : List String) : Except Err (ApplyState K) := do
  let args ← comb.foldlM (fun (args : String → List Arg) m => do
    let a ← argAdd (args m) (ccfEvent st.events.length comb) false
    pure fun x => if x = m then a else args x) st.args
  pure { st with args, events := st.events ++ [⟨comb, prob⟩] }

/-- One level (/repo/src/ccf_group.cc 154-175). -/
def applyLevel (st : ApplyState K) (lp : Nat × K) : Except Err (ApplyState K) := do
  let r := Comb.forEachCombination lp.1 st.order
  let st ← r.1.foldlM (visit lp.2) st
  pure { st with order := r.2 }

/-- The result of `ApplyModel`: created events and the formulas of the gates replacing the members. -/
structure Applied (K : Type) where
  events : List (CcfEvent K)
  gates : List (String × Formula)

/-- `CcfGroup::ApplyModel` (/repo/src/ccf_group.cc 139-182). -/
def CcfGroup.applyModel (g : CcfGroup K) : Except Err (Applied K) := do
  let st ← g.probabilities.foldlM applyLevel ⟨g.members, fun _ => [], []⟩
  let gates ← st.order.mapM fun m => do
    let f ← mkFormula .or (st.args m) none none
    pure (m, f)
  pure ⟨st.events, gates⟩

end Scram.Ccf
