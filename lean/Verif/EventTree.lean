import Verif.FormulaSem
/-
Model of event tree analysis: /repo/src/event_tree_analysis.cc 35-246, /repo/src/event_tree.h, /repo/src/instruction.h 195-218.

Event trees, named branches, links, rules and gates form acyclic graphs (validated, see C28), so references are unfolded to
trees. Expressions are represented by their values; a condition of an if-then-else instruction is a predicate on the states
of functional events (the initiating event is fixed during the analysis of one initiating event).
-/
namespace Scram.Et
open Scram.Mef

mutual
/-- A formula with its connective and bounds (/repo/src/event.h 364-367). -/
inductive Fm where
  | mk (c : Connective) (min max : Nat) (args : FArgs)
/-- The arguments: basic events by identifier, house events with identifier and state, gates with their formula. -/
inductive FArgs where
  | nil
  | basic (complement : Bool) (id : String) (rest : FArgs)
  | house (complement : Bool) (id : String) (state : Bool) (rest : FArgs)
  | gate (complement : Bool) (id : String) (f : Fm) (rest : FArgs)
end

/-- States of functional events: `Context::functional_events` (/repo/src/expression/test_event.h 34). -/
abbrev Ctx := String → Option String

mutual
/-- Instructions (/repo/src/instruction.h 54-190). A missing else-instruction is an empty block. -/
inductive Instr (K : Type) where
  | setHouse (name : String) (state : Bool)
  | formula (f : Fm)
  | expression (value : K)
  | ite (cond : Ctx → Bool) (t e : Instr K)
  | block (is : Instrs K)
  | rule (is : Instrs K)
  | link (b : Branch K)
/-- Lists of instructions. -/
inductive Instrs (K : Type) where
  | nil
  | cons (i : Instr K) (rest : Instrs K)
/-- `Branch` (/repo/src/event_tree.h 82-111). -/
inductive Branch (K : Type) where
  | mk (is : Instrs K) (t : Target K)
/-- Targets of branches: sequences, forks and named branches (/repo/src/event_tree.h 35-160). -/
inductive Target (K : Type) where
  | sequence (name : String) (is : Instrs K)
  | fork (functionalEvent : String) (ps : Paths K)
  | named (b : Branch K)
/-- The paths of a fork with their states. -/
inductive Paths (K : Type) where
  | nil
  | cons (state : String) (b : Branch K) (rest : Paths K)
end

/-- House events set on the path. -/
abbrev Sets := List (String × Bool)

/-- `set_instructions[name] = state`. -/
def Sets.insert (s : Sets) (name : String) (state : Bool) : Sets := (name, state) :: s.filter fun p => p.1 ≠ name

mutual
/-- `Clone` of a formula (/repo/src/event_tree_analysis.cc 44-86). -/
def Fm.clone (set : Sets) : Fm → Fm
  | .mk c min max args => .mk c min max (args.clone set)
/-- The cloner of the arguments (/repo/src/event_tree_analysis.cc 48-73). -/
def FArgs.clone (set : Sets) : FArgs → FArgs
  | .nil => .nil
  | .basic c id rest => .basic c id (rest.clone set)
  | .house c id state rest =>
    match set.lookup id with
    | some s => if s = state then .house c id state (rest.clone set) else .house c ("__clone__." ++ id) s (rest.clone set)
    | none => .house c id state (rest.clone set)
  | .gate c id f rest =>
    if set.isEmpty then .gate c id f (rest.clone set)
    else .gate c ("__clone__." ++ id) (f.clone set) (rest.clone set)
end

/-- `PathCollector` (/repo/src/event_tree_analysis.h). -/
structure PathC (K : Type) where
  sets : Sets := []
  formulas : List Fm := []
  exprs : List K := []

/-- The state of a visitor of instructions: the context, the path of its collector, the flag `is_linked_` and the collected
sequences. -/
structure VisitState (K : Type) where
  ctx : Ctx
  path : PathC K
  linked : Bool
  result : List (String × PathC K)

mutual
/-- The visitor of an instruction (/repo/src/event_tree_analysis.cc 175-200, /repo/src/instruction.h 204-217). -/
def Instr.visit {K : Type} : Instr K → VisitState K → VisitState K
  | .setHouse n s, v => { v with path := { v.path with sets := v.path.sets.insert n s } }
  | .formula f, v => { v with path := { v.path with formulas := v.path.formulas ++ [f.clone v.path.sets] } }
  | .expression e, v => { v with path := { v.path with exprs := v.path.exprs ++ [e] } }
  | .ite c t e, v => if c v.ctx then t.visit v else e.visit v
  | .block is, v => is.visit v
  | .rule is, v => is.visit v
  | .link b, v =>
    -- the collector (with its path) is copied; the functional events are moved away and restored
    let r := b.collect v.path ((fun _ => none), v.result)
    { v with linked := true, result := r.2 }
/-- Visiting instructions in order. -/
def Instrs.visit {K : Type} : Instrs K → VisitState K → VisitState K
  | .nil, v => v
  | .cons i rest, v => rest.visit (i.visit v)
/-- `Collector::operator()(const Branch*)` (/repo/src/event_tree_analysis.cc 231-237). -/
def Branch.collect {K : Type} : Branch K → PathC K → Ctx × List (String × PathC K) → Ctx × List (String × PathC K)
  | .mk is t, p, s =>
    let v := is.visit ⟨s.1, p, false, s.2⟩
    t.collect v.path (v.ctx, v.result)
/-- `Collector::operator()` for the targets (/repo/src/event_tree_analysis.cc 209-229). -/
def Target.collect {K : Type} : Target K → PathC K → Ctx × List (String × PathC K) → Ctx × List (String × PathC K)
  | .sequence name is, p, s =>
    let v := is.visit ⟨s.1, p, false, s.2⟩
    if v.linked then (v.ctx, v.result) else (v.ctx, v.result ++ [(name, v.path)])
  | .fork fe ps, p, s =>
    let r := ps.collect fe p s
    ((fun n => if n = fe then none else r.1 n), r.2)
  | .named b, p, s => b.collect p s
/-- The loop over the paths of a fork (/repo/src/event_tree_analysis.cc 222-227). -/
def Paths.collect {K : Type} : Paths K → String → PathC K → Ctx × List (String × PathC K) → Ctx × List (String × PathC K)
  | .nil, _, _, s => s
  | .cons state b rest, fe, p, s =>
    let r := b.collect p ((fun n => if n = fe then some state else s.1 n), s.2)
    rest.collect fe p r
end

/-- `CollectSequences` (/repo/src/event_tree_analysis.cc 168-246): the collected paths in order, with their sequences. -/
def collectSequences {K : Type} (initial : Branch K) : List (String × PathC K) :=
  (initial.collect {} ((fun _ => none), [])).2

/-- What the gate of a sequence is made of. -/
inductive SeqGate (K : Type) where
  | formula (f : Fm)
  | expression (value : K)
  | certain

/-- Arguments that are gates. -/
def gateArgs : List Fm → FArgs
  | [] => .nil
  | f :: fs => .gate false "___formula__" f (gateArgs fs)

/-- The formulas of one path joined (/repo/src/event_tree_analysis.cc 117-126). -/
def pathFormula (fs : List Fm) : Option Fm :=
  match fs with
  | [] => none
  | [f] => some f
  | fs => some (.mk .and 0 0 (gateArgs fs))

/-- The expressions of one path joined (/repo/src/event_tree_analysis.cc 127-133). -/
def pathExpression {K : Type} [Mul K] [One K] (es : List K) : Option K :=
  match es with
  | [] => none
  | [e] => some e
  | es => some (es.foldl (· * ·) 1)

/-- The gate of a sequence from its collected paths (/repo/src/event_tree_analysis.cc 113-162). -/
def sequenceGate {K : Type} [Mul K] [One K] [Add K] [Zero K] (paths : List (PathC K)) : SeqGate K :=
  let gateFormulas := paths.filterMap fun p => pathFormula p.formulas
  let argExpressions := paths.filterMap fun p => pathExpression p.exprs
  match gateFormulas with
  | [f] => .formula f
  | [] =>
    match argExpressions with
    | [] => .certain
    | [e] => .expression e
    | es => .expression (es.foldl (· + ·) 0)
  | fs => .formula (.mk .or 0 0 (gateArgs fs))

/-- `Analyze` (/repo/src/event_tree_analysis.cc 96-166): the gate of a sequence, if the sequence is reached. -/
def analyze {K : Type} [Mul K] [One K] [Add K] [Zero K] (initial : Branch K) (sequence : String) : Option (SeqGate K) :=
  match (collectSequences initial).filterMap fun r => if r.1 = sequence then some r.2 else none with
  | [] => none
  | paths => some (sequenceGate paths)

end Scram.Et
