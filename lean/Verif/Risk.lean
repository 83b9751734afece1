import Verif.Phases
import Verif.Settings
/-!
# The risk analysis as a whole

Model of `RiskAnalysis` (src/risk_analysis.cc, all) over arbitrary single analyses: which targets are
analysed, in which context, with which analyses, and what is stored.  The application of a context and its
removal are those of `Phases`.
-/
namespace Scram.Risk
open Scram.Phases Scram.Settings

/-- The single analyses, as functions of what they read.  `N`, `K`, `A` are house events, numbers and gates;
`F`, `P`, `I`, `U` are fault tree, probability, importance and uncertainty analyses with their results; `G`
is what sampling reads and writes: the global generator and the samples stored in expressions; `V` are
initiating events and `Q` sequences. -/
structure Tools (N K A F P I U G V Q : Type) where
  /-- `FaultTreeAnalyzer<Algorithm>::Analyze` (risk_analysis.cc 138-140) -/
  fta : Settings → St N K → Algorithm → A → F
  /-- `ProbabilityAnalyzer<Calculator>::Analyze` (risk_analysis.cc 157-159) -/
  prob : Settings → St N K → Approximation → F → P
  /-- The times before the end at which the probability over time is computed
  (src/probability_analysis.cc 215-216); empty without a time step. -/
  times : Settings → K → List K
  /-- `p_total` (src/probability_analysis.h 84) -/
  total : P → K
  /-- `ImportanceAnalyzer<Calculator>::Analyze` (risk_analysis.cc 161-162) -/
  imp : Settings → St N K → P → I
  /-- `UncertaintyAnalyzer<Calculator>::Analyze` (risk_analysis.cc 166-167) -/
  unc : Settings → St N K → P → G → U × G
  /-- `RandomDeviate::seed` (src/expression/random_deviate.h) -/
  seed : Int → G → G
  /-- `EventTreeAnalysis::Analyze` (risk_analysis.cc 90-92): the sequences of the event tree of an initiating
  event with their gates and `is_expression_only`, in the order of its hash table.  Conditions of
  instructions may depend on the mission time. -/
  eta : St N K → V → List (Q × A × Bool)

/-- What the analysis reads of the model (src/model.h). -/
structure Input (N K A V L : Type) where
  /-- initiating events, with whether they have an event tree -/
  initiating : List (V × Bool)
  /-- the top events of each fault tree -/
  faultTrees : List (List A)
  /-- alignments: phases with a label for the pair of alignment and phase -/
  alignments : List (List (L × Phase N K))

/-- `Result` (src/risk_analysis.h 51-72). -/
structure Entry (A F P I U V Q L : Type) where
  target : A ⊕ (V × Q)
  context : Option L
  fta : Option F := none
  prob : Option P := none
  imp : Option I := none
  unc : Option U := none

/-- `EtaResult` (src/risk_analysis.h 77-82) with `sequence` and `p_sequence` of the sequences
(src/event_tree_analysis.h); `none`: never set. -/
structure EtaEntry (K V Q L : Type) where
  initiating : V
  context : Option L
  sequences : List (Q × Option K)

/-- The state of the analysis: the model, the state of sampling and the two result containers. -/
structure Run (N K A F P I U G V Q L : Type) where
  model : St N K
  gen : G
  results : List (Entry A F P I U V Q L) := []
  etas : List (EtaEntry K V Q L) := []

variable {N K A F P I U G V Q L : Type} [DecidableEq N]

/-- The mission time of the model after `CalculateProbabilityOverTime` (src/probability_analysis.cc 195-219):
it is set to every time of the loop and last to the total time, which was read first. -/
def afterTimes (times : List K) (s : St N K) : St N K :=
  if times.isEmpty then s
  else { (times.foldl (fun s t => { s with time := t }) s) with time := s.time }

/-- Changes the last entry: `result->... = ...` with `result = &results_.back()`. -/
def modifyLast {α : Type} (f : α → α) : List α → List α
  | [] => []
  | [x] => [f x]
  | x :: y :: l => x :: modifyLast f (y :: l)

/-- `RunAnalysis<Algorithm, Calculator>(fta, result)` (risk_analysis.cc 153-171). -/
def quantify (T : Tools N K A F P I U G V Q) (cfg : Settings) (ap : Approximation) (f : F)
    (r : Run N K A F P I U G V Q L) : Run N K A F P I U G V Q L :=
  let pa := T.prob cfg r.model ap f
  let r := { r with model := afterTimes (T.times cfg r.model.time) r.model }
  let r := if cfg.importanceAnalysis then
      { r with results := modifyLast (fun e => { e with imp := some (T.imp cfg r.model pa) }) r.results }
    else r
  let r := if cfg.uncertaintyAnalysis then
      let u := T.unc cfg r.model pa r.gen
      { r with gen := u.2, results := modifyLast (fun e => { e with unc := some u.1 }) r.results }
    else r
  { r with results := modifyLast (fun e => { e with prob := some pa }) r.results }

/-- `RunAnalysis<Algorithm>(target, result)` (risk_analysis.cc 134-151). -/
def runWith (T : Tools N K A F P I U G V Q) (cfg : Settings) (alg : Algorithm) (a : A)
    (r : Run N K A F P I U G V Q L) : Run N K A F P I U G V Q L :=
  let f := T.fta cfg r.model alg a
  let r := if cfg.probabilityAnalysis then
      match cfg.approximation with
      | .none => quantify T cfg .none f r
      | .rareEvent => quantify T cfg .rareEvent f r
      | .mcub => quantify T cfg .mcub f r
    else r
  { r with results := modifyLast (fun e => { e with fta := some f }) r.results }

/-- `RunAnalysis(target, result)` (risk_analysis.cc 121-131). -/
def runTarget (T : Tools N K A F P I U G V Q) (cfg : Settings) (a : A)
    (r : Run N K A F P I U G V Q L) : Run N K A F P I U G V Q L :=
  match cfg.algorithm with
  | .bdd => runWith T cfg .bdd a r
  | .zbdd => runWith T cfg .zbdd a r
  | .mocus => runWith T cfg .mocus a r

/-- `results_.back().probability_analysis->p_total()` (risk_analysis.cc 107). -/
def lastTotal (T : Tools N K A F P I U G V Q) (r : Run N K A F P I U G V Q L) : Option K :=
  (r.results.getLast?.bind (·.prob)).map T.total

/-- The loop over the sequences of one event tree (risk_analysis.cc 93-109); the second component holds the
sequences with their `p_sequence` so far. -/
def runSequences (T : Tools N K A F P I U G V Q) (cfg : Settings) (context : Option L) (v : V) :
    List (Q × A × Bool) → Run N K A F P I U G V Q L → Run N K A F P I U G V Q L × List (Q × Option K)
  | [], r => (r, [])
  | (q, a, only) :: rest, r =>
    let r := { r with results := r.results ++ [{ target := .inr (v, q), context := context }] }
    let r := runTarget T cfg a r
    let r := if only then
        { r with results := modifyLast (fun e => { e with fta := none, imp := none }) r.results }
      else r
    let p := if cfg.probabilityAnalysis then lastTotal T r else none
    let k := runSequences T cfg context v rest r
    (k.1, (q, p) :: k.2)

/-- The loop over the initiating events (risk_analysis.cc 85-114). -/
def runInitiating (T : Tools N K A F P I U G V Q) (cfg : Settings) (context : Option L) :
    List (V × Bool) → Run N K A F P I U G V Q L → Run N K A F P I U G V Q L
  | [], r => r
  | (v, hasTree) :: rest, r =>
    let r := if hasTree then
        let k := runSequences T cfg context v (T.eta r.model v) r
        { k.1 with etas := k.1.etas ++ [{ initiating := v, context := context, sequences := k.2 }] }
      else r
    runInitiating T cfg context rest r

/-- The loop over the top events of a fault tree (risk_analysis.cc 117-122). -/
def runTops (T : Tools N K A F P I U G V Q) (cfg : Settings) (context : Option L) :
    List A → Run N K A F P I U G V Q L → Run N K A F P I U G V Q L
  | [], r => r
  | a :: rest, r =>
    runTops T cfg context rest
      (runTarget T cfg a { r with results := r.results ++ [{ target := .inl a, context := context }] })

/-- The loop over the fault trees (risk_analysis.cc 116-123). -/
def runTrees (T : Tools N K A F P I U G V Q) (cfg : Settings) (context : Option L) :
    List (List A) → Run N K A F P I U G V Q L → Run N K A F P I U G V Q L
  | [], r => r
  | t :: rest, r => runTrees T cfg context rest (runTops T cfg context t r)

/-- `RunAnalysis(context)` (risk_analysis.cc 53-124); the context is applied and taken back as in `Phases.run`. -/
def runContext [Mul K] (T : Tools N K A F P I U G V Q) (cfg : Settings) (inp : Input N K A V L)
    (c : Option (L × Phase N K)) (r : Run N K A F P I U G V Q L) : Run N K A F P I U G V Q L :=
  let body := fun house time settingsTime =>
    let r' := runTrees T cfg (c.map (·.1)) inp.faultTrees
      (runInitiating T cfg (c.map (·.1)) inp.initiating { r with model := ⟨house, time, settingsTime⟩ })
    (r'.model.time, r')
  let k := Phases.run body (c.map (·.2)) r.model
  { k.2 with model := k.1 }

def runContexts [Mul K] (T : Tools N K A F P I U G V Q) (cfg : Settings) (inp : Input N K A V L) :
    List (Option (L × Phase N K)) → Run N K A F P I U G V Q L → Run N K A F P I U G V Q L
  | [], r => r
  | c :: cs, r => runContexts T cfg inp cs (runContext T cfg inp c r)

/-- `RiskAnalysis::Analyze` (risk_analysis.cc 37-51). -/
def analyze [Mul K] (T : Tools N K A F P I U G V Q) (cfg : Settings) (inp : Input N K A V L)
    (s : St N K) (g : G) : Run N K A F P I U G V Q L :=
  let g := if cfg.seed ≥ 0 then T.seed cfg.seed g else g
  let r : Run N K A F P I U G V Q L := { model := s, gen := g }
  if inp.alignments.isEmpty then runContexts T cfg inp [none] r
  else runContexts T cfg inp (inp.alignments.flatten.map some) r

end Scram.Risk
