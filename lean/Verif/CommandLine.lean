import Verif.Settings
/-!
# The settings from the project file and the command line

/repo/src/project.cc 115-203 (`Project::GatherOptions`, `SetAnalysis`, `SetLimits`), /repo/share/project.rng 19-101,
/repo/src/scram.cc 170-183 (`ParseArguments`), 202-234 (`ConstructSettings`), 247-259 (`RunScram`).
-/
namespace Scram.Settings

/-- Setters in sequence; an exception ends it. -/
def exec (s : Settings) : List Op → Outcome
  | [] => .ok s
  | op :: ops => (call s op).bind fun s => exec s ops

/-- The limits of a project file (/repo/src/project.cc 169-203). -/
inductive Limit where
  | productOrder (n : Int)
  | cutOff (x : Dbl)
  | missionTime (x : Dbl)
  | timeStep (x : Dbl)
  | numTrials (n : Int)
  | numQuantiles (n : Int)
  | numBins (n : Int)
  | seed (n : Int)
deriving DecidableEq

/-- `Project::SetLimits` (/repo/src/project.cc 169-203). -/
def Limit.op : Limit → Op
  | .productOrder n => .limitOrder n
  | .cutOff x => .cutOff x
  | .missionTime x => .missionTime x
  | .timeStep x => .timeStep x
  | .numTrials n => .numTrials n
  | .numQuantiles n => .numQuantiles n
  | .numBins n => .numBins n
  | .seed n => .seed n

/-- The name of the limit. -/
def Limit.kind : Limit → Nat
  | .productOrder _ => 0
  | .cutOff _ => 1
  | .missionTime _ => 2
  | .timeStep _ => 3
  | .numTrials _ => 4
  | .numQuantiles _ => 5
  | .numBins _ => 6
  | .seed _ => 7

/-- The options of a project file; the schema has each of them at most once, in this order, with the limits in any order. -/
structure Project where
  algorithm : Option String := none
  primeImplicants : Bool := false
  approximation : Option String := none
  limits : List Limit := []
  probability : Option Bool := none
  importance : Option Bool := none
  uncertainty : Option Bool := none
  ccf : Option Bool := none
  sil : Option Bool := none

/-- `Project::GatherOptions` and `SetAnalysis` (/repo/src/project.cc 115-167): the flags of the analyses come after everything else. -/
def Project.ops (p : Project) : List Op :=
  (p.algorithm.map Op.algorithmStr).toList ++ (if p.primeImplicants then [.primeImplicants true] else []) ++
  (p.approximation.map Op.approximationStr).toList ++ p.limits.map Limit.op ++
  (p.probability.map Op.probabilityAnalysis).toList ++ (p.importance.map Op.importanceAnalysis).toList ++
  (p.uncertainty.map Op.uncertaintyAnalysis).toList ++ (p.ccf.map Op.ccfAnalysis).toList ++ (p.sil.map Op.sil).toList

/-- `Project::settings` after the construction from the file. -/
def Project.settings (p : Project) : Outcome := exec {} p.ops

/-- The options of the command line that concern the settings (/repo/src/scram.cc 58-92). -/
structure Cli where
  bdd : Bool := false
  zbdd : Bool := false
  mocus : Bool := false
  primeImplicants : Bool := false
  probability : Bool := false
  importance : Bool := false
  uncertainty : Bool := false
  ccf : Bool := false
  sil : Bool := false
  rareEvent : Bool := false
  mcub : Bool := false
  limitOrder : Option Int := none
  cutOff : Option Dbl := none
  missionTime : Option Dbl := none
  timeStep : Option Dbl := none
  numTrials : Option Int := none
  numQuantiles : Option Int := none
  numBins : Option Int := none
  seed : Option Int := none

/-- The checks of `ParseArguments` on these options (/repo/src/scram.cc 170-183). -/
def Cli.accepted (c : Cli) : Bool :=
  decide (c.bdd.toNat + c.zbdd.toNat + c.mocus.toNat ≤ 1) && !(c.rareEvent && c.mcub)

/-- `ConstructSettings` (/repo/src/scram.cc 202-234). -/
def Cli.ops (c : Cli) : List Op :=
  (if c.bdd then [.algorithm .bdd] else if c.zbdd then [.algorithm .zbdd] else if c.mocus then [.algorithm .mocus] else []) ++
  [.primeImplicants c.primeImplicants] ++
  (if c.rareEvent then [.approximation .rareEvent] else if c.mcub then [.approximation .mcub] else []) ++
  (c.timeStep.map Op.timeStep).toList ++ [.sil c.sil] ++
  [.probabilityAnalysis c.probability, .importanceAnalysis c.importance, .uncertaintyAnalysis c.uncertainty, .ccfAnalysis c.ccf] ++
  (c.seed.map Op.seed).toList ++ (c.limitOrder.map Op.limitOrder).toList ++ (c.cutOff.map Op.cutOff).toList ++
  (c.missionTime.map Op.missionTime).toList ++ (c.numTrials.map Op.numTrials).toList ++ (c.numQuantiles.map Op.numQuantiles).toList ++
  (c.numBins.map Op.numBins).toList

/-- The settings of the analysis (`RunScram`, /repo/src/scram.cc 247-259): from the project file if there is one, then the command line. -/
def programSettings (p : Option Project) (c : Cli) : Outcome :=
  match p with
  | some p => p.settings.bind fun s => exec s c.ops
  | none => exec {} c.ops

end Scram.Settings
