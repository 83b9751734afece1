import Mathlib.Data.Rat.Defs
import Mathlib.Algebra.Order.Ring.Rat
/-
Model of the analysis settings builder: /repo/src/settings.h, /repo/src/settings.cc.
-/
namespace Scram.Settings

/-- Values of type `double`; rounding plays no role here. -/
inductive Dbl where
  | nan
  | negInf
  | fin (q : ℚ)
  | posInf
deriving DecidableEq

/-- The comparison `a < b` of doubles; false with a NaN. -/
def Dbl.lt : Dbl → Dbl → Bool
  | .nan, _ | _, .nan => false
  | .negInf, .negInf => false
  | .negInf, _ => true
  | _, .negInf => false
  | .posInf, _ => false
  | _, .posInf => true
  | .fin a, .fin b => decide (a < b)

/-- `!value`: the value is (plus or minus) zero; a NaN converts to true. -/
def Dbl.isZero : Dbl → Bool
  | .fin q => decide (q = 0)
  | _ => false

/-- `Algorithm` (/repo/src/settings.h 29). -/
inductive Algorithm where
  | bdd | zbdd | mocus
deriving DecidableEq

/-- `Approximation` (/repo/src/settings.h 35). -/
inductive Approximation where
  | none | rareEvent | mcub
deriving DecidableEq

/-- The data of `Settings` with the default values (/repo/src/settings.h 291-309); the debug-only fields are left out. -/
structure Settings where
  probabilityAnalysis : Bool := false
  sil : Bool := false
  importanceAnalysis : Bool := false
  uncertaintyAnalysis : Bool := false
  ccfAnalysis : Bool := false
  primeImplicants : Bool := false
  algorithm : Algorithm := .bdd
  approximation : Approximation := .none
  limitOrder : Int := 20
  seed : Int := 0
  numTrials : Int := 1000
  numQuantiles : Int := 20
  numBins : Int := 20
  missionTime : Dbl := .fin 8760
  timeStep : Dbl := .fin 0
  cutOff : Dbl := .fin (1 / 100000000)
deriving DecidableEq

/-- The outcome of a call: normal return, a `SettingsError` (with the state of the object at that point), or
`std::terminate` because an exception leaves a `noexcept` function. -/
inductive Outcome where
  | ok (s : Settings)
  | error (s : Settings)
  | terminate
deriving DecidableEq

def Outcome.bind (o : Outcome) (f : Settings → Outcome) : Outcome :=
  match o with
  | .ok s => f s
  | o => o

/-- The end of a `noexcept` function. -/
def Outcome.noexcept : Outcome → Outcome
  | .error _ => .terminate
  | o => o

/-- `Settings::approximation(Approximation)` (/repo/src/settings.cc 56-62). -/
def setApproximation (s : Settings) (v : Approximation) : Outcome :=
  if v ≠ .none ∧ s.primeImplicants then .error s
  else .ok { s with approximation := v }

/-- `Settings::prime_implicants` (/repo/src/settings.cc 75-84). -/
def setPrimeImplicants (s : Settings) (flag : Bool) : Outcome :=
  if flag ∧ s.algorithm ≠ .bdd then .error s
  else
    let s := { s with primeImplicants := flag }
    if s.primeImplicants then setApproximation s .none else .ok s

/-- `Settings::algorithm(Algorithm) noexcept` (/repo/src/settings.cc 30-43). -/
def setAlgorithm (s : Settings) (v : Algorithm) : Outcome :=
  let s := { s with algorithm := v }
  Outcome.noexcept
    (match s.algorithm with
    | .bdd => setApproximation s .none
    | _ =>
      (if s.approximation = .none then setApproximation s .rareEvent else .ok s).bind fun s =>
        if s.primeImplicants then setPrimeImplicants s false else .ok s)

/-- `kAlgorithmToString` (/repo/src/settings.h 32). -/
def parseAlgorithm : String → Option Algorithm
  | "bdd" => some .bdd
  | "zbdd" => some .zbdd
  | "mocus" => some .mocus
  | _ => none

/-- `kApproximationToString` (/repo/src/settings.h 38). -/
def parseApproximation : String → Option Approximation
  | "none" => some .none
  | "rare-event" => some .rareEvent
  | "mcub" => some .mcub
  | _ => none

/-- The setters of the class. -/
inductive Op where
  | algorithm (v : Algorithm)
  | algorithmStr (v : String)
  | approximation (v : Approximation)
  | approximationStr (v : String)
  | primeImplicants (flag : Bool)
  | limitOrder (n : Int)
  | cutOff (p : Dbl)
  | numTrials (n : Int)
  | numQuantiles (n : Int)
  | numBins (n : Int)
  | seed (n : Int)
  | missionTime (t : Dbl)
  | timeStep (t : Dbl)
  | probabilityAnalysis (flag : Bool)
  | sil (flag : Bool)
  | importanceAnalysis (flag : Bool)
  | uncertaintyAnalysis (flag : Bool)
  | ccfAnalysis (flag : Bool)

/-- The setters (/repo/src/settings.cc 30-170, /repo/src/settings.h 207-283). -/
def call (s : Settings) : Op → Outcome
  | .algorithm v => setAlgorithm s v
  | .algorithmStr v =>  -- 45-54
    match parseAlgorithm v with
    | some a => setAlgorithm s a
    | none => .error s
  | .approximation v => setApproximation s v
  | .approximationStr v =>  -- 64-73
    match parseApproximation v with
    | some a => setApproximation s a
    | none => .error s
  | .primeImplicants flag => setPrimeImplicants s flag
  | .limitOrder n => if n < 0 then .error s else .ok { s with limitOrder := n }  -- 86-94
  | .cutOff p => if p.lt (.fin 0) || Dbl.lt (.fin 1) p then .error s else .ok { s with cutOff := p }  -- 96-104
  | .numTrials n => if n < 1 then .error s else .ok { s with numTrials := n }  -- 106-113
  | .numQuantiles n => if n < 1 then .error s else .ok { s with numQuantiles := n }  -- 115-122
  | .numBins n => if n < 1 then .error s else .ok { s with numBins := n }  -- 124-131
  | .seed n => if n < 0 then .error s else .ok { s with seed := n }  -- 133-140
  | .missionTime t => if t.lt (.fin 0) then .error s else .ok { s with missionTime := t }  -- 142-149
  | .timeStep t =>  -- 151-161
    if t.lt (.fin 0) then .error s
    else if t.isZero && s.sil then .error s
    else .ok { s with timeStep := t }
  | .probabilityAnalysis flag =>  -- settings.h 207-213
    .ok (if !s.importanceAnalysis && !s.uncertaintyAnalysis && !s.sil then { s with probabilityAnalysis := flag } else s)
  | .sil flag =>  -- 163-171
    if flag && s.timeStep.isZero then .error s
    else
      let s := { s with sil := flag }
      .ok (if s.sil then { s with probabilityAnalysis := true } else s)
  | .importanceAnalysis flag =>  -- settings.h 239-244
    let s := { s with importanceAnalysis := flag }
    .ok (if s.importanceAnalysis then { s with probabilityAnalysis := true } else s)
  | .uncertaintyAnalysis flag =>  -- settings.h 256-261
    let s := { s with uncertaintyAnalysis := flag }
    .ok (if s.uncertaintyAnalysis then { s with probabilityAnalysis := true } else s)
  | .ccfAnalysis flag => .ok { s with ccfAnalysis := flag }  -- settings.h 271-274

/-- A program that changes settings and catches the errors; `none` if it has been terminated. -/
def run (s : Settings) : List Op → Option Settings
  | [] => some s
  | op :: ops =>
    match call s op with
    | .ok s' => run s' ops
    | .error s' => run s' ops
    | .terminate => none

end Scram.Settings
