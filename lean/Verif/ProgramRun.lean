import Verif.CommandLine
import Verif.SaveFile
/-!
# A run of the command-line program

Model of /repo/src/scram.cc 103-185 (`ParseArguments`), 243-286 (`RunScram`), 340-410 (`main`), and of `Reporter::Report` to a file (/repo/src/reporter.cc 71-118), in a release build (the debug options are left out).

Simplified: what the arguments are read as, the loading of the files, the analysis and the text of the report are parameters, each of which may fail; the standard output is the file with the name `stdout`, which is open; what is printed for
information arrives; logs and warnings are left out, except for the level that is set.
-/
namespace Scram.Program
open Scram.Settings Scram.Files

/-- The variables after both passes over the arguments (/repo/src/scram.cc 105-125). -/
structure Args where
  help : Bool := false
  version : Bool := false
  validate : Bool := false
  allowExtern : Bool := false
  noIndent : Bool := false
  verbosity : Option Int := none
  inputFiles : List String := []
  project : Option String := none
  output : Option String := none
  cli : Cli := {}

/-- The rest of the program and the system. -/
structure World (M R : Type) where
  /-- The arguments, unless they are malformed. -/
  parse : Option Args
  helpText : Text
  versionText : Text
  /-- The project file, unless it does not exist or is invalid, with its options and input files. -/
  project : String → Option (Project × List String)
  /-- `Initializer` with the files, the settings, the permission to use extern libraries -/
  load : List String → Settings → Bool → Option M
  /-- `RiskAnalysis::Analyze` -/
  analyze : M → Settings → Option R
  /-- what `Reporter` writes, indented or not -/
  text : R → Bool → Text
  io : Io

inductive Status
  | success
  | failure
  /-- `std::terminate` -/
  | aborted
deriving DecidableEq, Repr

/-- What a run does. -/
structure Effect where
  status : Status
  /-- The states of the disk, one after the other. -/
  disks : List Disk := []
  /-- An error is reported on the standard error. -/
  message : Bool := false
  /-- The level of the log that is set. -/
  level : Option Int := none
  /-- An analysis was started. -/
  analyzed : Bool := false

/-- The name of the standard output here. -/
def stdout : String := "/dev/stdout"

def failed : Effect := { status := .failure, message := true }

/-- `kMaxVerbosity` (/repo/src/logger.h 85). -/
def maxVerbosity : Int := 7

/-- The value of `ParseArguments` (/repo/src/scram.cc 141-183): 0, 1, -1, and what is printed. -/
def check (w : World M R) (a : Args) : Int × Option Text :=
  if a.help then (-1, some w.helpText)
  else if a.version then (-1, some w.versionText)
  else if a.verbosity.any fun l => decide (l < 0 ∨ l > maxVerbosity) then (1, none)
  else if a.inputFiles.isEmpty && a.project.isNone then (1, none)
  else if !a.cli.accepted then (1, none)
  else (0, none)

/-- The report (/repo/src/scram.cc 278-285, /repo/src/reporter.cc 104-118). -/
def report (w : World M R) (d : Disk) (a : Args) (r : R) : Result :=
  match a.output with
  | some file => serializeTo w.io d file (w.text r !a.noIndent)
  | none => serializeTo { w.io with opens := true } d stdout (w.text r !a.noIndent)

/-- `RunScram` after the settings (/repo/src/scram.cc 255-285). -/
def runWith (w : World M R) (d : Disk) (a : Args) (s : Settings) (files : List String) : Effect :=
  match w.load (files ++ a.inputFiles) s a.allowExtern with
  | none => failed
  | some m =>
    if a.validate then { status := .success }
    else match w.analyze m s with
      | none => { failed with analyzed := true }
      | some r =>
        let out := report w d a r
        if out.ok then { status := .success, disks := out.disks, analyzed := true }
        else { failed with disks := out.disks, analyzed := true }

/-- `RunScram` (/repo/src/scram.cc 243-286). -/
def runScram (w : World M R) (d : Disk) (a : Args) : Effect :=
  match a.project with
  | some file =>
    match w.project file with
    | none => failed
    | some (p, files) =>
      match programSettings (some p) a.cli with
      | .ok s => runWith w d a s files
      | .error _ => failed
      | .terminate => { status := .aborted }
  | none =>
    match programSettings none a.cli with
    | .ok s => runWith w d a s []
    | .error _ => failed
    | .terminate => { status := .aborted }

/-- `main` (/repo/src/scram.cc 340-410). -/
def main (w : World M R) (d : Disk) : Effect :=
  match w.parse with
  | none => failed
  | some a =>
    match check w a with
    | (1, _) => failed
    | (0, _) => { runScram w d a with level := a.verbosity }
    | (_, t) => { status := .success, disks := t.toList.map fun t => Function.update d stdout (some t), level := a.verbosity }

end Scram.Program
