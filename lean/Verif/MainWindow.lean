import Verif.Editor
import Verif.SaveFile
/-!
# The main window: opening, editing, saving, closing

/repo/gui/mainwindow.cpp. The undo stack is Qt's `QUndoStack` (not in /repo, modelled from its source): `index`, `clean_index`, the signals
`indexChanged` and `cleanChanged`. The answers of the user in dialogs and the behaviour of the system are part of the events.
Left out: events inside dialogs (the timer of the automatic save may run while a dialog is open), recent files, preferences, the views (C56).
-/
namespace Scram.Editor
open Scram.Files

/-- How models get to text and back: `mef::Serialize`, and `mef::Initializer` with the schema of the GUI, the check of top events
and the proxies (/repo/gui/mainwindow.cpp 288-307). -/
structure Storage where
  text : State → Text
  load : List Text → Option State
  /-- A model without elements. -/
  blank : State

/-- `MainWindow` as long as there is a model. -/
structure Main where
  /-- `m_model`, `m_guiModel` and the commands of `m_undoStack`. -/
  window : Window
  /-- `clean_index` of the undo stack; none for -1. -/
  clean : Option Nat := some 0
  /-- `isWindowModified()`. -/
  modified : Bool := false
  /-- `m_inputFiles`. -/
  files : List String := []
  disk : Disk
  /-- `m_analysis`, by the model it was made for. -/
  report : Option State := none
  /-- The number of `projectChanged` signals. -/
  project : Nat := 0
  closed : Bool := false

/-- The answer to "Save changes?". -/
inductive Answer where
  | save
  | discard
  | cancel
deriving DecidableEq

/-- `QUndoStackPrivate::setIndex(to, setClean)`: `indexChanged` takes the report away (mainwindow.cpp 525-528), `cleanChanged` sets the mark of the
window (mainwindow.cpp 447-448). -/
def Main.setIndex (m : Main) (fromIndex toIndex : Nat) (setClean : Bool) : Main :=
  let wasClean := decide (m.clean = some fromIndex)
  let clean := if setClean then some toIndex else m.clean
  let isClean := decide (clean = some toIndex)
  { m with report := if fromIndex = toIndex then m.report else none, clean := clean,
           modified := if isClean = wasClean then m.modified else !isClean }

/-- The number of commands that `checkUndoLimit` forgets when there are `index + 1`. -/
def forgotten (limit index : Nat) : Nat := if limit = 0 ∨ index + 1 ≤ limit then 0 else index + 1 - limit

/-- `QUndoStack::push`, `undo`, `redo`. -/
def Main.edit (limit : Nat) (m : Main) (a : Action) : Option Main :=
  (m.window.step limit a).map fun w =>
    let index := m.window.done.length
    match a with
    | .push _ =>
      let c1 := m.clean.bind fun k => if index < k then none else some k
      let n := forgotten limit index
      let c2 := c1.bind fun k => if k < n then none else some (k - n)
      { m with window := w, clean := c2 }.setIndex (index - n) (index - n + 1) false
    | .undo => if m.window.done = [] then m else { m with window := w }.setIndex index (index - 1) false
    | .redo => if m.window.undone = [] then m else { m with window := w }.setIndex index (index + 1) false

/-- `QUndoStack::setClean`. -/
def Main.setClean (m : Main) : Main := m.setIndex m.window.done.length m.window.done.length true

/-- `QUndoStack::clear`. -/
def Main.clearStack (m : Main) : Main :=
  if m.window.done = [] ∧ m.window.undone = [] then m
  else
    let wasClean := decide (m.clean = some m.window.done.length)
    { m with window := { m.window with done := [], undone := [] }, clean := some 0, report := none,
             modified := if wasClean then m.modified else false }

/-- A new model is set and `projectChanged` is emitted (mainwindow.cpp 308-325, 515-524, 622-625). -/
def Main.replace (m : Main) (s : State) (files : List String) : Main :=
  let m := { m with window := { m.window with state := s }, files := files }.clearStack
  { m with report := none, project := m.project + 1 }

/-- `saveToFile` (mainwindow.cpp 668-694). -/
def Main.saveToFile (S : Storage) (m : Main) (io : Io) (dest : String) : Main × Bool :=
  if dest = "" then (m, false)
  else
    let r := save io m.disk dest (S.text m.window.state)
    let m := { m with disk := r.disk m.disk }
    if r.ok then ({ m.setClean with files := [dest] }, true) else (m, false)

/-- `saveModelAs` (mainwindow.cpp 657-666). -/
def Main.saveModelAs (S : Storage) (m : Main) (io : Io) (choice : Option String) : Main × Bool :=
  match choice with
  | none => (m, false)
  | some p => m.saveToFile S io p

/-- `saveModel` (mainwindow.cpp 650-655). -/
def Main.saveModel (S : Storage) (m : Main) (io : Io) (choice : Option String) : Main × Bool :=
  match m.files with
  | [f] => m.saveToFile S io f
  | _ => m.saveModelAs S io choice

/-- `autoSaveModel` (mainwindow.cpp 643-648). -/
def Main.autoSave (S : Storage) (m : Main) (io : Io) : Main :=
  match m.files with
  | [f] => if m.modified then (m.saveToFile S io f).1 else m
  | _ => m

/-- The input files. -/
def readFiles (d : Disk) (files : List String) : Option (List Text) := files.mapM d

/-- `addInputFiles` (mainwindow.cpp 278-326), also from `openFiles`. -/
def Main.addInputFiles (S : Storage) (m : Main) (names : List String) (io : Io) (choice : Option String) : Main :=
  if names = [] then m
  else
    let r := if m.modified then m.saveModel S io choice else (m, true)
    if r.2 then
      match (readFiles r.1.disk (r.1.files ++ names)).bind S.load with
      | none => r.1
      | some s => r.1.replace s (r.1.files ++ names)
    else r.1

/-- `createNewModel` (mainwindow.cpp 606-626). -/
def Main.createNewModel (S : Storage) (m : Main) (answer : Answer) (io : Io) (choice : Option String) : Main :=
  if m.modified then
    match answer with
    | .cancel => m
    | .save =>
      let r := m.saveModel S io choice
      if r.2 then r.1.replace S.blank [] else r.1
    | .discard => m.replace S.blank []
  else m.replace S.blank []

/-- `closeEvent` (mainwindow.cpp 727-748). -/
def Main.close (S : Storage) (m : Main) (answer : Answer) (io : Io) (choice : Option String) : Main :=
  if m.modified then
    match answer with
    | .cancel => m
    | .discard => { m with closed := true }
    | .save =>
      let r := m.saveModel S io choice
      if r.2 then { r.1 with closed := true } else r.1
  else { m with closed := true }

/-- What can happen, with the answers of the user and the behaviour of the system. -/
inductive Event where
  | edit (a : Action)
  | save (io : Io) (choice : Option String)
  | saveAs (io : Io) (choice : Option String)
  | autoSave (io : Io)
  | create (answer : Answer) (io : Io) (choice : Option String)
  | add (names : List String) (io : Io) (choice : Option String)
  | close (answer : Answer) (io : Io) (choice : Option String)
  /-- `runAnalysis`; `complete` if its check of expressions passes. -/
  | run (complete : Bool)

/-- The action "Save" is enabled only if there are changes (mainwindow.cpp 445-446); no result for a command that throws. -/
def Main.step (S : Storage) (limit : Nat) (m : Main) (e : Event) : Option Main :=
  if m.closed then some m
  else
    match e with
    | .edit a => m.edit limit a
    | .save io choice => some (if m.modified then (m.saveModel S io choice).1 else m)
    | .saveAs io choice => some (m.saveModelAs S io choice).1
    | .autoSave io => some (m.autoSave S io)
    | .create answer io choice => some (m.createNewModel S answer io choice)
    | .add names io choice => some (m.addInputFiles S names io choice)
    | .close answer io choice => some (m.close S answer io choice)
    | .run complete => some (if complete then { m with report := some m.window.state } else m)

/-- A session. -/
def Main.session (S : Storage) (limit : Nat) (m : Main) : List Event → Option Main
  | [] => some m
  | e :: es => (m.step S limit e).bind fun m => m.session S limit es

end Scram.Editor
