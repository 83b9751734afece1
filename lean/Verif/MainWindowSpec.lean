import Verif.MainWindow
import Verif.EditorHistory
/-! # Specification of the main window -/
namespace Scram.Editor
open Scram.Files

/-- The files of the window hold the model `s` (no files: it is the empty model). -/
def Stored (S : Storage) (same : State → State → Prop) (m : Main) (s : State) : Prop :=
  if m.files = [] then same S.blank s
  else ∃ ts s', readFiles m.disk m.files = some ts ∧ S.load ts = some s' ∧ same s' s

/-- Saving and loading: a good model comes back as the same model; what is loaded is in order. `C47` has the details. -/
structure Faithful (S : Storage) (same : State → State → Prop) (good : State → Prop) : Prop where
  refl : ∀ s, same s s
  reload : ∀ s, good s → ∃ s', S.load [S.text s] = some s' ∧ same s' s
  loaded : ∀ ts s, S.load ts = some s → Wf s ∧ Acyclic s
  blank : Wf S.blank ∧ Acyclic S.blank

/-- The last flush writes all that is left; the name of the temporary file is new. -/
structure Sound (S : Storage) (m : Main) (io : Io) : Prop where
  last : (S.text m.window.state).length ≤ io.last
  fresh : ∀ p, m.disk (tempPath p io.suffix) = none

/-- Commands are given as the editor does (C53) and can be undone exactly (C52); the system is sound; models are good when they are saved. -/
def Lawful (S : Storage) (good : State → Prop) (m : Main) : Event → Prop
  | .edit a => ∀ e, a = .push e → PreEntry m.window.state e ∧ UndoableEntry m.window.state e
  | .saveAs io _ => Sound S m io ∧ good m.window.state
  | .save io _ | .autoSave io | .create _ io _ | .add _ io _ | .close _ io _ =>
    Sound S m io ∧ (m.modified = true → good m.window.state)
  | .run _ => True

/-- The same for a session. -/
def LawfulSession (S : Storage) (good : State → Prop) (limit : Nat) (m : Main) : List Event → Prop
  | [] => True
  | e :: es => Lawful S good m e ∧ ∀ m', m.step S limit e = some m' → LawfulSession S good limit m' es

/-- A window in which a model has just been opened. -/
structure Fresh (S : Storage) (same : State → State → Prop) (m : Main) : Prop where
  stack : m.window.done = [] ∧ m.window.undone = []
  clean : m.clean = some 0 ∧ m.modified = false
  stored : Stored S same m m.window.state
  healthy : Wf m.window.state ∧ Acyclic m.window.state
  report : m.report = none

/-- The user has agreed to lose the changes. -/
def Event.discards : Event → Prop
  | .create a _ _ | .close a _ _ => a = .discard
  | _ => False

end Scram.Editor
