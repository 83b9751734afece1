/-!
# The preferences of the GUI

/repo/gui/preferencesdialog.cpp and .ui, and the loading and saving of preferences and the recent files in /repo/gui/mainwindow.cpp 533-569, 695-726. `QSettings` is the part of the state that survives the
end of the process. From Qt: a spin box clamps values and signals changes only; `QUndoStack::setUndoLimit` does nothing if the stack is not empty. Left out: geometry and state of the window, the sort of the
names of languages (an order of the rows), values in the store that are no natural numbers.
-/
namespace Scram.Prefs

/-- `QSettings`: what is stored. -/
structure Store where
  undoLimit : Option Nat := none
  autoSave : Option Nat := none
  language : Option String := none
  recentFiles : List String := []
deriving DecidableEq

/-- The widgets of the dialog (/repo/gui/preferencesdialog.ui 24-72). -/
structure Dialog where
  checkUndo : Bool
  undoBox : Nat
  checkAuto : Bool
  autoBox : Nat
  row : Nat
deriving DecidableEq

/-- The running program. -/
structure App where
  /-- `m_undoStack`: its limit and the number of its commands -/
  limit : Nat
  commands : Nat
  /-- `m_autoSaveTimer`: the interval, if it is active -/
  timer : Option Nat
  /-- `m_recentFileActions`: text and visibility (/repo/gui/mainwindow.h 304) -/
  slots : List (String × Bool)
  /-- `menuRecentFiles` is enabled. -/
  menu : Bool
  dialog : Option Dialog
deriving DecidableEq

structure State where
  store : Store
  app : Option App
deriving DecidableEq

/-- The languages: the locales of the translations without English (/repo/gui/language.cpp 42-67), and the rows of the box as places in the list of names, of which the last is English. -/
structure Languages where
  locales : List String
  order : List Nat

/-! ## Recent files -/

/-- The first loop of `updateRecentFiles` (/repo/gui/mainwindow.cpp 704-714) with the remaining capacity -/
def gatherRecent : Nat → List (String × Bool) → List String → List String
  | _, [], paths => paths
  | 0, _, paths => paths
  | c + 1, (text, visible) :: slots, paths =>
    if !visible then paths
    else if text ∈ paths then gatherRecent (c + 1) slots paths
    else gatherRecent c slots (paths ++ [text])

/-- The second and the third loop (/repo/gui/mainwindow.cpp 715-725) -/
def fillSlots : List (String × Bool) → List String → List (String × Bool)
  | [], _ => []
  | s :: slots, [] => (s.1, false) :: fillSlots slots []
  | _ :: slots, p :: paths => (p, true) :: fillSlots slots paths

/-- `updateRecentFiles` (/repo/gui/mainwindow.cpp 695-726) -/
def App.updateRecent (a : App) (paths : List String) : App :=
  if paths = [] then { a with menu := false, slots := a.slots.map fun s => (s.1, false) }
  else { a with menu := true, slots := fillSlots a.slots (gatherRecent (a.slots.length - paths.length) a.slots paths) }

/-- The list that is saved (/repo/gui/mainwindow.cpp 562-568): up to the first action that is not visible -/
def visibleFiles (slots : List (String × Bool)) : List String := (slots.takeWhile (·.2)).map (·.1)

/-! ## Start and end -/

/-- The constructor of the window and `loadPreferences` (/repo/gui/mainwindow.cpp 390-401, 533-553) -/
def launch (store : Store) : App :=
  ({ limit := store.undoLimit.getD 0, commands := 0,
     timer := if store.autoSave.getD 300000 = 0 then none else some (store.autoSave.getD 300000),
     slots := List.replicate 5 ("", false), menu := false, dialog := none } : App).updateRecent store.recentFiles

/-- `savePreferences` (/repo/gui/mainwindow.cpp 555-569) -/
def save (store : Store) (a : App) : Store := { store with recentFiles := visibleFiles a.slots }

/-! ## The dialog -/

/-- `QSpinBox::setValue`: the value within the bounds. -/
def clamp (lo hi x : Nat) : Nat := max lo (min hi x)

/-- The row of the language (/repo/gui/preferencesdialog.cpp 71-81) -/
def languageRow (L : Languages) (language : Option String) : Nat :=
  let place := if language = some "en" then L.locales.length else L.locales.idxOf (language.getD "")
  L.order.idxOf place

/-- The constructor of the dialog (/repo/gui/preferencesdialog.cpp 38-47, 98-103, 116-121), before signals are connected; the values of the .ui file otherwise. -/
def openDialog (L : Languages) (store : Store) (a : App) : Dialog :=
  { checkUndo := a.limit != 0, undoBox := if a.limit = 0 then 20 else clamp 1 99 a.limit,
    checkAuto := a.timer.isSome, autoBox := match a.timer with
      | none => 5
      | some i => clamp 1 60 (i / 60000),
    row := languageRow L store.language }

/-- `setUndoLimit` (/repo/gui/preferencesdialog.cpp 104-107) with `QUndoStack::setUndoLimit` -/
def setUndoLimit (n : Nat) (s : Store) (a : App) : Store × App :=
  ({ s with undoLimit := some n }, if a.commands = 0 then { a with limit := n } else a)

/-- `setAutoSave` (/repo/gui/preferencesdialog.cpp 122-129) -/
def setAutoSave (minutes : Nat) (s : Store) (a : App) : Store × App :=
  ({ s with autoSave := some (minutes * 60000) }, { a with timer := if minutes = 0 then none else some (minutes * 60000) })

/-- The locale of a row (/repo/gui/preferencesdialog.cpp 91-94) -/
def localeOf (L : Languages) (row : Nat) : String :=
  let place := L.order.getD row 0
  if place = L.locales.length then "en" else L.locales.getD place ""

/-- What can happen. -/
inductive Event where
  | launch
  /-- The window is closed. -/
  | quit
  /-- The process ends in another way. -/
  | crash
  | push
  | clearCommands
  | openDialog
  | closeDialog
  | toggleUndo (checked : Bool)
  | enterUndo (n : Nat)
  | toggleAuto (checked : Bool)
  | enterAuto (n : Nat)
  | chooseRow (k : Nat)
  /-- Files are opened, with success; the dialog for files gives distinct names. -/
  | openFiles (paths : List String)
  | openRecent (i : Nat)
  | clearRecent

/-- Steps; none for what cannot happen in a state: the window does not react while the dialog is open; a spin box takes values in its bounds, if its check box is checked. -/
def step (L : Languages) (s : State) (e : Event) : Option State :=
  match s.app, e with
  | none, .launch => some { s with app := some (launch s.store) }
  | none, _ => none
  | some a, e =>
    match a.dialog, e with
    | _, .crash => some { s with app := none }
    | none, .quit => some { store := save s.store a, app := none }
    | none, .push => some { s with app := some { a with commands := if a.limit = 0 then a.commands + 1 else min (a.commands + 1) a.limit } }
    | none, .clearCommands => some { s with app := some { a with commands := 0 } }
    | none, .openDialog => some { s with app := some { a with dialog := some (openDialog L s.store a) } }
    | none, .openFiles paths => if paths = [] ∨ ¬ paths.Nodup then none else some { s with app := some (a.updateRecent paths) }
    | none, .openRecent i => ((visibleFiles a.slots)[i]?).map fun p => { s with app := some (a.updateRecent [p]) }
    | none, .clearRecent => some { s with app := some (a.updateRecent []) }
    | some _, .closeDialog => some { s with app := some { a with dialog := none } }
    | some d, .toggleUndo b =>
      if b = d.checkUndo then none
      else
        let r := setUndoLimit (if b then d.undoBox else 0) s.store { a with dialog := some { d with checkUndo := b } }
        some ⟨r.1, some r.2⟩
    | some d, .enterUndo n =>
      if d.checkUndo = false ∨ n = d.undoBox ∨ n < 1 ∨ 99 < n then none
      else
        let r := setUndoLimit n s.store { a with dialog := some { d with undoBox := n } }
        some ⟨r.1, some r.2⟩
    | some d, .toggleAuto b =>
      if b = d.checkAuto then none
      else
        let r := setAutoSave (if b then d.autoBox else 0) s.store { a with dialog := some { d with checkAuto := b } }
        some ⟨r.1, some r.2⟩
    | some d, .enterAuto n =>
      if d.checkAuto = false ∨ n = d.autoBox ∨ n < 1 ∨ 60 < n then none
      else
        let r := setAutoSave n s.store { a with dialog := some { d with autoBox := n } }
        some ⟨r.1, some r.2⟩
    | some d, .chooseRow k =>
      if k = d.row ∨ L.locales.length < k then none
      else some ⟨{ s.store with language := some (localeOf L k) }, some { a with dialog := some { d with row := k } }⟩
    | _, _ => none

end Scram.Prefs
