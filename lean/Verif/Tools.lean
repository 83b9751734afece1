import Mathlib.Data.List.Basic
import Mathlib.Logic.Function.Basic
/-!
# The tools of the tabs

/repo/gui/mainwindow.cpp 330-338, 453-458, 876-972, 1034-1106, 1395-1468, 1594-1596: the search bar, the actions to print, to export and to remove, which the tabs share. Each tab has event filters that connect it to
them when it is shown and disconnect it when it is hidden. From Qt: a tab is hidden before the next one is shown; a widget that gets hidden loses the keyboard focus, which ends the editing of a line;
`selectionChanged` has the items that are newly selected; a table in single selection mode selects another row when its current row is removed, visible or not; a reset of a model clears the selection before the
other slots run. Left out: the drawing itself, the dialogs, the columns of rows, the syntax of the filters.
-/
namespace Scram.Tools

/-- The tabs: the start page; diagrams (/repo/gui/mainwindow.cpp 1594-1596); tables of results (1408); tables of elements (1408, 1419, 1454-1455) -/
inductive Kind | page | diagram | results | elements
deriving DecidableEq, Repr

/-- `setupPrintableView`, `setupExportableView` (/repo/gui/mainwindow.cpp 1595-1596) -/
def Kind.printable : Kind → Bool
  | .diagram => true
  | _ => false

/-- `setupSearchable` (/repo/gui/mainwindow.cpp 1408, 1454) -/
def Kind.searchable : Kind → Bool
  | .results => true
  | .elements => true
  | _ => false

/-- `setupRemovable` (/repo/gui/mainwindow.cpp 1419, 1455) -/
def Kind.removable : Kind → Bool
  | .elements => true
  | _ => false

/-- A selected row: the element, and whether the row is that of an element of the table or one below it in the tree of gates. -/
structure Row where
  element : Nat
  top : Bool
deriving DecidableEq, Repr

structure State where
  /-- the selection of each tab -/
  sel : Nat → Option Row
  /-- the filter of each tab -/
  filter : Nat → String
  /-- the search bar: visible, text, and the tabs that are connected to it -/
  barOn : Bool
  bar : String
  barTo : List Nat
  printOn : Bool
  exportOn : Bool
  removeOn : Bool
  /-- the tabs that are connected to the actions -/
  printTo : List Nat
  exportTo : List Nat
  removeTo : List Nat
  /-- the tabs whose selections and resets are connected to the action to remove -/
  watched : List Nat

/-- A new window with empty tabs (/repo/gui/mainwindow.cpp 330-331 and the .ui file) -/
def start : State := ⟨fun _ => none, fun _ => "", false, "", [], false, false, false, [], [], [], []⟩

/-- What is done to the tabs and the model -/
inductive Outcome
  | printed (v : Nat)
  | exported (v : Nat)
  | removed (v e : Nat)
  /-- the message that the event has dependents -/
  | refused (v e : Nat)
  /-- the critical message "Assertion Failure" -/
  | assertion
deriving DecidableEq, Repr

/-- `RemoveFilter::react` (/repo/gui/mainwindow.cpp 1044-1048) -/
def react (rows : Option Row) (s : State) : State :=
  { s with removeOn := match rows with
      | none => false
      | some r => r.top }

/-- The slot of the search bar (/repo/gui/mainwindow.cpp 958-963) -/
def finishBar (s : State) : State := { s with filter := s.barTo.foldl (fun f v => Function.update f v s.bar) s.filter }

/-- The filters when a tab is shown (/repo/gui/mainwindow.cpp 891-897, 925-928, 954-963, 1052-1092) -/
def showTab (kind : Nat → Kind) (v : Nat) (s : State) : State :=
  let s := if (kind v).printable then { s with printOn := true, printTo := s.printTo ++ [v], exportOn := true, exportTo := s.exportTo ++ [v] } else s
  let s := if (kind v).searchable then { s with barOn := true, bar := s.filter v, barTo := s.barTo ++ [v] } else s
  if (kind v).removable then { react (s.sel v) s with watched := s.watched ++ [v], removeTo := s.removeTo ++ [v] } else s

/-- The filters when a tab is hidden (/repo/gui/mainwindow.cpp 898-902, 928-931, 963-966, 1093-1097). The selections stay connected. -/
def hideTab (kind : Nat → Kind) (v : Nat) (focus : Bool) (s : State) : State :=
  let s := if (kind v).printable then { s with printOn := false, printTo := s.printTo.filter (· ≠ v), exportOn := false, exportTo := s.exportTo.filter (· ≠ v) } else s
  let s := if (kind v).searchable then
      let s := { s with barOn := false }
      let s := if focus then finishBar s else s
      { s with barTo := s.barTo.filter (· ≠ v) }
    else s
  if (kind v).removable then { s with removeOn := false, removeTo := s.removeTo.filter (· ≠ v) } else s

/-- The slot of the action to remove (/repo/gui/mainwindow.cpp 1065-1092); `dependents` says which events have parents in the model -/
def removeIn (dependents : Nat → Bool) (s : State) (v : Nat) : Outcome :=
  match s.sel v with
  | none => .assertion
  | some r => if !r.top then .assertion else if dependents r.element then .refused v r.element else .removed v r.element

inductive Event
  | show (v : Nat)
  /-- `focus`: the search bar has the keyboard focus -/
  | hide (v : Nat) (focus : Bool)
  /-- the user types into the search bar -/
  | type (t : String)
  /-- the user presses Enter or leaves the search bar -/
  | done
  | print
  | exportAs
  | remove (dependents : Nat → Bool)
  /-- the selection of a tab becomes this one: by the user, or by Qt after a change of the rows -/
  | select (v : Nat) (rows : Option Row)
  /-- the model of a tab is reset -/
  | reset (v : Nat)

def step (kind : Nat → Kind) (s : State) : Event → State × List Outcome
  | .show v => (showTab kind v s, [])
  | .hide v focus => (hideTab kind v focus s, [])
  | .type t => (if s.barOn then { s with bar := t } else s, [])
  | .done => (if s.barOn then finishBar s else s, [])
  | .print => (s, if s.printOn then s.printTo.map .printed else [])
  | .exportAs => (s, if s.exportOn then s.exportTo.map .exported else [])
  | .remove dependents => (s, if s.removeOn then s.removeTo.map (removeIn dependents s) else [])
  | .select v rows =>
    if rows = s.sel v then (s, [])
    else
      let s := { s with sel := Function.update s.sel v rows }
      (if v ∈ s.watched then react rows s else s, [])
  | .reset v =>
    let s := { s with sel := Function.update s.sel v none }
    (if v ∈ s.watched then react none s else s, [])

end Scram.Tools
