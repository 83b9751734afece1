import Verif.Settings
import Mathlib.Algebra.Order.Floor.Ring
import Mathlib.Data.Rat.Floor
/-!
# The settings dialog of the graphical front end

/repo/gui/settingsdialog.cpp, /repo/gui/settingsdialog.ui. The buttons are a small machine: a change of a button emits a signal, and the connected functions change other buttons, which
may emit signals in turn.
-/
namespace Scram.SettingsDialog

open Scram.Settings

/-- The controls of the dialog (/repo/gui/settingsdialog.ui): the group of three radio buttons for the algorithm and the group of two for the approximation have exactly one checked button. -/
structure Widgets where
  algorithm : Algorithm
  prime : Bool
  prob : Bool
  imp : Bool
  /-- `approximationsBox` is checked. -/
  box : Bool
  /-- `rareEvent` is checked; `mcub` is checked otherwise. -/
  rare : Bool
  order : Int
  time : Rat
deriving DecidableEq

/-- The controls that can be checked. -/
inductive Button where
  | algorithm (a : Algorithm)
  | prime | prob | imp | box | rare | mcub
deriving DecidableEq

/-- Is the button checked? -/
def Widgets.checked (w : Widgets) : Button → Bool
  | .algorithm a => decide (w.algorithm = a)
  | .prime => w.prime
  | .prob => w.prob
  | .imp => w.imp
  | .box => w.box
  | .rare => w.rare
  | .mcub => !w.rare

/-- The state of the button itself (a radio button can only be set by this, which unsets the other ones of its group). -/
def Widgets.put (w : Widgets) (b : Button) (v : Bool) : Widgets :=
  match b with
  | .algorithm a => if v then { w with algorithm := a } else w
  | .prime => { w with prime := v }
  | .prob => { w with prob := v }
  | .imp => { w with imp := v }
  | .box => { w with box := v }
  | .rare => if v then { w with rare := true } else w
  | .mcub => if v then { w with rare := false } else w

/-- The connections of `SettingsDialog::setupConnections` (/repo/gui/settingsdialog.cpp 106-138): what is set when a button emits `toggled` with the value. -/
def connected : Button → Bool → List (Button × Bool)
  | .prob, false => [(.imp, false)]
  | .imp, true => [(.prob, true)]
  | .algorithm .bdd, false => [(.box, true), (.prime, false)]
  | .prime, true => [(.algorithm .bdd, true), (.box, false)]
  | .box, true => [(.prime, false)]
  | .box, false => [(.algorithm .bdd, true)]
  | _, _ => []

/-- The buttons that emit `toggled` for a change, with the values: checking a radio button of a group unchecks the one that was checked, which emits first (`QAbstractButton::setChecked`,
`notifyChecked` of Qt). -/
def Widgets.signals (w : Widgets) (b : Button) (v : Bool) : List (Button × Bool) :=
  match b with
  | .algorithm _ => [(.algorithm w.algorithm, false), (b, true)]
  | .rare => [(.mcub, false), (b, true)]
  | .mcub => [(.rare, false), (b, true)]
  | _ => [(b, v)]

/-- `setChecked` of Qt: nothing happens if the button is in the state already, or if the checked radio button of a group is to be unchecked. `none` if the signals do not come to an end within
the given depth. -/
def setChecked : Nat → Widgets → Button → Bool → Option Widgets
  | 0, _, _, _ => none
  | fuel + 1, w, b, v =>
    if w.checked b = v then some w
    else
      match b, v with
      | .algorithm _, false => some w
      | .rare, false => some w
      | .mcub, false => some w
      | _, _ =>
        ((w.signals b v).flatMap fun x => connected x.1 x.2).foldl
          (fun o x => match o with
            | none => none
            | some w => setChecked fuel w x.1 x.2) (some (w.put b v))

/-- What the user does. -/
inductive Act where
  | click (b : Button)
  | order (n : Int)
  | time (t : Rat)

/-- The value of `QSpinBox` with the default range (/repo/gui/settingsdialog.ui 169). -/
def clampOrder (n : Int) : Int := max 0 (min 99 n)

/-- The value of `QDoubleSpinBox` with one decimal from 1 to 1000000000 (/repo/gui/settingsdialog.ui 143-157). -/
def clampTime (t : Rat) : Rat := max 1 (min 1000000000 ((⌊t * 10 + 1 / 2⌋ : Int) / 10 : Rat))

/-- The same for a double; infinity is clamped, and `qBound` takes a NaN to the minimum. -/
def clampDbl : Dbl → Rat
  | .fin q => clampTime q
  | .posInf => 1000000000
  | .negInf => 1
  | .nan => 1

/-- One action; the radio buttons of the approximation are disabled while the box is unchecked, a click on a checked radio button does nothing. -/
def act (fuel : Nat) (w : Widgets) : Act → Option Widgets
  | .order n => some { w with order := clampOrder n }
  | .time t => some { w with time := clampTime t }
  | .click b =>
    match b with
    | .algorithm _ => setChecked fuel w b true
    | .rare => if w.box then setChecked fuel w b true else some w
    | .mcub => if w.box then setChecked fuel w b true else some w
    | _ => setChecked fuel w b (!w.checked b)

/-- Any sequence of actions. -/
def acts (fuel : Nat) : Widgets → List Act → Option Widgets
  | w, [] => some w
  | w, a :: as =>
    match act fuel w a with
    | none => none
    | some w => acts fuel w as

/-- `SettingsDialog::setupState` (/repo/gui/settingsdialog.cpp 73-104); the connections are not made yet. The rare-event button is checked at first (/repo/gui/settingsdialog.ui 40). -/
def openDialog (s : Settings) : Widgets where
  algorithm := s.algorithm
  prime := s.primeImplicants
  prob := s.probabilityAnalysis
  imp := s.importanceAnalysis
  box := match s.approximation with
    | .none => false
    | _ => true
  rare := match s.approximation with
    | .mcub => false
    | _ => true
  order := clampOrder s.limitOrder
  time := clampDbl s.missionTime

/-- The calls of `SettingsDialog::settings` (/repo/gui/settingsdialog.cpp 40-71). -/
def calls (w : Widgets) : List Op :=
  [.algorithm w.algorithm, .primeImplicants w.prime, .probabilityAnalysis w.prob, .importanceAnalysis w.imp,
    .approximation (if w.box then (if w.rare then .rareEvent else .mcub) else .none), .limitOrder w.order, .missionTime (.fin w.time)]

/-- The calls one after another; a rejected one ends in the assertion. -/
def callAll (s : Settings) : List Op → Outcome
  | [] => .ok s
  | op :: ops => (call s op).bind fun s => callAll s ops

/-- The settings of an accepted dialog (/repo/gui/mainwindow.cpp 508-512). They start from the default settings. -/
def accept (w : Widgets) : Outcome := callAll {} (calls w)

end Scram.SettingsDialog
