import Mathlib.Data.Nat.Digits.Defs
import Mathlib.Data.List.Basic
import Mathlib.Logic.Function.Basic
/-!
# The zoom of the diagrams

/repo/gui/zoomableview.{h,cpp}, /repo/gui/validator.cpp 37-42 and /repo/gui/mainwindow.cpp 121-136, 810-874. The views and the zoom box of the tool bar signal changes to each other; the slots run inside
`setZoom` and `setCurrentText`. The calls are modelled with fuel; `none` is an overflow of `int` (undefined behaviour) or the end of the fuel. From Qt: `setCurrentText` of an editable box sets the text of its
line edit, which is not modified by the user after that, and signals only changes; `QString::toInt` of a number that does not fit is zero; a tab is hidden before the next one is shown. Left out: the matrix of a
view without its scale, lists of completions of the box, `toInt` of texts that are no digits (the validator keeps them out).
-/
namespace Scram.Zoom

/-- The largest `int`. -/
def intMax : Nat := 2147483647

/-- The texts of the box: decimal digits and a percent sign or not. -/
structure Text where
  digits : List Nat
  percent : Bool
deriving DecidableEq, Repr

/-- The pattern `[1-9]\d*%?` (/repo/gui/validator.cpp 39-40) -/
def Text.acceptable (t : Text) : Bool := match t.digits with
  | [] => false
  | d :: ds => 1 ≤ d && d ≤ 9 && ds.all (· ≤ 9)

/-- `text.remove('%'); text.toInt()` (/repo/gui/mainwindow.cpp 844-845, 850-851) -/
def Text.toInt (t : Text) : Nat :=
  let n := Nat.ofDigits 10 t.digits.reverse
  if n ≤ intMax then n else 0

/-- `QStringLiteral("%1%").arg(level)` (/repo/gui/mainwindow.cpp 832, 837) -/
def percentText (level : Nat) : Text := ⟨(Nat.digits 10 level).reverse, true⟩

/-- The members of a view (/repo/gui/zoomableview.h 65): the level and the scale of the matrix in percents -/
structure View where
  zoom : Nat
  scale : Nat
deriving DecidableEq, Repr

/-- The window. `connected` has the views with connections to the box and the actions; `modified` is that of the line edit of the box. -/
structure State where
  view : Nat → View
  connected : List Nat
  text : Text
  modified : Bool
  enabled : Bool

/-- The constructors (/repo/gui/zoomableview.h 65, /repo/gui/mainwindow.cpp 121-136) -/
def start : State := ⟨fun _ => ⟨100, 100⟩, [], percentText 100, false, false⟩

/-- The lowest level (/repo/gui/zoomableview.h 63) -/
def minZoomLevel : Int := 10

mutual
/-- `ZoomableView::setZoom` (/repo/gui/zoomableview.cpp 26-40) with the slot of the box (/repo/gui/mainwindow.cpp 834-838) -/
def setZoom : Nat → Nat → Int → State → Option State
  | 0, _, _, _ => none
  | f + 1, v, level, s =>
    if level = (s.view v).zoom then some s
    else
      let l := (if level < minZoomLevel then minZoomLevel else level).toNat
      let s := { s with view := Function.update s.view v ⟨l, l⟩ }
      if v ∈ s.connected then setText f (percentText l) s else some s
/-- `setCurrentText` of the box with the slots of the views, which do nothing while the user edits (/repo/gui/mainwindow.cpp 839-846) -/
def setText : Nat → Text → State → Option State
  | 0, _, _ => none
  | f + 1, t, s =>
    let changed := t ≠ s.text
    let s := { s with text := t, modified := false }
    if changed then react f s.connected t s else some s
/-- The slots, one view after the other -/
def react : Nat → List Nat → Text → State → Option State
  | _, [], _, s => some s
  | 0, _ :: _, _, _ => none
  | f + 1, v :: vs, t, s =>
    if s.modified then react f vs t s
    else match setZoom f v t.toInt s with
      | none => none
      | some s => react f vs t s
end

/-- `editingFinished` (/repo/gui/mainwindow.cpp 847-852): only for acceptable texts; every view reads the text anew -/
def finish (f : Nat) (s : State) : Option State :=
  if s.text.acceptable then s.connected.foldlM (fun s v => setZoom f v s.text.toInt s) s else some s

/-- `zoomIn` and `zoomOut` (/repo/gui/zoomableview.h 51-54): the sum has to fit into `int` -/
def zoomBy (f v : Nat) (delta : Int) (s : State) : Option State :=
  if (s.view v).zoom + delta ≤ (intMax : Int) then setZoom f v ((s.view v).zoom + delta) s else none

/-- What the user, or Qt, does -/
inductive Event
  /-- a view becomes visible (/repo/gui/mainwindow.cpp 829-858) -/
  | show (v : Nat)
  /-- a view becomes invisible (/repo/gui/mainwindow.cpp 860-866); the box loses the keyboard focus if it has it, which ends the editing -/
  | hide (v : Nat) (focus : Bool)
  /-- the user types into the box -/
  | type (t : Text)
  /-- the user presses Enter or leaves the box -/
  | done
  /-- an action of the menu or an item of the box (/repo/gui/mainwindow.cpp 130-134); the menu takes the keyboard focus when it opens, which ends the editing -/
  | pick (level : Nat)
  /-- the actions to zoom in and out (/repo/gui/mainwindow.cpp 853-856) -/
  | zoomIn
  | zoomOut
  /-- the wheel over a view with the control key (/repo/gui/zoomableview.cpp 53-64) -/
  | wheel (v : Nat) (up : Bool)
  /-- `zoomBestFit` (/repo/gui/zoomableview.cpp 42-51); `level` is what the sizes give -/
  | bestFit (level : Nat)

/-- The items of the menu (/repo/gui/mainwindow.ui 459-555) -/
def items : List Nat := [400, 200, 150, 125, 100, 85, 70, 50]

/-- All connected views get a signal, one after the other. -/
def forAll (s : State) (g : Nat → State → Option State) : Option State := s.connected.foldlM (fun s v => g v s) s

/-- One event. The box, its menu and the actions are enabled only while a view is shown. -/
def step (f : Nat) (s : State) : Event → Option State
  | .show v =>
    let s := { s with enabled := true }
    (setText f (percentText (s.view v).zoom) s).map fun s => { s with connected := s.connected ++ [v] }
  | .hide v focus =>
    let s := { s with enabled := false }
    (if focus then finish f s else some s).map fun s => { s with connected := s.connected.erase v }
  | .type t => if s.enabled then some { s with text := t, modified := true } else some s
  | .done => if s.enabled then finish f s else some s
  | .pick l => if s.enabled then (finish f s).bind (setText f (percentText l)) else some s
  | .zoomIn => if s.enabled then forAll s fun v => zoomBy f v 5 else some s
  | .zoomOut => if s.enabled then forAll s fun v => zoomBy f v (-5) else some s
  | .wheel v up => zoomBy f v (if up then 5 else -5) s
  | .bestFit l => if s.enabled then forAll s fun v => setZoom f v l else some s

end Scram.Zoom
