import Verif.Editor
import Mathlib.Data.Set.Card
/-!
# The tables of the GUI that list the events and fault trees of a model

/repo/gui/elementcontainermodel.h/.cpp and /repo/gui/modeltree.h/.cpp, driven by the signals of /repo/gui/model.h/.cpp.

A view (of Qt) sees a table through its notifications only: it inserts and removes rows as told, and it reads the cells
again that are announced as changed. Left out: sorting and filtering of rows (`SortFilterProxyModel`), headers, alignment,
the item flags, translation of texts.
-/
namespace Scram.Editor

/-- The signals of the proxies and of the model (/repo/gui/model.h 141-146, 263-268, 315-317, 397-399, 663-683). -/
inductive Signal where
  | added (k : Kind) (a : Addr)
  | removed (k : Kind) (a : Addr)
  | treeAdded (t : Addr)
  | treeRemoved (t : Addr)
  | labelChanged (a : Addr)
  | idChanged (a : Addr)
  | flavorChanged (a : Addr)
  | expressionChanged (a : Addr)
  | stateChanged (a : Addr)
  | formulaChanged (a : Addr)
  | modelNameChanged
deriving DecidableEq

/-- A signal with the state of the model at that moment, if the code got there. -/
def emits (g : Signal) (o : Option State) : List (Signal × State) :=
  match o with
  | some s => [(g, s)]
  | none => []

/-- Signals of a setter: only if there was a change (/repo/gui/model.cpp 35-43, 62-72, 81-99, 109-117, 170-179). -/
def emitsIf (changed : Bool) (g : Signal) (o : Option (Cmd × State)) : List (Signal × State) :=
  if changed then emits g (o.map Prod.snd) else []

/-- `AddEvent::redo` (/repo/gui/model.h 529-537): before the event is put into its fault tree. -/
def eventInSignals (s : State) (e : Addr) (held : Bool) : List (Signal × State) :=
  if held then emits (.added (s.kind e) e) ((modelAdd s e).bind fun s => proxyAdd s e) else []

/-- `AddEvent::undo` (/repo/gui/model.h 540-548). -/
def eventOutSignals (s : State) (e : Addr) : List (Signal × State) :=
  emits (.removed (s.kind e) e) ((modelRemove s e).bind fun s => proxyRemove s e)

/-- `ChangeEventType::Switch::operator()` (/repo/gui/model.h 624-653). -/
def switchSignals (s : State) (cur next : Addr) (ft : Option Addr) (gates : List Addr) : List (Signal × State) :=
  match (modelRemove s cur).bind fun s => proxyRemove s cur with
  | none => []
  | some s1 =>
    (.removed (s.kind cur) cur, s1) ::
      match (modelAdd s1 next).bind fun s => proxyAdd s next with
      | none => []
      | some s2 =>
        (.added (s1.kind next) next, s2) ::
          match (treeRemove s2 ft cur).bind fun s => (treeAdd s ft next).bind fun s => swapAll s cur next gates with
          | none => []
          | some s3 => gates.map fun g => (.formulaChanged g, s3)

/-- The name of the model as the GUI shows it (/repo/gui/model.cpp 172-173). -/
def State.shownName (s : State) : String := if s.name = defaultName then "" else s.name

/-- The signals of `redo`, in order. -/
def redoSignals (s : State) : Cmd → List (Signal × State)
  | .setLabel e l => emitsIf (l != (s.heap e).label) (.labelChanged e) (redoLabel s e l)
  | .setExpression e x => emitsIf (Body.basic x != (s.heap e).body) (.expressionChanged e) (redoExpression s e x)
  | .setFlavor e f => emitsIf (f != s.flavor e) (.flavorChanged e) (redoFlavor s e f)
  | .setState e b => emitsIf (Body.house b != (s.heap e).body) (.stateChanged e) (redoState s e b)
  | .setFormula g f => emitsIf true (.formulaChanged g) (redoFormula s g f)
  | .setName n => emitsIf (n != s.shownName) .modelNameChanged (redoName s n)
  | .setId e n ft => emitsIf (n != (s.heap e).name) (.idChanged e) (redoId s e n ft)
  | .addTree t held => emits (.treeAdded t) (treeIn s t held)
  | .removeTree t _ => emits (.treeRemoved t) (treeOut s t)
  | .addEvent e _ held => eventInSignals s e held
  | .removeEvent e _ _ => eventOutSignals s e
  | .changeType cur next ft gates heldNext _ => if heldNext then switchSignals s cur next ft gates else []

/-- The signals of `undo`. -/
def undoSignals (s : State) : Cmd → List (Signal × State)
  | .addTree t _ => emits (.treeRemoved t) (treeOut s t)
  | .removeTree t held => emits (.treeAdded t) (treeIn s t held)
  | .addEvent e _ _ => eventOutSignals s e
  | .removeEvent e _ held => eventInSignals s e held
  | .changeType cur next ft gates _ heldCur => if heldCur then switchSignals s next cur ft gates else []
  | c => redoSignals s c

/-- The signals of a macro. -/
def redoEntrySignals (s : State) : Entry → List (Signal × State)
  | [] => []
  | c :: cs => redoSignals s c ++ ((redo s c).map fun r => redoEntrySignals r.2 cs).getD []

/-- The signals of a macro that is undone. -/
def undoEntrySignals (s : State) : Entry → List (Signal × State)
  | [] => []
  | c :: cs => undoEntrySignals s cs ++ ((undoEntry s cs).map fun q => undoSignals q.2 c).getD []

/-- The signals of an action of the user. -/
def Window.signals (w : Window) : Action → List (Signal × State)
  | .push e => redoEntrySignals w.state e
  | .undo =>
    match w.done with
    | [] => []
    | e :: _ => undoEntrySignals w.state e
  | .redo =>
    match w.undone with
    | [] => []
    | e :: _ => redoEntrySignals w.state e

/-- What a cell shows (`QVariant` of the display role): a text, or a number (none for the null value). -/
inductive Cell where
  | text (x : String)
  | number (x : Option Rat)
  | blank
deriving DecidableEq

/-- `BasicEvent::flavorToString` (/repo/gui/model.h 187-197). -/
def flavorText : Flavor → String
  | .basic => "Basic"
  | .undeveloped => "Undeveloped"

/-- `boolToString` (/repo/gui/model.h 275-278). -/
def boolText (b : Bool) : String := if b then "True" else "False"

/-- `Gate::type<QString>` (/repo/gui/model.h 333-365); other connectives do not occur in GUI models. -/
def connectiveText (f : Fml) : String :=
  match f.connective with
  | .and => "and"
  | .or => "or"
  | .atleast => "at-least " ++ toString f.min
  | .xor => "xor"
  | .not => "not"
  | .null => "null"
  | .nand => "nand"
  | .nor => "nor"
  | _ => ""

/-- The number of columns (elementcontainermodel.cpp 126-129, 207-210, 286-295). -/
def columnCount : Kind → Nat
  | .basic => 4
  | .house => 3
  | .gate => 4

/-- `data()` for the display role (elementcontainermodel.cpp 155-180, 231-252, 356-385); `value` evaluates expressions (`BasicEvent::p`). -/
def data (value : Expr → Rat) (k : Kind) (s : State) (a : Addr) (column : Nat) : Cell :=
  let e := s.heap a
  match k, column with
  | .basic, 0 => .text e.name
  | .basic, 1 => .text (flavorText (s.flavor a))
  | .basic, 2 =>
    match e.body with
    | .basic x => .number (x.map value)
    | _ => .blank
  | .basic, 3 => .text e.label
  | .house, 0 => .text e.name
  | .house, 1 =>
    match e.body with
    | .house b => .text (boolText b)
    | _ => .blank
  | .house, 2 => .text e.label
  | .gate, 0 => .text e.name
  | .gate, 1 =>
    match e.body with
    | .gate f => .text (connectiveText f)
    | _ => .blank
  | .gate, 2 =>
    match e.body with
    | .gate f => .number (some f.args.length)
    | _ => .blank
  | .gate, 3 => .text e.label
  | _, _ => .blank

/-- The rows under the row of a gate: the identifiers of its arguments (elementcontainermodel.cpp 297-306, 356-366). -/
def childNames (k : Kind) (s : State) (a : Addr) : List String :=
  if k = .gate then (s.heap a).args.map fun x => (s.heap x.2).name else []

/-- A row as the view has it: the cells and the rows under it. -/
structure Row where
  cells : Nat → Cell
  children : List String

/-- A row as it is read from the table. -/
def readRow (value : Expr → Rat) (k : Kind) (s : State) (a : Addr) : Row := ⟨data value k s a, childNames k s a⟩

/-- `ElementContainerModel` (elementcontainermodel.h) with the rows of a view. -/
structure Table where
  /-- `m_elements`. -/
  elements : List Addr
  /-- `m_elementToIndex`. -/
  index : Addr → Option Nat
  /-- The signals of the element are connected to this table. -/
  connected : Addr → Bool
  /-- The rows of the view. -/
  view : List Row

/-- `dataChanged` of a part of a row: the view reads these cells again. -/
def Table.changed (value : Expr → Rat) (k : Kind) (s : State) (t : Table) (row first last : Nat) : Table :=
  match t.elements[row]? with
  | none => t
  | some a =>
    { t with view := t.view.modify row fun r =>
        { r with cells := fun c => if first ≤ c ∧ c ≤ last then data value k s a c else r.cells c } }

/-- `beginResetModel`, `endResetModel`: the view reads everything again. -/
def Table.reset (value : Expr → Rat) (k : Kind) (s : State) (t : Table) : Table :=
  { t with view := t.elements.map (readRow value k s) }

/-- `addElement` (elementcontainermodel.cpp 83-91). -/
def Table.addElement (value : Expr → Rat) (k : Kind) (s : State) (t : Table) (a : Addr) : Table where
  elements := t.elements ++ [a]
  index := if (t.index a).isSome then t.index else Function.update t.index a (some t.elements.length)
  connected := Function.update t.connected a true
  view := t.view ++ [readRow value k s a]

/-- `removeElement` without the last statement (elementcontainermodel.cpp 95-109): the last element takes the place. -/
def Table.take (value : Expr → Rat) (k : Kind) (s : State) (t : Table) (a : Addr) (i : Nat) (lastElement : Addr) : Table :=
  let t1 : Table :=
    { t with elements := t.elements.dropLast, index := Function.update t.index a none, view := t.view.dropLast }
  if i = t.elements.length - 1 then t1
  else
    { t1 with elements := t1.elements.set i lastElement, index := Function.update t1.index lastElement (some i) }.changed
      value k s i 0 (columnCount k - 1)

/-- `removeElement` (elementcontainermodel.cpp 93-111); `none` stands for a failed assertion. -/
def Table.removeElement (value : Expr → Rat) (k : Kind) (s : State) (t : Table) (a : Addr) : Option Table :=
  match t.index a, t.elements.getLast? with
  | some i, some lastElement =>
    let t2 := t.take value k s a i lastElement
    some { t2 with connected := Function.update t2.connected a false }
  | _, _ => none

/-- The handlers of signals of an element: they announce that columns of its row have changed
(elementcontainermodel.cpp 50-61, 182-197 and so on). -/
def Table.cellsChanged (value : Expr → Rat) (k : Kind) (s : State) (t : Table) (a : Addr) (first last : Nat) : Option Table :=
  (t.index a).map fun i => t.changed value k s i first last

/-- The slots of the table of events of type `k` (elementcontainermodel.cpp 33-61, 182-197, 254-263, 272-284). -/
def Table.handle (value : Expr → Rat) (k : Kind) (s : State) (t : Table) : Signal → Option Table
  | .added k' a => if k' = k then some (t.addElement value k s a) else some t
  | .removed k' a => if k' = k then t.removeElement value k s a else some t
  | .labelChanged a => if t.connected a then t.cellsChanged value k s a (columnCount k - 1) (columnCount k - 1) else some t
  | .idChanged a => if t.connected a then t.cellsChanged value k s a 0 0 else some t
  | .flavorChanged a => if t.connected a && k = .basic then t.cellsChanged value k s a 1 1 else some t
  | .expressionChanged a => if t.connected a && k = .basic then t.cellsChanged value k s a 2 2 else some t
  | .stateChanged a => if t.connected a && k = .house then t.cellsChanged value k s a 1 1 else some t
  | .formulaChanged a =>
    if t.connected a && k = .gate then (t.cellsChanged value k s a 1 2).map fun t => t.reset value k s else some t
  | .treeAdded _ => some t
  | .treeRemoved _ => some t
  | .modelNameChanged => some t

/-- The signals come one after the other. -/
def Table.handleAll (value : Expr → Rat) (k : Kind) (t : Table) : List (Signal × State) → Option Table
  | [] => some t
  | x :: xs => (t.handle value k x.2 x.1).bind fun t => t.handleAll value k xs

/-- The constructor (elementcontainermodel.cpp 33-48, 118-124) with a new view; `elements` is the container. -/
def Table.open (value : Expr → Rat) (k : Kind) (s : State) (elements : List Addr) : Table where
  elements := elements
  index := fun a => if a ∈ elements then some (elements.idxOf a) else none
  connected := fun a => decide (a ∈ elements)
  view := elements.map (readRow value k s)

/-- The table during a session. -/
def Table.session (value : Expr → Rat) (k : Kind) (limit : Nat) (w : Window) (t : Table) : List Action → Option Table
  | [] => some t
  | a :: as => (t.handleAll value k (w.signals a)).bind fun t => (w.step limit a).bind fun w => t.session value k limit w as

/-! ## The tree of the model -/

/-- The number of proxies of the type. -/
noncomputable def State.number (s : State) (k : Kind) : Nat := Set.ncard {a | s.shown k a = true}

/-- The number of fault trees. -/
noncomputable def State.treeNumber (s : State) : Nat := Set.ncard {n | s.trees n ≠ none}

/-- `ModelTree` (modeltree.h 33-86) with the rows of a view: the names of the fault trees and the numbers in the titles. -/
structure ModelTree where
  /-- `m_faultTrees`. -/
  faultTrees : List Addr
  /-- The rows under the title of fault trees. -/
  names : List String
  /-- The number in the title of fault trees. -/
  treeCount : Nat
  /-- The numbers in the titles of gates, basic events and house events. -/
  counts : Kind → Nat

/-- The constructor (modeltree.cpp 27-31) with a new view; `l` are the fault trees in the order of names. -/
noncomputable def ModelTree.open (s : State) (l : List Addr) : ModelTree where
  faultTrees := l
  names := l.map fun t => (s.treeHeap t).name
  treeCount := s.treeNumber
  counts := s.number

/-- `lower_bound` by name. -/
def lowerBound (s : State) (l : List Addr) (n : String) : Nat := l.findIdx fun t => !decide ((s.treeHeap t).name < n)

/-- The slots (modeltree.cpp 33-70). -/
noncomputable def ModelTree.handle (s : State) (m : ModelTree) : Signal → Option ModelTree
  | .treeAdded t =>
    let i := lowerBound s m.faultTrees (s.treeHeap t).name
    some { m with faultTrees := m.faultTrees.insertIdx i t, names := m.names.insertIdx i (s.treeHeap t).name, treeCount := s.treeNumber }
  | .treeRemoved t =>
    let i := lowerBound s m.faultTrees (s.treeHeap t).name
    match m.faultTrees[i]? with
    | some u =>
      if (s.treeHeap u).name = (s.treeHeap t).name then
        some { m with faultTrees := m.faultTrees.eraseIdx i, names := m.names.eraseIdx i, treeCount := s.treeNumber }
      else none
    | none => none
  | .added k _ => some { m with counts := Function.update m.counts k (s.number k) }
  | .removed k _ => some { m with counts := Function.update m.counts k (s.number k) }
  | _ => some m

/-- The signals come one after the other. -/
noncomputable def ModelTree.handleAll (m : ModelTree) : List (Signal × State) → Option ModelTree
  | [] => some m
  | x :: xs => (m.handle x.2 x.1).bind fun m => m.handleAll xs

/-- The tree during a session. -/
noncomputable def ModelTree.session (limit : Nat) (w : Window) (m : ModelTree) : List Action → Option ModelTree
  | [] => some m
  | a :: as => (m.handleAll (w.signals a)).bind fun m => (w.step limit a).bind fun w => m.session limit w as

/-! ## The title of the window -/

/-- `getModelNameForTitle` (/repo/gui/mainwindow.cpp 600-604); the mark for changes is not part of it. -/
def titleText (s : State) : String := if s.name = defaultName then "Unnamed Model" else s.name

/-- The slot for `modelNameChanged` (/repo/gui/mainwindow.cpp 1484-1486). -/
def titleHandle (title : String) (x : Signal × State) : String :=
  match x.1 with
  | .modelNameChanged => titleText x.2
  | _ => title

/-- The title during a session. -/
def titleSession (limit : Nat) (w : Window) (title : String) : List Action → Option String
  | [] => some title
  | a :: as => (w.step limit a).bind fun w' => titleSession limit w' ((w.signals a).foldl titleHandle title) as

end Scram.Editor
