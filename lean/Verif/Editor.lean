import Verif.Formula
import Mathlib.Logic.Function.Basic
/-!
# The model editor of the GUI: commands with undo and redo

/repo/gui/command.h, /repo/gui/model.h, /repo/gui/model.cpp, on top of the containers of /repo/src/element.h, /repo/src/model.h/.cc and
/repo/src/fault_tree.h/.cc.

Objects (events, fault trees) have addresses; an object that is not in the model is held by a command. The proxy of an
event is identified by the address of the event. Left out: signals, descriptions of commands, the usage flags of events
and the `container()` of elements, and `top_events_` of fault trees, which no command changes.
-/
namespace Scram.Editor

abbrev Addr := Nat

/-- The types of events in a GUI model (`mef::HouseEvent`, `mef::BasicEvent`, `mef::Gate`). -/
inductive Kind where
  | house | basic | gate
deriving DecidableEq, Repr

/-- `BasicEvent::Flavor` (/repo/gui/model.h 184). -/
inductive Flavor where
  | basic | undeveloped
deriving DecidableEq, Repr

/-- `mef::Attribute` (/repo/src/element.h 81-125). -/
structure Attr where
  name : String
  value : String
  type : String
deriving DecidableEq, Repr

/-- `mef::Formula` with flat arguments (complement flag and event). -/
structure Fml where
  connective : Mef.Connective
  min : Nat
  args : List (Bool × Addr)
deriving DecidableEq, Repr

/-- The expressions of GUI models: a constant, or an exponential with its rate and the mission time (/repo/gui/mainwindow.cpp 1274-1296,
/repo/share/gui.rng). Expressions with the same value are the same. -/
inductive Expr where
  | constant (value : Rat)
  | exponential (rate : Rat)
deriving DecidableEq, Repr

/-- What is particular to the type of an event. -/
inductive Body where
  | house (state : Bool)
  | basic (expression : Option Expr)
  | gate (formula : Fml)
deriving DecidableEq, Repr

/-- An event object. Events of GUI models are public, so the identifier is the name (/repo/src/element.h 312-315). -/
structure Ev where
  name : String
  label : String := ""
  attributes : List Attr := []
  body : Body
deriving DecidableEq, Repr

/-- The type of the object. -/
def Body.kind : Body → Kind
  | .house _ => .house
  | .basic _ => .basic
  | .gate _ => .gate

/-- The arguments of the formula of the event, if it is a gate. -/
def Ev.args (e : Ev) : List (Bool × Addr) :=
  match e.body with
  | .gate f => f.args
  | _ => []

/-- A fault tree object with its tables of events by name (/repo/src/fault_tree.h 36-43). -/
structure Tree where
  name : String
  table : Kind → String → Option Addr := fun _ _ => none

/-- The model with its proxies, and all objects that exist. -/
structure State where
  /-- The name of the model. -/
  name : String
  /-- Event objects. -/
  heap : Addr → Ev
  /-- `m_flavor` of the proxies of basic events. -/
  flavor : Addr → Flavor
  /-- Fault tree objects. -/
  treeHeap : Addr → Tree
  /-- The tables of events of `mef::Model` (`IdTable`). -/
  events : Kind → String → Option Addr
  /-- The proxy tables of `gui::Model` (/repo/gui/model.h 686-688). -/
  shown : Kind → Addr → Bool
  /-- The table of fault trees of `mef::Model`. -/
  trees : String → Option Addr

/-- An entry of a table is set or erased. -/
def put {α β : Type} [DecidableEq α] (t : Kind → α → β) (k : Kind) (n : α) (v : β) : Kind → α → β :=
  fun k' n' => if k' = k ∧ n' = n then v else t k' n'

/-- The type of the object at an address. -/
def State.kind (s : State) (a : Addr) : Kind := (s.heap a).body.kind

/-- The name is in one of the tables (`CheckDuplicateEvent`, /repo/src/model.cc 33-40, /repo/src/fault_tree.cc 54-63). -/
def taken (t : Kind → String → Option Addr) (n : String) : Bool :=
  (t .gate n).isSome || (t .basic n).isSome || (t .house n).isSome

/-- `mef::Model::Add` of an event (/repo/src/model.h 148-152); `none` stands for an exception. -/
def modelAdd (s : State) (a : Addr) : Option State :=
  if taken s.events (s.heap a).name then none
  else some { s with events := put s.events (s.kind a) (s.heap a).name (some a) }

/-- `Container::Remove` (/repo/src/element.h 489-515) of the model. -/
def modelRemove (s : State) (a : Addr) : Option State :=
  if s.events (s.kind a) (s.heap a).name = some a then
    some { s with events := put s.events (s.kind a) (s.heap a).name none }
  else none

/-- The proxy is put into its table; it must not be there. -/
def proxyAdd (s : State) (a : Addr) : Option State :=
  if s.shown (s.kind a) a then none else some { s with shown := put s.shown (s.kind a) a true }

/-- `ext::extract` from the proxy table (/repo/src/ext/multi_index.h 38-55); the proxy must be there. -/
def proxyRemove (s : State) (a : Addr) : Option State :=
  if s.shown (s.kind a) a then some { s with shown := put s.shown (s.kind a) a false } else none

/-- The fault tree object gets other tables. -/
def State.setTable (s : State) (t : Addr) (tb : Kind → String → Option Addr) : State :=
  { s with treeHeap := Function.update s.treeHeap t { s.treeHeap t with table := tb } }

/-- `add(event, faultTree)` (/repo/gui/model.h 56-62, /repo/src/fault_tree.h 103-107): only gates are put into the fault tree. -/
def treeAdd (s : State) (ft : Option Addr) (a : Addr) : Option State :=
  match ft with
  | none => some s
  | some t =>
    if s.kind a = .gate then
      if taken (s.treeHeap t).table (s.heap a).name then none
      else some (s.setTable t (put (s.treeHeap t).table .gate (s.heap a).name (some a)))
    else some s

/-- `remove(event, faultTree)` (/repo/gui/model.h 49-55). -/
def treeRemove (s : State) (ft : Option Addr) (a : Addr) : Option State :=
  match ft with
  | none => some s
  | some t =>
    if s.kind a = .gate then
      if (s.treeHeap t).table .gate (s.heap a).name = some a then
        some (s.setTable t (put (s.treeHeap t).table .gate (s.heap a).name none))
      else none
    else some s

/-- The object gets other data. -/
def State.setEv (s : State) (a : Addr) (e : Ev) : State := { s with heap := Function.update s.heap a e }

/-- `Element::name(std::string)` accepts the name (/repo/src/element.cc 27-33). -/
def nameOk (n : String) : Bool := n ≠ "" && !n.toList.contains '.'

/-- `Id::id(std::string)` (/repo/src/element.cc 83-86). -/
def rename (s : State) (a : Addr) (n : String) : Option State :=
  if nameOk n then some (s.setEv a { s.heap a with name := n }) else none

/-- `Element::RemoveAttribute` (/repo/src/element.cc 58-66). -/
def removeAttr (l : List Attr) (n : String) : List Attr := l.eraseP fun x => x.name = n

/-- `Element::SetAttribute` (/repo/src/element.cc 42-46). -/
def setAttr (l : List Attr) (x : Attr) : List Attr :=
  if l.any (fun y => y.name = x.name) then l.map fun y => if y.name = x.name then x else y else l ++ [x]

/-- `mef::Model::kDefaultName` (/repo/src/model.h 58). -/
def defaultName : String := "__unnamed-model__"

/-- `Formula::Swap` (/repo/src/event.cc 109-130); the nesting of complements does not depend on the event, and there
are no constants among the arguments of a GUI model. -/
def swapArg (s : State) (cur other : Addr) (f : Fml) : Option Fml :=
  let pos := f.args.findIdx fun x => x.2 == cur
  match f.args[pos]? with
  | none => none
  | some it =>
    if f.args.any fun x => x.2 != cur && (s.heap x.2).name == (s.heap other).name then none
    else some { f with args := f.args.set pos (it.1, other) }

/-- `gate->data()->formula().Swap(...)`. -/
def swapIn (s : State) (cur other g : Addr) : Option State :=
  match (s.heap g).body with
  | .gate f => (swapArg s cur other f).map fun f' => s.setEv g { s.heap g with body := .gate f' }
  | _ => none

/-- The loop over the parent gates (/repo/gui/model.h 645-647). -/
def swapAll (s : State) (cur other : Addr) : List Addr → Option State
  | [] => some s
  | g :: gs => (swapIn s cur other g).bind fun s => swapAll s cur other gs

/-- `ChangeEventType::Switch::operator()` (/repo/gui/model.h 624-653). -/
def switchEvent (s : State) (cur next : Addr) (ft : Option Addr) (gates : List Addr) : Option State :=
  (modelRemove s cur).bind fun s => (proxyRemove s cur).bind fun s => (modelAdd s next).bind fun s => (proxyAdd s next).bind fun s =>
    (treeRemove s ft cur).bind fun s => (treeAdd s ft next).bind fun s => swapAll s cur next gates

/-- The commands with their data members; `held` tells if the command owns the object (a null pointer otherwise). -/
inductive Cmd where
  | setLabel (e : Addr) (label : String)
  | setExpression (e : Addr) (x : Option Expr)
  | setFlavor (e : Addr) (f : Flavor)
  | setState (e : Addr) (b : Bool)
  | setFormula (g : Addr) (f : Fml)
  | setName (n : String)
  | setId (e : Addr) (n : String) (ft : Option Addr)
  | addTree (t : Addr) (held : Bool)
  | removeTree (t : Addr) (held : Bool)
  | addEvent (e : Addr) (ft : Option Addr) (held : Bool)
  | removeEvent (e : Addr) (ft : Option Addr) (held : Bool)
  | changeType (cur next : Addr) (ft : Option Addr) (gates : List Addr) (heldNext heldCur : Bool)
deriving DecidableEq

/-- `Element::SetLabel::redo` (/repo/gui/model.cpp 35-43). -/
def redoLabel (s : State) (e : Addr) (l : String) : Option (Cmd × State) :=
  if l = (s.heap e).label then some (.setLabel e l, s)
  else some (.setLabel e (s.heap e).label, s.setEv e { s.heap e with label := l })

/-- `BasicEvent::SetExpression::redo` (/repo/gui/model.cpp 62-72). -/
def redoExpression (s : State) (e : Addr) (x : Option Expr) : Option (Cmd × State) :=
  match (s.heap e).body with
  | .basic y =>
    if x = y then some (.setExpression e x, s)
    else some (.setExpression e y, s.setEv e { s.heap e with body := .basic x })
  | _ => none

/-- The attributes after a change of the flavor (/repo/gui/model.cpp 88-95). -/
def flavorAttrs (l : List Attr) : Flavor → List Attr
  | .basic => removeAttr l "flavor"
  | .undeveloped => setAttr l ⟨"flavor", "undeveloped", ""⟩

/-- `BasicEvent::SetFlavor::redo` (/repo/gui/model.cpp 81-99). -/
def redoFlavor (s : State) (e : Addr) (f : Flavor) : Option (Cmd × State) :=
  if f = s.flavor e then some (.setFlavor e f, s)
  else some (.setFlavor e (s.flavor e),
    { s.setEv e { s.heap e with attributes := flavorAttrs (s.heap e).attributes f } with flavor := Function.update s.flavor e f })

/-- `HouseEvent::SetState::redo` (/repo/gui/model.cpp 109-117). -/
def redoState (s : State) (e : Addr) (b : Bool) : Option (Cmd × State) :=
  match (s.heap e).body with
  | .house c =>
    if b = c then some (.setState e b, s)
    else some (.setState e c, s.setEv e { s.heap e with body := .house b })
  | _ => none

/-- `Gate::SetFormula::redo` (/repo/gui/model.cpp 125-129). -/
def redoFormula (s : State) (g : Addr) (f : Fml) : Option (Cmd × State) :=
  match (s.heap g).body with
  | .gate h => some (.setFormula g h, s.setEv g { s.heap g with body := .gate f })
  | _ => none

/-- `Model::SetName::redo` (/repo/gui/model.cpp 170-179), `SetOptionalName` (/repo/src/model.h 78-80). -/
def redoName (s : State) (n : String) : Option (Cmd × State) :=
  let cur := if s.name = defaultName then "" else s.name
  if cur = n then some (.setName n, s)
  else
    let new := if n = "" then defaultName else n
    if nameOk new then some (.setName cur, { s with name := new }) else none

/-- `Element::SetId::redo` (/repo/gui/model.h 114-127). -/
def redoId (s : State) (e : Addr) (n : String) (ft : Option Addr) : Option (Cmd × State) :=
  if n = (s.heap e).name then some (.setId e n ft, s)
  else
    ((treeRemove s ft e).bind fun s => (modelRemove s e).bind fun s => (rename s e n).bind fun s =>
      (treeAdd s ft e).bind fun s => modelAdd s e).map fun s' => (.setId e (s.heap e).name ft, s')

/-- `Model::AddFaultTree::redo` (/repo/gui/model.cpp 192-196). -/
def treeIn (s : State) (t : Addr) (held : Bool) : Option State :=
  if held ∧ s.trees (s.treeHeap t).name = none then
    some { s with trees := Function.update s.trees (s.treeHeap t).name (some t) }
  else none

/-- `Model::AddFaultTree::undo` (/repo/gui/model.cpp 198-202). -/
def treeOut (s : State) (t : Addr) : Option State :=
  if s.trees (s.treeHeap t).name = some t then some { s with trees := Function.update s.trees (s.treeHeap t).name none }
  else none

/-- `Model::AddEvent::redo` (/repo/gui/model.h 529-537). -/
def eventIn (s : State) (e : Addr) (ft : Option Addr) (held : Bool) : Option State :=
  if held then (modelAdd s e).bind fun s => (proxyAdd s e).bind fun s => treeAdd s ft e else none

/-- `Model::AddEvent::undo` (/repo/gui/model.h 540-548). -/
def eventOut (s : State) (e : Addr) (ft : Option Addr) : Option State :=
  (modelRemove s e).bind fun s => (proxyRemove s e).bind fun s => treeRemove s ft e

/-- `redo` of the commands. Those that remove are the inverses of those that add (/repo/gui/command.h 72-86). -/
def redo (s : State) : Cmd → Option (Cmd × State)
  | .setLabel e l => redoLabel s e l
  | .setExpression e x => redoExpression s e x
  | .setFlavor e f => redoFlavor s e f
  | .setState e b => redoState s e b
  | .setFormula g f => redoFormula s g f
  | .setName n => redoName s n
  | .setId e n ft => redoId s e n ft
  | .addTree t held => (treeIn s t held).map fun s => (.addTree t false, s)
  | .removeTree t _ => (treeOut s t).map fun s => (.removeTree t true, s)
  | .addEvent e ft held => (eventIn s e ft held).map fun s => (.addEvent e ft false, s)
  | .removeEvent e ft _ => (eventOut s e ft).map fun s => (.removeEvent e ft true, s)
  | .changeType cur next ft gates heldNext _ =>
    if heldNext then (switchEvent s cur next ft gates).map fun s => (.changeType cur next ft gates false true, s) else none

/-- `undo` of the commands; the setters are involutions (/repo/gui/command.h 55-64). -/
def undo (s : State) : Cmd → Option (Cmd × State)
  | .addTree t _ => (treeOut s t).map fun s => (.addTree t true, s)
  | .removeTree t held => (treeIn s t held).map fun s => (.removeTree t false, s)
  | .addEvent e ft _ => (eventOut s e ft).map fun s => (.addEvent e ft true, s)
  | .removeEvent e ft held => (eventIn s e ft held).map fun s => (.removeEvent e ft false, s)
  | .changeType cur next ft gates _ heldCur =>
    if heldCur then (switchEvent s next cur ft gates).map fun s => (.changeType cur next ft gates true false, s) else none
  | c => redo s c

/-- An entry of the undo stack: a command, or a macro of several (`beginMacro`, `endMacro`). -/
abbrev Entry := List Cmd

/-- A macro does its commands in order. -/
def redoEntry (s : State) : Entry → Option (Entry × State)
  | [] => some ([], s)
  | c :: cs => (redo s c).bind fun r => (redoEntry r.2 cs).map fun q => (r.1 :: q.1, q.2)

/-- A macro undoes its commands in the opposite order. -/
def undoEntry (s : State) : Entry → Option (Entry × State)
  | [] => some ([], s)
  | c :: cs => (undoEntry s cs).bind fun q => (undo q.2 c).map fun r => (r.1 :: q.1, r.2)

/-- The window: the model and the `QUndoStack`. Commands done, the latest first, and undone, the next one first. -/
structure Window where
  state : State
  done : List Entry := []
  undone : List Entry := []

/-- The actions of the user. -/
inductive Action where
  | push (e : Entry)
  | undo
  | redo

/-- The undo limit of the stack (0 for none, /repo/gui/mainwindow.cpp 544): the oldest commands are forgotten. -/
def keep {α : Type} (limit : Nat) (l : List α) : List α := if limit = 0 then l else l.take limit

/-- `QUndoStack`: a new command is done and forgets what was undone; nothing happens at the ends of the stack. -/
def Window.step (limit : Nat) (w : Window) : Action → Option Window
  | .push e => (redoEntry w.state e).map fun r => ⟨r.2, keep limit (r.1 :: w.done), []⟩
  | .undo =>
    match w.done with
    | [] => some w
    | e :: es => (undoEntry w.state e).map fun r => ⟨r.2, es, r.1 :: w.undone⟩
  | .redo =>
    match w.undone with
    | [] => some w
    | e :: es => (redoEntry w.state e).map fun r => ⟨r.2, r.1 :: w.done, es⟩

/-- A session. -/
def Window.run (limit : Nat) (w : Window) : List Action → Option Window
  | [] => some w
  | a :: as => (w.step limit a).bind fun w => w.run limit as

/-- `gui::Model::parents` (/repo/gui/model.cpp 149-163): the gates of the model with the event among their arguments, in the order of
the proxy table. -/
def IsParents (s : State) (e : Addr) (gates : List Addr) : Prop :=
  gates.Nodup ∧ ∀ g, g ∈ gates ↔ s.shown .gate g = true ∧ ∃ x ∈ (s.heap g).args, x.2 = e

end Scram.Editor
