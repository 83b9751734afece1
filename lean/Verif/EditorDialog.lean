import Verif.EditorHistory
/-!
# The event dialog and the actions of the main window

/repo/gui/eventdialog.cpp, /repo/gui/eventdialog.h, /repo/gui/validator.cpp, and the functions of /repo/gui/mainwindow.cpp that turn an accepted dialog into
commands.

Conventions: an object that a command brings in has its address and its data from the start, and nothing touches it before. Letters are ASCII.
-/
namespace Scram.Editor

/-- A character of `\w`. -/
def isWord (c : Char) : Bool := c.isAlphanum || c = '_'

/-- The rest of a name: words, with single dashes between them; `open` allows a dash at the end (the validator says `Intermediate`). -/
def tailOk (openEnd : Bool) : List Char → Bool
  | [] => true
  | [c] => isWord c || (openEnd && c = '-')
  | c :: d :: cs => if c = '-' then isWord d && tailOk openEnd cs else isWord c && tailOk openEnd (d :: cs)

/-- `Validator::name` (/repo/gui/validator.cpp 30-36) takes the text as acceptable. -/
def acceptable (n : String) : Bool :=
  match n.toList with
  | [] => false
  | c :: cs => c.isAlpha && tailOk false cs

/-- The validator lets the user type the text. -/
def typable (n : String) : Bool :=
  match n.toList with
  | [] => true
  | c :: cs => c.isAlpha && tailOk true cs

/-- `EventDialog::EventType` (/repo/gui/eventdialog.h 58-63). -/
inductive EvType where
  | house | basic | undeveloped | gate
deriving DecidableEq, Repr

/-- The fields of the dialog. -/
structure Dialog where
  /-- `m_event`. -/
  event : Option Addr := none
  /-- `m_initName`. -/
  initName : String := ""
  name : String := ""
  label : String := ""
  type : EvType := .house
  state : Bool := false
  expression : Option Expr := none
  connective : Mef.Connective := .and
  min : Nat := 2
  args : List String := []
  /-- The text of `containerFaultTreeName`. -/
  tree : String := ""
  /-- The types other than the gate are hidden, because the event is the root of its fault tree. -/
  isTop : Bool := false

/-- `mef::Model::GetEvent` (/repo/src/model.cc 41-51). -/
def getEvent (s : State) (n : String) : Option Addr := (s.events .basic n).or ((s.events .gate n).or (s.events .house n))

/-- The loop of `EventDialog::checkCycle` (/repo/gui/eventdialog.cpp 211-217). -/
def checkArgs (s : State) (e : Addr) (visit : Addr → Option Bool) : List (Bool × Addr) → Option Bool
  | [] => some false
  | x :: xs =>
    if x.2 = e then some true
    else if s.kind x.2 = .gate then
      (visit x.2).bind fun r => if r then some true else checkArgs s e visit xs
    else checkArgs s e visit xs

/-- `EventDialog::checkCycle` (/repo/gui/eventdialog.cpp 199-218); nothing if the recursion is deeper than the given bound. -/
def checkCycle (s : State) (e : Addr) : Nat → Addr → Option Bool
  | 0, _ => none
  | n + 1, g => checkArgs s e (checkCycle s e n) (s.heap g).args

/-- What the user does with the dialog. -/
inductive Input where
  | name (n : String) | label (l : String) | type (t : EvType) | state (b : Bool) | expression (x : Option Expr)
  | connective (c : Mef.Connective) | min (n : Nat) | addArg (n : String) | removeArg (i : Nat) | tree (n : String)

/-- One more argument in the list. -/
def Dialog.withArg (d : Dialog) (n : String) : Dialog := { d with args := d.args ++ [n] }

/-- The button to add an argument (/repo/gui/eventdialog.cpp 109-137): the text is what the validator lets one type. -/
def addArg (depth : Nat) (s : State) (d : Dialog) (n : String) : Option Dialog :=
  if n = "" ∨ !typable n ∨ n ∈ d.args ∨ n = d.name then some d
  else
    match d.event, s.events .gate n with
    | some e, some g => (checkCycle s e depth g).map fun r => if r then d else d.withArg n
    | _, _ => some (d.withArg n)

/-- One input; nothing if the check for cycles does not end within the depth. The list of types hides the gate if an existing event is in
no fault tree (/repo/gui/eventdialog.cpp 262-267) and the other types for root gates (lines 301-309); the name of the fault tree is fixed for existing
events (lines 84-86). Left out: the range of the min number. -/
def Dialog.step (depth : Nat) (s : State) (d : Dialog) : Input → Option Dialog
  | .name n => some { d with name := n }
  | .label l => some { d with label := l }
  | .type t => some (if (t = .gate ∧ d.event ≠ none ∧ d.tree = "") ∨ (t ≠ .gate ∧ d.isTop = true) then d else { d with type := t })
  | .state b => some { d with state := b }
  | .expression x => some { d with expression := x }
  | .connective c => some { d with connective := c }
  | .min n => some { d with min := n }
  | .addArg n => addArg depth s d n
  | .removeArg i => some { d with args := d.args.eraseIdx i }
  | .tree n => some (if d.event = none then { d with tree := n } else d)

/-- All inputs. -/
def Dialog.inputs (depth : Nat) (s : State) (d : Dialog) : List Input → Option Dialog
  | [] => some d
  | i :: is => (d.step depth s i).bind fun d => d.inputs depth s is

/-- The number of arguments of the connective (/repo/gui/eventdialog.cpp 378-426). The list of connectives has no others. -/
def arityOk (d : Dialog) : Bool :=
  match d.connective with
  | .not | .null => d.args.length = 1
  | .and | .or | .nand | .nor => 2 ≤ d.args.length
  | .xor => d.args.length = 2
  | .atleast => d.min < d.args.length
  | _ => false

/-- `EventDialog::validate` (/repo/gui/eventdialog.cpp 339-446); expressions that are typed in are valid. -/
def validate (s : State) (d : Dialog) : Bool :=
  acceptable d.name && (d.name = d.initName || (getEvent s d.name).isNone) &&
    (d.type ≠ .gate || (d.name ∉ d.args && arityOk d)) &&
    (!(d.event.isNone && d.type = .gate) || (acceptable d.tree && (s.trees d.tree).isNone))

/-- `MainWindow::getFaultTree(dialog)` (/repo/gui/mainwindow.cpp 1225-1232). -/
def dialogTree (s : State) (d : Dialog) : Option Addr := if d.tree = "" then none else s.trees d.tree

/-- The event for an argument (/repo/gui/mainwindow.cpp 1117-1130); `fresh` has the new events. -/
def argAddr (s : State) (fresh : String → Addr) (n : String) : Addr := (getEvent s n).getD (fresh n)

/-- The new basic event for an undefined argument. -/
def argObject (n : String) : Ev := ⟨n, "", [⟨"flavor", "undeveloped", ""⟩], .basic none⟩

/-- The commands that add the undefined arguments. -/
def argCommands (s : State) (d : Dialog) (fresh : String → Addr) : List Cmd :=
  (d.args.filter fun n => (getEvent s n).isNone).map fun n => .addEvent (fresh n) none true

/-- The formula of the dialog (/repo/gui/mainwindow.cpp 1132-1144). The lambda for the min number has no `return` in the case of at-least: the constructor
gets no number. -/
def extractFormula (s : State) (d : Dialog) (fresh : String → Addr) : Option Fml :=
  match Mef.validateConnective d.connective (Mef.stored none) (Mef.stored none) d.args.length none none with
  | .ok _ => some ⟨d.connective, Mef.stored none, d.args.map fun n => (false, argAddr s fresh n)⟩
  | .error _ => none

/-- `extract` of the events (/repo/gui/mainwindow.cpp 1146-1188). -/
def extractEvent (d : Dialog) (f : Fml) : Ev :=
  match d.type with
  | .house => ⟨d.name, d.label, [], .house d.state⟩
  | .basic => ⟨d.name, d.label, [], .basic d.expression⟩
  | .undeveloped => ⟨d.name, d.label, [⟨"flavor", "undeveloped", ""⟩], .basic d.expression⟩
  | .gate => ⟨d.name, d.label, [], .gate f⟩

/-- The proxy of a basic event takes its flavor from the attributes (/repo/gui/model.cpp 45-58). -/
def flavorOf (l : List Attr) : Flavor :=
  if l.any fun x => x.name = "flavor" ∧ x.value = "undeveloped" then .undeveloped else .basic

/-- The type that the dialog shows for a flavor (/repo/gui/mainwindow.cpp 1304-1312). -/
def Flavor.type : Flavor → EvType
  | .basic => .basic
  | .undeveloped => .undeveloped

/-- `MainWindow::addElement` with an accepted dialog (/repo/gui/mainwindow.cpp 1190-1223): the entry for the undo stack. -/
def addElement (s : State) (d : Dialog) (fresh : String → Addr) (main tree : Addr) : Option Entry :=
  if d.type = .gate then
    (extractFormula s d fresh).map fun _ => .addTree tree true :: (argCommands s d fresh ++ [.addEvent main (some tree) true])
  else some [.addEvent main none true]

/-- `editElement<T>` (/repo/gui/mainwindow.cpp 1234-1245). -/
def editName (s : State) (d : Dialog) (e : Addr) : List Cmd :=
  (if d.name ≠ (s.heap e).name then [.setId e d.name (dialogTree s d)] else []) ++
    if d.label ≠ (s.heap e).label then [.setLabel e d.label] else []

/-- `formulaChanged` (/repo/gui/mainwindow.cpp 1375-1391). -/
def formulaChanged (s : State) (d : Dialog) (f : Fml) : Bool :=
  d.connective ≠ f.connective || (f.connective = .atleast && d.min ≠ f.min) || d.args ≠ f.args.map fun x => (s.heap x.2).name

/-- The change of type, with the new event (/repo/gui/mainwindow.cpp 1251-1267, 1327-1343, 1354-1369). -/
def editType (s : State) (d : Dialog) (e : Addr) (fresh : String → Addr) (main : Addr) (parents : List Addr) : Option (List Cmd) :=
  if d.type = .gate then
    (extractFormula s d fresh).map fun _ => argCommands s d fresh ++ [.changeType e main (dialogTree s d) parents true false]
  else some [.changeType e main (dialogTree s d) parents true false]

/-- `MainWindow::editElement` after the name and the label (/repo/gui/mainwindow.cpp 1247-1395). -/
def editBody (s : State) (d : Dialog) (e : Addr) (fresh : String → Addr) (main : Addr) (parents : List Addr) : Option (List Cmd) :=
  match (s.heap e).body with
  | .basic x =>
    if d.type = .basic ∨ d.type = .undeveloped then
      some ((if d.expression ≠ x then [.setExpression e d.expression] else []) ++
        if d.type ≠ (s.flavor e).type then [.setFlavor e (if d.type = .basic then .basic else .undeveloped)] else [])
    else editType s d e fresh main parents
  | .house b =>
    if d.type = .house then some (if d.state ≠ b then [.setState e d.state] else [])
    else editType s d e fresh main parents
  | .gate f =>
    if d.type = .gate then
      if formulaChanged s d f then (extractFormula s d fresh).map fun f => argCommands s d fresh ++ [.setFormula e f] else some []
    else editType s d e fresh main parents

/-- The commands, one after the other. -/
def applyAll (s : State) : List Cmd → Option State
  | [] => some s
  | c :: cs => (redo s c).bind fun r => applyAll r.2 cs

/-- `MainWindow::editElement` with an accepted dialog: each command is an entry of the undo stack. -/
def editElement (s : State) (d : Dialog) (e : Addr) (fresh : String → Addr) (main : Addr) (parents : List Addr) : Option (List Cmd) :=
  (applyAll s (editName s d e)).bind fun s' => (editBody s' d e fresh main parents).map fun l => editName s d e ++ l

/-- The fault tree in which `EventDialog::getFaultTree` finds the gate (/repo/gui/eventdialog.cpp 236-247). -/
def FoundTree (s : State) (g t : Addr) : Prop := s.hasTree t ∧ ((s.treeHeap t).table .gate (s.heap g).name).isSome = true

/-- The top event of the fault tree, as collected when the fault tree came in (`top_events().front()`). -/
abbrev TopOf := Addr → Addr

/-- The expression as the fields of the dialog have it (/repo/gui/eventdialog.cpp 279-289): `digits` is the number that the text of `QString::number`
stands for, which has six significant digits. -/
def Expr.asText (digits : Rat → Rat) : Expr → Expr
  | .constant v => .constant (digits v)
  | .exponential v => .exponential (digits v)

/-- `EventDialog::setupData` for an existing event (/repo/gui/eventdialog.cpp 220-322). For events that are not gates the fault tree is that of a parent
gate, if there is one; which one comes first is left open. -/
structure IsSetup (digits : Rat → Rat) (top : TopOf) (s : State) (e : Addr) (d : Dialog) : Prop where
  event : d.event = some e
  initName : d.initName = (s.heap e).name
  name : d.name = (s.heap e).name
  label : d.label = (s.heap e).label
  tree : (∃ g t, (s.kind e = .gate → g = e) ∧ (s.kind e ≠ .gate → s.shown .gate g = true ∧ ∃ x ∈ (s.heap g).args, x.2 = e) ∧
    FoundTree s g t ∧ d.tree = (s.treeHeap t).name) ∨
    (d.tree = "" ∧ s.kind e ≠ .gate ∧ ∀ g, s.shown .gate g = true → ∀ x ∈ (s.heap g).args, x.2 ≠ e)
  isTop : d.isTop = true ↔ s.kind e = .gate ∧ ∃ t, FoundTree s e t ∧ top t = e
  body : match (s.heap e).body with
    | .house b => d.type = .house ∧ d.state = b ∧ d.args = []
    | .basic x => d.type = (s.flavor e).type ∧ d.expression = x.map (Expr.asText digits) ∧ d.args = []
    | .gate f => d.type = .gate ∧ d.connective = f.connective ∧ (f.connective = .atleast → d.min = f.min) ∧
      d.args = f.args.map fun x => (s.heap x.2).name

/-- `removeEvent` of the main window with its check for parents (/repo/gui/mainwindow.cpp 994-1032, 1069-1092): the entry, if the event is removed.
`others` tells that the fault tree has more than one gate. -/
def removeElement (s : State) (top : TopOf) (e : Addr) (parents : List Addr) (ft : Option Addr) (others : Bool) : Option Entry :=
  if parents ≠ [] then none
  else
    match s.kind e, ft with
    | .gate, some t =>
      if top t ≠ e then some [.removeEvent e ft false]
      else if others then none
      else some [.removeEvent e ft false, .removeTree t false]
    | .gate, none => none
    | _, _ => some [.removeEvent e ft false]

end Scram.Editor
