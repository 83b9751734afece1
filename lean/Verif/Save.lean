import Verif.ReportSane
import Verif.Formula
import Verif.Ids
/-!
# Saving models and loading them

Model of `mef::Serialize` (src/serialization.cc), as the list of calls it makes on the XML stream, and
of the part of `Initializer` (src/initializer.cc) that reads what it writes: the constructors of
elements, the registration of definitions (`Ids`), and the definitions of formulas and expressions.

Doubles are values of an arbitrary type with their printing and reading (`Numbers`).
Loading is modelled for the elements that `Serialize` writes (and fault trees with definitions of basic
events and house events); on other elements `load` gives `none`.  The validations after loading
(cycles, probability ranges) are functions of the loaded model and not modelled here.
-/
namespace Scram.Save
open Scram.Xml Scram.Report
open Scram.Ids (Str)
open Scram.Mef (Connective Kind)

/-! ## Models -/

/-- `mef::Attribute` (src/element.h). -/
structure Attribute where
  name : Str
  value : Str
  type : Str

/-- The data of `mef::Element` (src/element.h): name, label, and attributes in order of insertion. -/
structure Head where
  name : Str
  label : Str
  attributes : List Attribute

/-- Expressions: constants, exponentials, and any other (here only numbered). -/
inductive Expr (K : Type)
  | const (x : K)
  | exponential (rate time : Expr K)
  | other (tag : Nat)

/-- `Formula::Arg` (src/event.h): the kind of the event and its name. -/
structure Arg where
  complement : Bool
  kind : Kind
  name : Str

/-- `mef::Formula`; `min` and `max` are `min_number()` and `max_number()` (src/event.cc 92–104). -/
structure Formula where
  connective : Connective
  min : Option Nat
  max : Option Nat
  args : List Arg

structure Gate where
  head : Head
  priv : Bool
  formula : Formula

/-- A fault tree; its gates have the name of the fault tree as base path (no components). -/
structure FaultTree where
  head : Head
  gates : List Gate

structure Basic (K : Type) where
  head : Head
  base : Str
  priv : Bool
  expression : Option (Expr K)

structure House where
  head : Head
  base : Str
  priv : Bool
  state : Bool

/-- `mef::Model`: its tables, in their order of iteration when saved and in the order of definition when
loaded (the tables are hash tables keyed by name, src/element.h 252–256, 363–367: their order carries no
data).  `asserted` counts the CCF groups, parameters,
initiating events, event trees, sequences and rules, `ignored` the alignments, substitutions, extern
libraries and extern functions. -/
structure Model (K : Type) where
  head : Head
  trees : List FaultTree
  basics : List (Basic K)
  houses : List House
  asserted : Nat
  ignored : Nat

/-- `Model::kDefaultName` (src/model.h 58). -/
def defaultName : Str := "__unnamed-model__".toList

/-- Printing of doubles by the stream (`printf("%g")`, src/xml_stream.h) and reading by `detail::to<double>`
(src/xml.h 84–94).  `round` is what remains of a number; `lexical` are the texts of the schema type
`double`. -/
structure Numbers (K : Type) where
  print : K → Shown
  read : Str → Option K
  round : K → K
  lexical : Str → Prop
  read_print : ∀ x, read (print x).1 = some (round x)
  print_lexical : ∀ x, lexical (print x).1
  print_text : ∀ x, (print x).1 ≠ [] ∧ ∀ c ∈ (print x).1, '!' ≤ c ∧ c ≤ '~'

/-! ## Saving

`ndebug` is whether assertions are compiled out; a failed assertion gives `none`.  So does the switch on
connectives without a matching case: control reaches the end of a function without a result. -/

/-- `assert` -/
def check (ndebug : Bool) (condition : Bool) : Option Unit := if ndebug || condition then some () else none

/-- The attribute loop of `SerializeLabelAndAttributes` (serialization.cc 62–69). -/
def saveAttribute (a : Attribute) : List Call :=
  [child "attribute", attr "name" (.str a.name), attr "value" (.str a.value)] ++
  (if a.type.isEmpty = false then [attr "type" (.str a.type)] else []) ++ [.close]

/-- `SerializeLabelAndAttributes` (serialization.cc 55–71). -/
def saveLabelAndAttributes (h : Head) : List Call :=
  (if h.label.isEmpty = false then [child "label", .text 0 (.str h.label), .close] else []) ++
  (if h.attributes.isEmpty = false then
    [child "attributes"] ++ h.attributes.flatMap saveAttribute ++ [.close]
  else [])

/-- `SerializeElement` (serialization.cc 73–76). -/
def saveElement (h : Head) : List Call := attr "name" (.str h.name) :: saveLabelAndAttributes h

/-- `stream_event` (serialization.cc 79–83). -/
def saveEvent (a : Arg) : List Call := [child "event", attr "name" (.str a.name), .close]

/-- `stream_arg` (serialization.cc 84–92). -/
def saveArg (a : Arg) : List Call :=
  if a.complement then [child "not"] ++ saveEvent a ++ [.close] else saveEvent a

/-- The names of the supported connectives (serialization.cc 99–122). -/
def connectiveName : Connective → Option String
  | .not => some "not"
  | .and => some "and"
  | .or => some "or"
  | .nand => some "nand"
  | .nor => some "nor"
  | .xor => some "xor"
  | .atleast => some "atleast"
  | _ => none

/-- `formula.args().front().complement == false` -/
def frontPlain : List Arg → Bool
  | a :: _ => !a.complement
  | [] => false

/-- The `min` attribute (serialization.cc 113–118). -/
def saveMin (f : Formula) : Option (List Call) :=
  if f.connective = .atleast then
    match f.min with
    | some m => some [attr "min" (.int m)]
    | none => none
  else some []

/-- `Serialize(const Formula&, ...)` (serialization.cc 78–126). -/
def saveFormula (ndebug : Bool) (f : Formula) : Option (List Call) :=
  if f.connective = .null then do
    check ndebug (f.args.length = 1)
    match f.args with
    | [] => none
    | a :: _ =>
      check ndebug (!a.complement)
      return saveEvent a
  else do
    check ndebug (f.connective ≠ .not || frontPlain f.args)
    let n ← connectiveName f.connective
    let min ← saveMin f
    return [child n] ++ min ++ f.args.flatMap saveArg ++ [.close]

/-- `Serialize(const Gate&, ...)` (serialization.cc 128–133). -/
def saveGate (ndebug : Bool) (g : Gate) : Option (List Call) := do
  check ndebug (!g.priv)
  let f ← saveFormula ndebug g.formula
  return [child "define-gate"] ++ saveElement g.head ++ f ++ [.close]

/-- Concatenates the calls for the elements of a container. -/
def saveAll {α : Type*} (f : α → Option (List Call)) : List α → Option (List Call)
  | [] => some []
  | a :: l => do
    let c ← f a
    let cs ← saveAll f l
    return c ++ cs

/-- `Serialize(const FaultTree&, ...)` (serialization.cc 135–142). -/
def saveFaultTree (ndebug : Bool) (t : FaultTree) : Option (List Call) := do
  let gates ← saveAll (saveGate ndebug) t.gates
  return [child "define-fault-tree"] ++ saveElement t.head ++ gates ++ [.close]

variable {K : Type}

/-- `Serialize(const Expression&, ...)` (serialization.cc 144–160). -/
def saveExpression (N : Numbers K) (ndebug : Bool) : Expr K → Option (List Call)
  | .const x => some [child "float", attr "value" (.double (N.print x)), .close]
  | .exponential a b => do
    let a ← saveExpression N ndebug a
    let b ← saveExpression N ndebug b
    return [child "exponential"] ++ (a ++ b) ++ [.close]
  | .other _ => do
    check ndebug false
    return []

/-- `Serialize(const BasicEvent&, ...)` (serialization.cc 162–168). -/
def saveBasic (N : Numbers K) (ndebug : Bool) (b : Basic K) : Option (List Call) := do
  check ndebug (!b.priv)
  let e ← match b.expression with
    | none => some []
    | some e => saveExpression N ndebug e
  return [child "define-basic-event"] ++ saveElement b.head ++ e ++ [.close]

/-- `Serialize(const HouseEvent&, ...)` (serialization.cc 170–178). -/
def saveHouse (ndebug : Bool) (h : House) : Option (List Call) := do
  check ndebug (!h.priv)
  return [child "define-house-event"] ++ saveElement h.head ++
    [child "constant", attr "value" (.str (if h.state then "true" else "false").toList), .close] ++ [.close]

/-- `Serialize(const Model&, std::FILE*)` (serialization.cc 182–204). -/
def save (N : Numbers K) (ndebug : Bool) (m : Model K) : Option (List Call) := do
  check ndebug (m.asserted = 0)
  let trees ← saveAll (saveFaultTree ndebug) m.trees
  let basics ← saveAll (saveBasic N ndebug) m.basics
  let houses ← saveAll (saveHouse ndebug) m.houses
  return [Call.root "opsa-mef".toList] ++
    (if m.head.name = defaultName then [] else [attr "name" (.str m.head.name)]) ++
    saveLabelAndAttributes m.head ++ trees ++
    ([child "model-data"] ++ (basics ++ houses) ++ [.close]) ++ [.close]

/-! ## Reading XML elements (src/xml.h) -/

def name : Tree → Str
  | .mk n _ _ _ => n
def children : Tree → List Tree
  | .mk _ _ _ ts => ts

/-- `detail::trim` (xml.h 136–146). -/
def trim (s : Str) : Str := ((s.dropWhile (· = ' ')).reverse.dropWhile (· = ' ')).reverse

/-- `Element::has_attribute` (xml.h 272–274). -/
def hasAttribute (t : Tree) (n : String) : Bool :=
  match t with
  | .mk _ as _ _ => as.any fun a => a.1 = n.toList

/-- `Element::attribute(name)` (xml.h 286–295): the trimmed value, empty if there is no such attribute. -/
def get (t : Tree) (n : String) : Str :=
  match t with
  | .mk _ as _ _ =>
    match as.find? fun a => a.1 = n.toList with
    | none => []
    | some a => trim a.2

/-- `Element::text` (xml.h 324–331). -/
def text : Tree → Str
  | .mk _ _ x _ => trim x

/-- `Element::child(name)`: the first child element with the name. -/
def childNamed (t : Tree) (n : String) : Option Tree := (children t).find? fun c => name c = n.toList

/-- `detail::to<int>` (xml.h 70–82): an optional sign and digits, within the range of `int`.  (Leading
white space, which `strtoll` skips, is not modelled: values are trimmed.) -/
def readInt (s : Str) : Option Int :=
  let number (neg : Bool) (d : Str) : Option Int :=
    if d ≠ [] ∧ d.all Char.isDigit then
      let v : Int := if neg then -(Nat.ofDigitChars 10 d 0 : Int) else (Nat.ofDigitChars 10 d 0 : Int)
      if v > 2147483647 ∨ v < -2147483648 then none else some v
    else none
  match s with
  | '-' :: d => number true d
  | '+' :: d => number false d
  | d => number false d

/-- `detail::to<bool>` (xml.h 96–106). -/
def readBool (s : Str) : Option Bool :=
  if s = "true".toList ∨ s = "1".toList then some true
  else if s = "false".toList ∨ s = "0".toList then some false
  else none

/-- `attribute<int>(name)` (xml.h 307–322): the outer `none` is an error, the inner one an absent value. -/
def intAttribute (t : Tree) (n : String) : Option (Option Int) :=
  if get t n = [] then some none else (readInt (get t n)).map some

/-! ## Loading -/

/-- `Element::AddAttribute` (src/element.cc 35–41) over the children of `attributes`
(initializer.cc 90–102): names are distinct. -/
def loadAttributes : List Tree → List Attribute → Option (List Attribute)
  | [], as => some as
  | t :: ts, as =>
    let a : Attribute := ⟨get t "name", get t "value", get t "type"⟩
    if as.any fun b => b.name = a.name then none else loadAttributes ts (as ++ [a])

/-- The label (initializer.cc 84–87). -/
def labelOf (t : Tree) : Str :=
  match childNamed t "label" with
  | none => []
  | some l => text l

/-- The attributes (initializer.cc 89–102). -/
def attributesOf (t : Tree) : Option (List Attribute) :=
  match childNamed t "attributes" with
  | none => some []
  | some a => loadAttributes (children a) []

/-- `AttachLabelAndAttributes` (initializer.cc 82–103) for an element with the given name. -/
def loadHead (n : Str) (t : Tree) : Option Head := do
  let attributes ← attributesOf t
  return ⟨n, labelOf t, attributes⟩

/-- The element has this name. -/
def called (n : String) (t : Tree) : Bool := name t = n.toList

/-- `GetNonAttributeElements` (initializer.cc 131–137): the elements that are neither labels nor attributes. -/
def bodyOf (t : Tree) : List Tree := (children t).filter fun c => !(called "label" c || called "attributes" c)

/-- The role attribute (initializer.cc 57–71): `none` is the role of the parent. -/
def loadRole (t : Tree) : Option Bool :=
  if get t "role" = [] then none else some (get t "role" ≠ "public".toList)

def kindOf : Ids.Kind → Option Kind
  | .gate => some .gate
  | .basic => some .basic
  | .house => some .house
  | _ => none

/-- The type of an event reference (initializer.cc 725–729). -/
def typeOf (t : Tree) : Str := if get t "type" = [] then name t else get t "type"

/-- The referenced event (initializer.cc 735–749). -/
def lookup (s : Ids.St) (base : Str) (type n : Str) : Option Ids.Elem :=
  if type = "event".toList then Ids.getEvent s n base
  else if type = "gate".toList then Ids.getEntity s .gate n base
  else if type = "basic-event".toList then Ids.getEntity s .basic n base
  else Ids.getEntity s .house n base

/-- `add_event` (initializer.cc 722–752). -/
def loadEvent (s : Ids.St) (base : Str) (t : Tree) (complement : Bool) : Option Arg := do
  let e ← lookup s base (typeOf t) (get t "name")
  let k ← kindOf e.kind
  return ⟨complement, k, e.id⟩

/-- `add_arg` (initializer.cc 754–770). -/
def loadArg (s : Ids.St) (base : Str) (t : Tree) : Option Arg :=
  if name t = "constant".toList then
    (readBool (get t "value")).map fun b =>
      if b then ⟨false, .constTrue, "__true__".toList⟩ else ⟨false, .constFalse, "__false__".toList⟩
  else if name t = "not".toList then
    match children t with
    | c :: _ => loadEvent s base c true
    | [] => none
  else loadEvent s base t false

/-- `kConnectiveToString` (src/event.h) read backwards. -/
def connectiveOf (n : Str) : Option Connective :=
  if n = "and".toList then some .and
  else if n = "or".toList then some .or
  else if n = "atleast".toList then some .atleast
  else if n = "xor".toList then some .xor
  else if n = "not".toList then some .not
  else if n = "nand".toList then some .nand
  else if n = "nor".toList then some .nor
  else if n = "null".toList then some .null
  else if n = "iff".toList then some .iff
  else if n = "imply".toList then some .imply
  else if n = "cardinality".toList then some .cardinality
  else none

/-- The argument as the formula constructor (`Formula.construct`) sees it: only the kind and the
identifier matter to it. -/
def Arg.event (a : Arg) : Scram.Mef.Arg := ⟨a.complement, ⟨a.kind, 0, String.ofList a.name⟩⟩

/-- The constructor of formulas (src/event.cc 73–104, `Formula.construct`) with the observers
`min_number()` and `max_number()`. -/
def construct (c : Connective) (args : List Arg) (min max : Option Int) : Option Formula :=
  match Scram.Mef.construct c (args.map Arg.event) min max with
  | .error _ => none
  | .ok f =>
    some ⟨c, if c = .atleast ∨ c = .cardinality then some f.minNumber else none,
      if c = .cardinality then some f.maxNumber else none, args⟩

/-- `mapM` that computes well. -/
def each {α β : Type*} (f : α → Option β) : List α → Option (List β)
  | [] => some []
  | a :: l => do
    let b ← f a
    let bs ← each f l
    return b :: bs

/-- The type of the formula (initializer.cc 710–717). -/
def loadConnective (t : Tree) : Option Connective :=
  if hasAttribute t "name" ∨ name t = "constant".toList then some .null else connectiveOf (name t)

/-- The arguments of the formula (initializer.cc 769–775). -/
def loadArgs (s : Ids.St) (base : Str) (c : Connective) (t : Tree) : Option (List Arg) :=
  if c = .null then (loadArg s base t).map fun a => [a] else each (loadArg s base) (children t)

/-- `GetFormula` (initializer.cc 708–785). -/
def loadFormula (s : Ids.St) (base : Str) (t : Tree) : Option Formula := do
  let c ← loadConnective t
  let args ← loadArgs s base c t
  let min ← intAttribute t "min"
  let max ← intAttribute t "max"
  construct c args min max

/-- `GetExpression` (initializer.cc 1151–1225) for `float` and `exponential`. -/
def loadExpression (N : Numbers K) : Tree → Option (Expr K)
  | .mk n as x ts =>
    if n = "float".toList then (N.read (get (.mk n as x ts) "value")).map .const
    else if n = "exponential".toList then
      match ts with
      | [a, b] => do
        let a ← loadExpression N a
        let b ← loadExpression N b
        return .exponential a b
      | _ => none
    else none

/-- The kinds of definitions in fault trees and model data; `none` for others. -/
def definitionKind (t : Tree) : Option Ids.EKind :=
  if name t = "define-gate".toList then some .gate
  else if name t = "define-basic-event".toList then some .basic
  else if name t = "define-house-event".toList then some .house
  else none

/-- A definition to be registered. -/
def declare (t : Tree) : Option Ids.Decl := do
  let k ← definitionKind t
  return .elem k (get t "name") (loadRole t)

def declares : List Tree → Option Ids.Decls
  | [] => some .nil
  | t :: ts => do
    let d ← declare t
    let ds ← declares ts
    return .cons d ds

/-- A definition in `model-data` (initializer.cc 696–706), where gates are not expected. -/
def datum (t : Tree) : Option Ids.Item :=
  match definitionKind t with
  | some .basic => some (.data .basic (get t "name") (loadRole t))
  | some .house => some (.data .house (get t "name") (loadRole t))
  | _ => none

/-- What `ProcessInputFile` (initializer.cc 351–408) registers for a child of the root. -/
def itemsOf (t : Tree) : Option (List Ids.Item) :=
  if name t = "define-fault-tree".toList then do
    let ds ← declares (bodyOf t)
    return [.tree (get t "name") ds]
  else if name t = "model-data".toList then each datum (children t)
  else none

/-- `Register<Gate>` and `Define<Gate>` (initializer.cc 247–260, 412–420). -/
def loadGate (s : Ids.St) (base : Str) (t : Tree) : Option Gate := do
  let h ← loadHead (get t "name") t
  let f ← (bodyOf t).head?
  let f ← loadFormula s base f
  return ⟨h, (loadRole t).getD false, f⟩

/-- The expression of a basic event (initializer.cc 425–429). -/
def optionalExpression (N : Numbers K) : List Tree → Option (Option (Expr K))
  | e :: _ => (loadExpression N e).map some
  | [] => some none

/-- `Register<BasicEvent>` and `Define<BasicEvent>` (initializer.cc 262–275, 422–437), without
probability analysis (which demands expressions). -/
def loadBasic (N : Numbers K) (base : Str) (t : Tree) : Option (Basic K) := do
  let h ← loadHead (get t "name") t
  let e ← optionalExpression N (bodyOf t)
  return ⟨h, base, (loadRole t).getD false, e⟩

/-- The state of a house event (initializer.cc 289–292); false by default. -/
def stateOf (t : Tree) : Option Bool :=
  match childNamed t "constant" with
  | some c => readBool (get c "value")
  | none => some false

/-- `Register<HouseEvent>` (initializer.cc 277–294). -/
def loadHouse (base : Str) (t : Tree) : Option House := do
  let h ← loadHead (get t "name") t
  let state ← stateOf t
  return ⟨h, base, (loadRole t).getD false, state⟩

/-- `DefineFaultTree` and `RegisterFaultTreeData` (initializer.cc 648–694), the gates. -/
def loadFaultTree (s : Ids.St) (t : Tree) : Option FaultTree := do
  let h ← loadHead (get t "name") t
  let gates ← each (loadGate s (get t "name"))
    ((bodyOf t).filter (called "define-gate"))
  return ⟨h, gates⟩

/-- The definitions with their base paths. -/
def placed (t : Tree) : List (Str × Tree) :=
  if name t = "define-fault-tree".toList then (bodyOf t).map fun c => (get t "name", c)
  else (children t).map fun c => ([], c)

/-- The constructor of the model (src/model.cc 29–33, src/element.cc 26–33). -/
def modelName (t : Tree) : Option Str :=
  let n := if get t "name" = [] then defaultName else get t "name"
  if n.contains '.' then none else some n

/-- `Initializer::ProcessInputFile` (initializer.cc 351–408) on a single file followed by the
definitions of the registered elements (initializer.cc 218–236).  Registration and definition are the
passes of the code; the data of elements (labels etc.), which the code reads upon registration, is read
here in the second pass. -/
def load (N : Numbers K) (t : Tree) : Option (Model K) := do
  let n ← modelName t
  let h ← loadHead n t
  let items ← each itemsOf (bodyOf t)
  let s ← Ids.load items.flatten
  let trees ← each (loadFaultTree s) ((bodyOf t).filter (called "define-fault-tree"))
  let basics ← each (fun d => loadBasic N d.1 d.2)
    (((bodyOf t).flatMap placed).filter fun d => called "define-basic-event" d.2)
  let houses ← each (fun d => loadHouse d.1 d.2)
    (((bodyOf t).flatMap placed).filter fun d => called "define-house-event" d.2)
  return ⟨h, trees, basics, houses, 0, 0⟩

end Scram.Save
