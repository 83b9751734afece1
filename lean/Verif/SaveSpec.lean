import Verif.Save
/-!
# Specification: models that can be saved, and what is loaded
-/
namespace Scram.Save
open Scram.Xml Scram.Report
open Scram.Ids (Str)
open Scram.Mef (Connective Kind)

/-! ## The schema (share/input.rng)

Only the part that saved files use.  Every tree that conforms here conforms to the schema. -/

def inRanges (c : Char) (l : List (Nat × Nat)) : Prop := ∃ r ∈ l, r.1 ≤ c.toNat ∧ c.toNat ≤ r.2

/-- The start characters of an `NCName` (XML 1.0, 2.3, without the colon). -/
def NameStart (c : Char) : Prop :=
  inRanges c [(0x41, 0x5A), (0x5F, 0x5F), (0x61, 0x7A), (0xC0, 0xD6), (0xD8, 0xF6), (0xF8, 0x2FF),
    (0x370, 0x37D), (0x37F, 0x1FFF), (0x200C, 0x200D), (0x2070, 0x218F), (0x2C00, 0x2FEF),
    (0x3001, 0xD7FF), (0xF900, 0xFDCF), (0xFDF0, 0xFFFD), (0x10000, 0xEFFFF)]

/-- The characters of an `NCName`. -/
def NameRest (c : Char) : Prop :=
  NameStart c ∨ inRanges c [(0x2D, 0x2D), (0x2E, 0x2E), (0x30, 0x39), (0xB7, 0xB7), (0x300, 0x36F), (0x203F, 0x2040)]

/-- `Identifier` (input.rng 40–44): an `NCName` without dots, and with dashes only single and inside. -/
structure Identifier (s : Str) : Prop where
  start : ∃ c r, s = c :: r ∧ NameStart c
  rest : ∀ c ∈ s, NameRest c
  dots : '.' ∉ s
  dash_end : s.getLast? ≠ some '-'
  dash_twice : ¬ ['-', '-'] <:+: s

/-- The attributes of an element: all the required ones, and no others than the listed. -/
def HasAttributes (as : List (Str × Str)) (required optional : List (String × (Str → Prop))) : Prop :=
  (as.map (·.1)).Nodup ∧ (∀ r ∈ required, ∃ a ∈ as, a.1 = r.1.toList) ∧
    ∀ a ∈ as, ∃ r ∈ required ++ optional, a.1 = r.1.toList ∧ r.2 a.2

/-- `NonEmptyString` (input.rng 58–62): no line feeds, tabs or carriage returns. -/
def NonEmpty (s : Str) : Prop := s ≠ [] ∧ '\n' ∉ s ∧ '\t' ∉ s ∧ '\r' ∉ s

/-- `label` (input.rng 64–66) -/
def LabelOk : Tree → Prop
  | .mk n as x ts => n = "label".toList ∧ as = [] ∧ NonEmpty x ∧ ts = []

/-- An `attribute` (input.rng 71–77) -/
def AttributeOk : Tree → Prop
  | .mk n as x ts => n = "attribute".toList ∧ x = [] ∧ ts = [] ∧
    HasAttributes as [("name", Identifier), ("value", NonEmpty)] [("type", NonEmpty)]

/-- `attributes` (input.rng 68–80) -/
def AttributesOk : Tree → Prop
  | .mk n as x ts => n = "attributes".toList ∧ as = [] ∧ x = [] ∧ ∀ t ∈ ts, AttributeOk t

/-- An optional label, optional attributes, and the rest. -/
def Described (ts rest : List Tree) : Prop :=
  ∃ l a, ts = l ++ a ++ rest ∧ (l = [] ∨ ∃ t, l = [t] ∧ LabelOk t) ∧ (a = [] ∨ ∃ t, a = [t] ∧ AttributesOk t)

/-- An expression (input.rng 780–873, 1064–1069). -/
inductive ExpressionOk (lexical : Str → Prop) : Tree → Prop
  | float {as} : HasAttributes as [("value", lexical)] [] → ExpressionOk lexical (.mk "float".toList as [] [])
  | exponential {a b} : ExpressionOk lexical a → ExpressionOk lexical b →
      ExpressionOk lexical (.mk "exponential".toList [] [] [a, b])

def IsBool (s : Str) : Prop := s = "true".toList ∨ s = "false".toList ∨ s = "1".toList ∨ s = "0".toList

/-- `Boolean-constant` -/
def ConstantOk : Tree → Prop
  | .mk n as x ts => n = "constant".toList ∧ x = [] ∧ ts = [] ∧ HasAttributes as [("value", IsBool)] []

/-- `event` with a reference without path -/
def EventOk : Tree → Prop
  | .mk n as x ts => n = "event".toList ∧ x = [] ∧ ts = [] ∧ HasAttributes as [("name", Identifier)] []

/-- `argument` (input.rng 664–672) -/
def ArgumentOk (t : Tree) : Prop :=
  EventOk t ∨ (∃ e, t = .mk "not".toList [] [] [e] ∧ EventOk e) ∨ ConstantOk t

def Digits (s : Str) : Prop := s ≠ [] ∧ ∀ c ∈ s, c.isDigit = true

/-- `formula` (input.rng 612–662) -/
def FormulaOk (t : Tree) : Prop :=
  ArgumentOk t ∨
  (∃ n ts, n ∈ ["and", "or", "nand", "nor"] ∧ t = .mk n.toList [] [] ts ∧ ts ≠ [] ∧ ∀ a ∈ ts, ArgumentOk a) ∨
  (∃ a b, t = .mk "xor".toList [] [] [a, b] ∧ ArgumentOk a ∧ ArgumentOk b) ∨
  (∃ as ts, t = .mk "atleast".toList as [] ts ∧ HasAttributes as [("min", Digits)] [] ∧ ts ≠ [] ∧
    ∀ a ∈ ts, ArgumentOk a)

/-- `gate-definition` -/
def GateOk : Tree → Prop
  | .mk n as x ts => n = "define-gate".toList ∧ x = [] ∧ HasAttributes as [("name", Identifier)] [] ∧
    ∃ f, Described ts [f] ∧ FormulaOk f

/-- `house-event-definition` -/
def HouseOk : Tree → Prop
  | .mk n as x ts => n = "define-house-event".toList ∧ x = [] ∧ HasAttributes as [("name", Identifier)] [] ∧
    ∃ c, Described ts [c] ∧ ConstantOk c

/-- `basic-event-definition` -/
def BasicOk (lexical : Str → Prop) : Tree → Prop
  | .mk n as x ts => n = "define-basic-event".toList ∧ x = [] ∧ HasAttributes as [("name", Identifier)] [] ∧
    (Described ts [] ∨ ∃ e, Described ts [e] ∧ ExpressionOk lexical e)

/-- `fault-tree-definition` with gates only -/
def FaultTreeOk : Tree → Prop
  | .mk n as x ts => n = "define-fault-tree".toList ∧ x = [] ∧ HasAttributes as [("name", Identifier)] [] ∧
    ∃ gs, Described ts gs ∧ ∀ g ∈ gs, GateOk g

/-- `model-data` -/
def DataOk (lexical : Str → Prop) : Tree → Prop
  | .mk n as x ts => n = "model-data".toList ∧ as = [] ∧ x = [] ∧ ∀ t ∈ ts, BasicOk lexical t ∨ HouseOk t

/-- The root element (input.rng 12–38) -/
def SchemaOk (lexical : Str → Prop) : Tree → Prop
  | .mk n as x ts => n = "opsa-mef".toList ∧ x = [] ∧ HasAttributes as [] [("name", Identifier)] ∧
    ∃ cs, Described ts cs ∧ ∀ c ∈ cs, FaultTreeOk c ∨ DataOk lexical c

/-! ## Models that can be saved -/

/-- Text without spaces around. -/
def Trimmed (s : Str) : Prop := s.head? ≠ some ' ' ∧ s.getLast? ≠ some ' '

/-- Names are identifiers; labels and values are one-line texts without control characters or spaces
around them; labels are without `]]>`. -/
structure Head.Ok (h : Head) : Prop where
  name : Identifier h.name
  label : Trimmed h.label ∧ Line h.label ∧ ¬ "]]>".toList <:+: h.label
  attributes : ∀ a ∈ h.attributes, Identifier a.name ∧ (a.value ≠ [] ∧ Trimmed a.value ∧ Line a.value) ∧
    Trimmed a.type ∧ Line a.type
  distinct : (h.attributes.map (·.name)).Nodup

/-- The supported expressions. -/
inductive Expr.Ok {K : Type} : Expr K → Prop
  | const (x : K) : Expr.Ok (.const x)
  | exponential {a b : Expr K} : Expr.Ok a → Expr.Ok b → Expr.Ok (.exponential a b)

variable {K : Type}

/-- The gates with the names of their fault trees. -/
def Model.gates (m : Model K) : List (Str × Gate) :=
  m.trees.flatMap fun t => t.gates.map fun g => (t.head.name, g)

/-- The names of all events. -/
def Model.eventNames (m : Model K) : List Str :=
  m.gates.map (·.2.head.name) ++ m.basics.map (·.head.name) ++ m.houses.map (·.head.name)

/-- The model has this event. -/
def Model.Has (m : Model K) : Kind → Str → Prop
  | .gate, n => n ∈ m.gates.map (·.2.head.name)
  | .basic, n => n ∈ m.basics.map (·.head.name)
  | .house, n => n ∈ m.houses.map (·.head.name)
  | _, _ => False

/-- Formulas come from the constructor, have no literal constants, and refer to events of the model.
`iff`, `imply` and `cardinality` are not supported. -/
structure Formula.Ok (m : Model K) (f : Formula) : Prop where
  made : ∃ min max, construct f.connective f.args min max = some f
  supported : f.connective ≠ .iff ∧ f.connective ≠ .imply ∧ f.connective ≠ .cardinality
  events : ∀ a ∈ f.args, m.Has a.kind a.name

structure Model.Savable (m : Model K) : Prop where
  head : m.head.Ok
  trees : ∀ t ∈ m.trees, t.head.Ok
  treeNames : (m.trees.map (·.head.name)).Nodup
  gates : ∀ g ∈ m.gates, g.2.head.Ok ∧ g.2.priv = false ∧ g.2.formula.Ok m
  basics : ∀ b ∈ m.basics, b.head.Ok ∧ b.priv = false ∧ ∀ e ∈ b.expression, e.Ok
  houses : ∀ h ∈ m.houses, h.head.Ok ∧ h.priv = false
  names : m.eventNames.Nodup
  constructs : m.asserted = 0 ∧ m.ignored = 0

/-! ## The loaded model -/

/-- Every number rounded. -/
def Expr.rounded (round : K → K) : Expr K → Expr K
  | .const x => .const (round x)
  | .exponential a b => .exponential (a.rounded round) (b.rounded round)
  | .other n => .other n

/-- The model itself with numbers rounded; basic events and house events are now defined outside of the fault
trees. -/
def Model.reloaded (round : K → K) (m : Model K) : Model K :=
  { m with
    basics := m.basics.map fun b => { b with base := [], expression := b.expression.map (·.rounded round) }
    houses := m.houses.map fun h => { h with base := [] } }

end Scram.Save
