import Verif.XmlStream
/-!
# Specification: XML documents and the document a history of calls describes

The first part is a grammar of XML (a subset of the productions of the W3C recommendation: elements,
attributes, character data, the predefined entities), which relates a text to the element tree it
denotes.  It does not mention the writer.  The second part says, again without the writer, which
document a history of calls describes and which calls are in order.
-/
namespace Scram.Xml

/-- An XML element: its name, its attributes in order, its character data, its child elements. -/
inductive Tree
  | mk (name : List Char) (attributes : List (List Char × List Char)) (text : List Char)
      (children : List Tree)

/-! ## The grammar -/

/-- Characters of names (the ASCII part of production 4a). -/
def NameChar (c : Char) : Prop := c.isAlphanum ∨ c ∈ ['-', '_', '.', ':']

/-- Names (production 5): they start with a letter, an underscore or a colon. -/
def Name (n : List Char) : Prop :=
  (∀ c ∈ n, NameChar c) ∧ ∃ c s, n = c :: s ∧ (c.isAlpha ∨ c ∈ ['_', ':'])

/-- White space (production 3). -/
def White (w : List Char) : Prop := ∀ c ∈ w, c = ' ' ∨ c = '\n' ∨ c = '\t' ∨ c = '\r'

/-- Characters of a document (production 2) that a reader passes on as they are: a carriage return
is normalized to a newline (2.11), so it is not one of them. -/
def PlainChar (c : Char) : Prop := c = '\n' ∨ c = '\t' ∨ (' ' ≤ c ∧ c ≠ '\uFFFE' ∧ c ≠ '\uFFFF')

/-- The raw text denotes the value: references to the predefined entities (4.6) are replaced, any
other character except `<` and `&` stands for itself. -/
inductive Denotes : List Char → List Char → Prop
  | nil : Denotes [] []
  | char {c raw v} : c ≠ '<' → c ≠ '&' → PlainChar c → Denotes raw v → Denotes (c :: raw) (c :: v)
  | amp {raw v} : Denotes raw v → Denotes ("&amp;".toList ++ raw) ('&' :: v)
  | lt {raw v} : Denotes raw v → Denotes ("&lt;".toList ++ raw) ('<' :: v)
  | gt {raw v} : Denotes raw v → Denotes ("&gt;".toList ++ raw) ('>' :: v)
  | quot {raw v} : Denotes raw v → Denotes ("&quot;".toList ++ raw) ('"' :: v)
  | apos {raw v} : Denotes raw v → Denotes ("&apos;".toList ++ raw) ('\'' :: v)

/-- Attributes with double-quoted values (productions 10, 41); the value contains no double quote,
and no newline or tab, which readers replace by blanks (3.3.3). -/
inductive Attributes : List Char → List (List Char × List Char) → Prop
  | nil : Attributes [] []
  | cons {w n raw v rest as} : White w → w ≠ [] → Name n → Denotes raw v → '"' ∉ raw → '\n' ∉ raw →
      '\t' ∉ raw → Attributes rest as →
      Attributes (w ++ n ++ "=\"".toList ++ raw ++ "\"".toList ++ rest) ((n, v) :: as)

/-- What the grammar derives: an element, or a list of elements separated by white space. -/
inductive Sym
  | element (t : Tree)
  | elements (ts : List Tree)

/-- The text is an element (productions 39–44): the end tag bears the name of the start tag, no
attribute appears twice, and the character data does not contain `]]>` (production 14). -/
inductive Reads : Sym → List Char → Prop
  | empty {n raw as} : Name n → Attributes raw as → (as.map (·.1)).Nodup →
      Reads (.element (.mk n as [] [])) ("<".toList ++ n ++ raw ++ "/>".toList)
  | text {n raw as body t} : Name n → Attributes raw as → (as.map (·.1)).Nodup →
      Denotes body t → ¬ "]]>".toList <:+: body →
      Reads (.element (.mk n as t []))
        ("<".toList ++ n ++ raw ++ ">".toList ++ body ++ "</".toList ++ n ++ ">".toList)
  | children {n raw as body ts} : Name n → Attributes raw as → (as.map (·.1)).Nodup →
      ts ≠ [] → Reads (.elements ts) body →
      Reads (.element (.mk n as [] ts))
        ("<".toList ++ n ++ raw ++ ">".toList ++ body ++ "</".toList ++ n ++ ">".toList)
  | none {w} : White w → Reads (.elements []) w
  | more {w e r t ts} : White w → Reads (.element t) e → Reads (.elements ts) r →
      Reads (.elements (t :: ts)) (w ++ e ++ r)

/-- The text is a document with this root element (production 1). -/
def Document (text : List Char) (t : Tree) : Prop :=
  ∃ w e w', text = "<?xml version=\"1.0\" encoding=\"UTF-8\"?>".toList ++ w ++ e ++ w' ∧ White w ∧
    White w' ∧ Reads (.element t) e

/-! ## What the calls describe -/

/-- The text of a value: strings end at a NUL character, numbers are decimal. -/
def Value.says : Value → List Char
  | .str s => s.takeWhile (· ≠ '\x00')
  | .int i => (toString i).toList
  | .size n => (toString n).toList
  | .bool b => (toString b).toList
  | .double t => t.1

/-- An element that is still open. -/
structure Open where
  name : List Char
  attributes : List (List Char × List Char)
  text : Option (List Char)
  children : List Tree
  /-- A child has been added (it may still be open). -/
  parent : Bool

/-- The finished element. -/
def Open.tree (o : Open) : Tree := .mk o.name o.attributes (o.text.getD []) o.children

/-- A document in the making: the root element once it is finished, and the open elements, innermost
first. -/
structure Story where
  begun : Bool
  done : Option Tree
  open_ : List Open

/-- Names are C strings. -/
def nameOf (n : List Char) : List Char := n.takeWhile (· ≠ '\x00')

/-- The effect of a call on the described document; `none` if the call is out of order:
* there is one root;
* attributes, text and children go to the innermost open element only;
* no attributes after text or children, no text after children, no children after text;
* names are not empty. -/
def tell (s : Story) : Call → Option Story
  | .root n =>
    if s.begun ∨ nameOf n = [] then none
    else some ⟨true, none, [⟨nameOf n, [], none, [], false⟩]⟩
  | .attribute k n v =>
    match k, s.open_ with
    | 0, o :: os =>
      if o.text.isSome ∨ o.parent ∨ nameOf n = [] then none
      else some { s with open_ := { o with attributes := o.attributes ++ [(nameOf n, v.says)] } :: os }
    | _, _ => none
  | .text k v =>
    match k, s.open_ with
    | 0, o :: os =>
      if o.parent then none
      else some { s with open_ := { o with text := some (o.text.getD [] ++ v.says) } :: os }
    | _, _ => none
  | .child k n =>
    match k, s.open_ with
    | 0, o :: os =>
      if o.text.isSome ∨ nameOf n = [] then none
      else some { s with open_ := ⟨nameOf n, [], none, [], false⟩ :: { o with parent := true } :: os }
    | _, _ => none
  | .close =>
    match s.open_ with
    | [] => none
    | [o] => some { s with done := some o.tree, open_ := [] }
    | o :: p :: os =>
      some { s with open_ := { p with children := p.children ++ [o.tree] } :: os }

/-- The described document after a history; calls out of order have no effect. -/
def story (s : Story) : List Call → Story
  | [] => s
  | c :: cs => story ((tell s c).getD s) cs

/-- The beginning. -/
def Story.start : Story := ⟨false, none, []⟩

/-- The data is within what XML can carry: names are XML names, no element has two attributes of the
same name, attribute values have no newlines and tabs, texts do not contain `]]>`, and there are no
control characters. -/
inductive Sane : Tree → Prop
  | mk {n as t ts} : Name n → (∀ a ∈ as, Name a.1) → (as.map (·.1)).Nodup →
      (∀ a ∈ as, ∀ c ∈ a.2, PlainChar c ∧ c ≠ '\n' ∧ c ≠ '\t') → (∀ c ∈ t, PlainChar c) →
      ¬ "]]>".toList <:+: t → (∀ t' ∈ ts, Sane t') → Sane (.mk n as t ts)

end Scram.Xml
