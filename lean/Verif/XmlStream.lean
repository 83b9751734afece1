/-!
# Writing XML reports

Model of `src/xml_stream.h`: the stream document, its elements (constructor, destructor,
`SetAttribute`, `AddText`, `AddChild`), the escaping of values, the number writers and the
indentation buffer.

An execution is a list of calls.  Every call names the live element it is made on by its distance
from the innermost live element (0 is the innermost one).  A call that throws `StreamError` leaves
the document as it was, because every check precedes every write; the model returns `none`.

Simplifications:
* The destination file is the list of the characters written to it; I/O errors are not modelled.
* Elements are destroyed innermost first (the documented precondition of the destructor: "The child
  element will be destroyed before the parent"), which scopes and stack unwinding guarantee.
* `double` values carry the text that `printf("%g")` produces for them.
-/
namespace Scram.Xml

/-! ## Indentation buffer -/

/-- `kMaxIndent` (xml_stream.h 44). -/
def maxIndent : Nat := 20

/-- `kIndentIncrement` (xml_stream.h 311). -/
def indentIncrement : Nat := 2

/-- The buffer of the `Indenter` (xml_stream.h 99): a terminator-delimited character array. -/
abbrev Buffer := List Char

/-- `Indenter::Indenter` (xml_stream.h 86–88): the first `kMaxIndent` cells are blanks; the last cell
is indeterminate in C++, here it gets the argument `junk`. -/
def Buffer.fresh (junk : Char) : Buffer := List.replicate maxIndent ' ' ++ [junk]

/-- Reading a C string from a character array: everything in front of the first NUL. -/
def cstr (s : List Char) : List Char := s.takeWhile (· ≠ '\x00')

/-- `Indentation` (xml_stream.h 66–70, 76) and `Indenter::operator()` (93–95): the terminator is put
at the position of the wanted width, bounded by `kMaxIndent`, and the string is read. -/
def Buffer.show (b : Buffer) (on : Bool) (n : Nat) : List Char :=
  let pos := if on then (if n > maxIndent then maxIndent else n) else 0
  cstr (b.set pos '\x00')

/-- `~Indentation` (xml_stream.h 73) after the constructor (66–70): the cell becomes a blank. -/
def Buffer.restore (b : Buffer) (on : Bool) (n : Nat) : Buffer :=
  let pos := if on then (if n > maxIndent then maxIndent else n) else 0
  (b.set pos '\x00').set pos ' '

/-! ## Values -/

/-- The loop of `FileStream::write(std::size_t)` (xml_stream.h 128–133): the digits, least
significant first, as they lie in `temp`. -/
def digitsRev (n : Nat) : List Char :=
  if n / 10 > 0 then Char.ofNat (n % 10 + 48) :: digitsRev (n / 10)
  else [Char.ofNat (n % 10 + 48)]
termination_by n
decreasing_by omega

/-- `FileStream::write(std::size_t)` (xml_stream.h 127–138): the digits are output backwards. -/
def writeSize (n : Nat) : List Char := (digitsRev n).reverse

/-- `FileStream::write(int)` (xml_stream.h 120–126).  The negation of the least `int` overflows in
C++; the model works on unbounded integers. -/
def writeInt (i : Int) : List Char :=
  if i < 0 then '-' :: writeSize (-i).toNat else writeSize i.toNat

/-- The characters `PutValue` escapes (xml_stream.h 360–362). -/
def special (c : Char) : Bool := c = '&' || c = '<' || c = '"'

/-- The character loop of `PutValue` (xml_stream.h 371–386). -/
def escapeLoop : List Char → List Char
  | [] => []
  | c :: s =>
    if c = '&' then ['&', 'a', 'm', 'p', ';'] ++ escapeLoop s
    else if c = '<' then ['&', 'l', 't', ';'] ++ escapeLoop s
    else if c = '"' then ['&', 'q', 'u', 'o', 't', ';'] ++ escapeLoop s
    else c :: escapeLoop s

/-- `PutValue(const char*)` (xml_stream.h 354–389): strings without special characters are written
in one piece. -/
def putString (s : List Char) : List Char :=
  let s := cstr s
  if s.any special then escapeLoop s else s

/-- The values accepted by `SetAttribute` and `AddText` (`PutValue` overloads, xml_stream.h 349–354).
A `double` is the text of `printf("%g")` (139), which has no special characters. -/
inductive Value
  | str (s : List Char)
  | int (i : Int)
  | size (n : Nat)
  | bool (b : Bool)
  | double (t : {t : List Char // ∀ c ∈ t, special c = false})

/-- `PutValue` (xml_stream.h 349–389). -/
def putValue : Value → List Char
  | .str s => putString s
  | .int i => writeInt i
  | .size n => writeSize n
  | .bool b => if b then ['t', 'r', 'u', 'e'] else ['f', 'a', 'l', 's', 'e']
  | .double t => t.1

/-! ## Elements and the document -/

/-- The data of a `StreamElement` (xml_stream.h 392–400); the parent is the next element of the
list of live elements. -/
structure Elem where
  name : List Char
  indent : Nat
  acceptAttributes : Bool
  acceptElements : Bool
  acceptText : Bool
  active : Bool

/-- A `Stream` (xml_stream.h 455–458) and its live elements, innermost first. -/
structure Doc where
  indentOn : Bool
  buffer : Buffer
  hasRoot : Bool
  live : List Elem
  out : List Char

/-- The XML declaration (xml_stream.h 424). -/
def declaration : List Char := "<?xml version=\"1.0\" encoding=\"UTF-8\"?>\n".toList

/-- `Stream::Stream` (xml_stream.h 418–425). -/
def Doc.start (indentOn : Bool) (junk : Char) : Doc :=
  ⟨indentOn, .fresh junk, false, [], declaration⟩

/-- `out_ << indenter_(n)` (xml_stream.h 214, 344). -/
def Doc.putIndent (d : Doc) (n : Nat) : Doc :=
  { d with out := d.out ++ d.buffer.show d.indentOn n, buffer := d.buffer.restore d.indentOn n }

/-- `out_ << s`. -/
def Doc.put (d : Doc) (s : List Char) : Doc := { d with out := d.out ++ s }

/-- Names are C strings: an empty one starts with the terminator (xml_stream.h 241, 297, 335). -/
def emptyName (n : List Char) : Bool := (cstr n).isEmpty

/-- The private constructor of `StreamElement` (xml_stream.h 324–345): `parents` are the live
elements, the first of which is the parent if there is any. -/
def Doc.construct (d : Doc) (name : List Char) (indent : Nat) : Option Doc :=
  if emptyName name then none
  else
    match d.live with
    | [] =>
      let d := d.putIndent indent
      let d := d.put ('<' :: cstr name)
      some { d with live := [⟨name, indent, true, true, true, true⟩] }
    | p :: ps =>
      if !p.active then none
      else
        let d := d.putIndent indent
        let d := d.put ('<' :: cstr name)
        some { d with live := ⟨name, indent, true, true, true, true⟩ ::
                              { p with active := false } :: ps }

/-- The calls a client makes. -/
inductive Call
  /-- `Stream::root` -/
  | root (name : List Char)
  /-- `StreamElement::SetAttribute` -/
  | attribute (k : Nat) (name : List Char) (value : Value)
  /-- `StreamElement::AddText` -/
  | text (k : Nat) (value : Value)
  /-- `StreamElement::AddChild` -/
  | child (k : Nat) (name : List Char)
  /-- The end of the lifetime of the innermost live element. -/
  | close

/-- `StreamElement::SetAttribute` (xml_stream.h 236–248). -/
def setAttribute (d : Doc) (k : Nat) (name : List Char) (value : Value) : Option Doc :=
  match d.live[k]? with
  | none => none
  | some e =>
    if !e.active then none
    else if !e.acceptAttributes then none
    else if emptyName name then none
    else
      let d := d.put (' ' :: cstr name ++ ['=', '"'])
      let d := d.put (putValue value)
      some (d.put ['"'])

/-- `StreamElement::AddText` (xml_stream.h 264–278). -/
def addText (d : Doc) (k : Nat) (value : Value) : Option Doc :=
  match d.live[k]? with
  | none => none
  | some e =>
    if !e.active then none
    else if !e.acceptText then none
    else
      let d' := if e.acceptAttributes then d.put ['>'] else d
      let e' : Elem := { e with acceptElements := false, acceptAttributes := false }
      let d' := { d' with live := d.live.set k e' }
      some (d'.put (putValue value))

/-- `StreamElement::AddChild` (xml_stream.h 292–308).  The child of an element that is not the
innermost one can not be constructed: that element is inactive (the `construct` below takes the
innermost live element for the parent, which is the element of the call whenever it is active). -/
def addChild (d : Doc) (k : Nat) (name : List Char) : Option Doc :=
  match d.live[k]? with
  | none => none
  | some e =>
    if !e.active then none
    else if !e.acceptElements then none
    else if emptyName name then none
    else
      let d' := if e.acceptAttributes then d.put ['>', '\n'] else d
      let e' : Elem := { e with acceptText := false, acceptAttributes := false }
      let d' := { d' with live := d.live.set k e' }
      d'.construct name (e.indent + indentIncrement)

/-- `~StreamElement` (xml_stream.h 206–222). -/
def destroy (d : Doc) : Option Doc :=
  match d.live with
  | [] => none
  | e :: ps =>
    let ps' := match ps with
      | [] => []
      | p :: qs => { p with active := true } :: qs
    let closing := ['<', '/'] ++ cstr e.name ++ ['>', '\n']
    let d' :=
      if e.acceptAttributes then d.put ['/', '>', '\n']
      else if e.acceptElements then (d.putIndent e.indent).put closing
      else d.put closing
    some { d' with live := ps' }

/-- `Stream::root` (xml_stream.h 446–452). -/
def root (d : Doc) (name : List Char) : Option Doc :=
  if d.hasRoot then none
  else
    match d.construct name 0 with
    | none => none
    | some d => some { d with hasRoot := true }

/-- One call; `none` stands for a thrown `StreamError` (or for a call that has no object). -/
def call (d : Doc) : Call → Option Doc
  | .root n => root d n
  | .attribute k n v => setAttribute d k n v
  | .text k v => addText d k v
  | .child k n => addChild d k n
  | .close => destroy d

/-- A history of calls: rejected calls leave the document as it was. -/
def run (d : Doc) : List Call → Doc
  | [] => d
  | c :: cs => run ((call d c).getD d) cs

/-- Stack unwinding: all live elements are destroyed. -/
def unwind (d : Doc) : Doc := run d (List.replicate d.live.length .close)

end Scram.Xml
