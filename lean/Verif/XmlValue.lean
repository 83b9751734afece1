import Verif.XmlValueSpec

/-!
# Values of attributes and texts (src/xml.h, src/ext/version.cc)

`detail::trim`, `detail::to<int>`, `detail::to<double>`, `detail::to<bool>`, `Element::attribute<T>`,
`Element::text<T>` and `ext::extract_version` with the version check of the project constructor.

A C string is the list of its bytes before the terminating zero.  A `std::string_view` into it is the
rest of the string from where the view starts and the length of the view, because `strtoll` and
`strtod` are given only `data()` and read on behind the view.  Both library functions are modelled
from the C standard in the "C" locale.
-/

namespace Scram.XmlValue

/-- A view: what `data()` points to up to the terminating zero, and `size()`. -/
structure View where
  data : List Char
  size : Nat
deriving DecidableEq

/-- The characters of the view. -/
def View.chars (v : View) : List Char := v.data.take v.size

/-- `isspace` in the "C" locale, used inside `strtoll` and `strtod` (src/xml.h:75, 86). -/
def isSpace (c : Char) : Bool :=
  c == ' ' || c == '\t' || c == '\n' || c == '\x0b' || c == '\x0c' || c == '\r'

/-- Position of the last character that is not a space: `find_last_not_of(' ')` (src/xml.h:139). -/
def findLastNotSpace (s : List Char) : Option Nat :=
  (s.reverse.findIdx? (· != ' ')).map fun i => s.length - 1 - i

/-- src/xml.h:134–143 `detail::trim`: the view from the first to the last character that is not a
space, an empty view if there is none. -/
def trim (text : List Char) : View :=
  match text.findIdx? (· != ' ') with
  | none => ⟨[], 0⟩
  | some first =>
    let last := (findLastNotSpace text).getD 0
    ⟨text.drop first, last - first + 1⟩

/-- The optional sign read by `strtoll` and `strtod`. -/
def readSign : List Char → Bool × List Char
  | '-' :: r => (true, r)
  | '+' :: r => (false, r)
  | r => (false, r)

/-- The value accumulated by the library functions over the digits. -/
def accumulate (val : Char → Option Nat) (b : Nat) (ds : List Char) : Nat :=
  ds.foldl (fun a c => a * b + (val c).getD 0) 0

/-- Largest value of `long long`. -/
def maxLL : Int := 9223372036854775807
/-- Largest value of `int`. -/
def maxInt : Int := 2147483647

/-- `strtoll(s, &end, 10)` (called at src/xml.h:75): skip white space, optional sign, digits; the
value is cut to the range of `long long`; without digits the value is zero and `end` is `s`.  Returns
the value and what `end` points to. -/
def strtoll (s : List Char) : Int × List Char :=
  let sg := readSign (s.dropWhile isSpace)
  let ds := sg.2.takeWhile fun c => (decVal c).isSome
  if ds = [] then (0, s)
  else
    (max (-maxLL - 1) (min maxLL (signed sg.1 (accumulate decVal 10 ds))),
      sg.2.dropWhile fun c => (decVal c).isSome)

/-- What became of a value. -/
inductive Res (α : Type)
  | absent
  | value (a : α)
  | refused
deriving DecidableEq

/-- src/xml.h:73–82 `detail::to<int>`; `len` is the distance between the pointers (the narrowing of
that distance to `int` is left out: texts are shorter than 2 GB). -/
def toInt (v : View) : Res Int :=
  let (ret, rest) := strtoll v.data
  let len := v.data.length - rest.length
  if len ≠ v.size ∨ ret > maxInt ∨ ret < -maxInt - 1 then .refused else .value ret

/-- `strtod`: the exponent, if the letter is followed by digits. -/
def readExponent (mark : Char → Bool) (s : List Char) : Int × List Char :=
  match s with
  | [] => (0, [])
  | c :: r =>
    if mark c then
      let sg := readSign r
      let ds := sg.2.takeWhile fun c => (decVal c).isSome
      if ds = [] then (0, s)
      else (signed sg.1 (accumulate decVal 10 ds), sg.2.dropWhile fun c => (decVal c).isSome)
    else (0, s)

/-- `strtod`: the digits behind the point, if there is a point. -/
def readFraction (val : Char → Option Nat) (s : List Char) : List Char × List Char :=
  match s with
  | '.' :: r => (r.takeWhile fun c => (val c).isSome, r.dropWhile fun c => (val c).isSome)
  | r => ([], r)

/-- `strtod`: a number in one notation, `none` if there is no digit. -/
def readNumber (F : Notation) (mark : Char → Bool) (s : List Char) : Option (ℚ × List Char) :=
  let is := s.takeWhile fun c => (F.val c).isSome
  let fr := readFraction F.val (s.dropWhile fun c => (F.val c).isSome)
  if is = [] ∧ fr.1 = [] then none
  else
    let ex := readExponent mark fr.2
    some (((accumulate F.val F.base is : ℚ) +
      (accumulate F.val F.base fr.1 : ℚ) / (F.base : ℚ) ^ fr.1.length) * (F.scale : ℚ) ^ ex.1, ex.2)

/-- The exponent letters. -/
def isE (c : Char) : Bool := c == 'e' || c == 'E'
/-- The exponent letters of hexadecimal numbers. -/
def isP (c : Char) : Bool := c == 'p' || c == 'P'

/-- `strtod`: does the string begin with the word, ignoring case? -/
def begins (w s : List Char) : Bool := (s.take w.length).map Char.toLower == w

/-- `strtod`: a character of `nan(...)`. -/
def isWord (c : Char) : Bool :=
  (decide ('0' ≤ c) && decide (c ≤ '9')) || (decide ('a' ≤ c) && decide (c ≤ 'z')) ||
    (decide ('A' ≤ c) && decide (c ≤ 'Z')) || c == '_'

/-- `strtod`: the optional parentheses behind `nan`. -/
def readNanWord (s : List Char) : List Char :=
  match s with
  | '(' :: r =>
    match r.dropWhile isWord with
    | ')' :: rest => rest
    | _ => s
  | _ => s

/-- `strtod`: a hexadecimal number behind `0x`. -/
def readHex (s : List Char) : Option (ℚ × List Char) :=
  match s with
  | '0' :: x :: r => if x == 'x' || x == 'X' then readNumber hexadecimal isP r else none
  | _ => none

/-- `strtod` behind blanks and sign. -/
def readReal (neg : Bool) (s : List Char) : Option (Literal × List Char) :=
  if begins "infinity".toList s then some (.infinity neg, s.drop 8)
  else if begins "inf".toList s then some (.infinity neg, s.drop 3)
  else if begins "nan".toList s then some (.nan neg, readNanWord (s.drop 3))
  else
    match readHex s with
    | some (q, rest) => some (.number neg q, rest)
    | none => (readNumber decimal isE s).map fun p => (.number neg p.1, p.2)

/-- `strtod(s, &end)` (called at src/xml.h:86); `none`: no number, `end` is `s`. -/
def strtod (s : List Char) : Option (Literal × List Char) :=
  let sg := readSign (s.dropWhile isSpace)
  readReal sg.1 sg.2

/-- src/xml.h:84–92 `detail::to<double>`: the whole view must have been read, and the rounded value
must not be infinite. -/
def toDouble {D : Type} (R : Rounding D) (v : View) : Res D :=
  match strtod v.data with
  | none => .refused  -- `len` is zero, and views are not empty here
  | some (l, rest) =>
    let len := v.data.length - rest.length
    if len ≠ v.size then .refused
    else
      match R.of l with
      | some d => .value d
      | none => .refused

/-- src/xml.h:94–103 `detail::to<bool>`. -/
def toFlag (v : View) : Res Bool :=
  if v.chars = "true".toList ∨ v.chars = "1".toList then .value true
  else if v.chars = "false".toList ∨ v.chars = "0".toList then .value false
  else .refused

/-- src/xml.h:288–297 `Element::attribute`: the trimmed value, an empty view if there is no such
attribute. -/
def getAttribute (content : Option (List Char)) : View :=
  match content with
  | none => ⟨[], 0⟩
  | some text => trim text

/-- src/xml.h:309–323 `Element::attribute<T>`. -/
def attributeAs {α : Type} (conv : View → Res α) (content : Option (List Char)) : Res α :=
  let value := getAttribute content
  if value.size = 0 then .absent else conv value

/-- src/xml.h:342–352 `Element::text<T>` (the text is not empty by precondition). -/
def textAs {α : Type} (conv : View → Res α) (content : List Char) : Res α := conv (trim content)

/-- The value of an `int` after an addition that may overflow: two's complement (the standard
leaves it undefined). -/
def wrapInt (x : Int) : Int := (x + 2147483648) % 4294967296 - 2147483648

/-- State of the loop of `extract_version`. -/
structure VState where
  numbers : List Int
  i : Nat
  expectSeparator : Bool

/-- src/ext/version.cc:33–49: one character. -/
def versionStep (separator : Char) (s : VState) (c : Char) : Option VState :=
  if c = separator then
    if !s.expectSeparator then none
    else if s.i + 1 = s.numbers.length then none
    else some { s with i := s.i + 1, expectSeparator := false }
  else if c < '0' ∨ c > '9' then none
  else
    let n := s.numbers.getD s.i 0
    some { s with
      numbers := s.numbers.set s.i (wrapInt (wrapInt (n * 10) + (c.toNat - '0'.toNat : Nat)))
      expectSeparator := true }

/-- src/ext/version.cc:24–52 `extract_version`. -/
def extractVersion (version : List Char) (separator : Char := '.') : Option (List Int) :=
  if version = [] then none
  else (version.foldlM (versionStep separator) ⟨[0, 0, 0], 0, false⟩).map (·.numbers)

/-- What the version check says. -/
inductive Check
  | fine
  | invalid
  | newer
deriving DecidableEq

/-- `operator>` of `std::array`: lexicographic. -/
def greater : List Int → List Int → Bool
  | a :: as, b :: bs => decide (b < a) || (decide (a = b) && greater as bs)
  | _ :: _, [] => true
  | [], _ => false

/-- src/project.cc:68–82: the version of a project file against the one of the program. -/
def checkVersion (program : List Int) (rootName : List Char) (version : Option (List Char)) : Check :=
  let v := getAttribute version
  if rootName = "scram".toList ∧ v.size ≠ 0 then
    match extractVersion v.chars with
    | none => .invalid
    | some numbers => if greater numbers program then .newer else .fine
  else .fine

end Scram.XmlValue
