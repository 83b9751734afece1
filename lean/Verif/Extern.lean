import Mathlib.Algebra.Order.Archimedean.Real.Basic
import Mathlib.Algebra.Order.Floor.Ring
import Mathlib.Data.List.Basic
/-!
# Extern libraries and functions

Model of /repo/src/expression/extern.h, extern.cc 28-67, and of their definition in /repo/src/initializer.cc 1188-1210, 1380-1540.

Simplified: the loader of the operating system and the decoration of library names are a parameter (`Loader`); a symbol of a library is what it does when it is called as a function of given types (a C symbol has no
types that could be checked); numbers are real numbers, the conversion of a number outside of `int` is undefined, hence `none`; files are named by their POSIX paths, a leading double slash is as a single one.
-/
namespace Scram.Extern

/-- `ExternParamType` (/repo/src/initializer.cc 1410). -/
inductive Ty | int | double
deriving DecidableEq, Repr

/-- The values of `ExternParamType` (/repo/src/initializer.cc 1410). -/
def Ty.digit : Ty → Nat
  | .int => 1
  | .double => 2

/-- `Encode` of the elements of a definition (/repo/src/initializer.cc 1424-1445): the sum and `base_power`. -/
def encode (args : List Ty) : Nat :=
  (args.foldl (fun s t => (s.1 + s.2 * t.digit, s.2 * 3)) ((0, 1) : Nat × Nat)).1

/-- `Encode` of a list of types when the program is compiled (/repo/src/initializer.cc 1448-1460). -/
def encodeT : List Ty → Nat → Nat
  | [], _ => 0
  | [t], p => p * t.digit
  | t :: u :: ts, p => p * t.digit + encodeT (u :: ts) (p * 3)

/-- `ExternFunctionExtractorMap` (/repo/src/initializer.cc 1465): the types that the extractor of each number was compiled for. -/
abbrev Table := List (Nat × List Ty)

/-- `std::unordered_map::at`. -/
def Table.at (m : Table) (k : Nat) : Option (List Ty) := (m.find? fun p => p.1 = k).map (·.2)

/-- `std::unordered_map::emplace`: the first entry stays. -/
def Table.emplace (m : Table) (k : Nat) (v : List Ty) : Table :=
  if (m.at k).isSome then m else m ++ [(k, v)]

/-- `GenerateExternFunctionExtractor` (/repo/src/initializer.cc 1474-1492). -/
def generate : Nat → List Ty → Table → Table
  | 0, ts, m => m.emplace (encodeT ts 1) ts
  | n + 1, ts, m => generate n (ts ++ [.double]) (generate n (ts ++ [.int]) (m.emplace (encodeT ts 1) ts))

/-- `kMaxNumParam` (/repo/src/initializer.cc 1412). -/
def maxParams : Nat := 5

/-- `function_extractors` (/repo/src/initializer.cc 1497-1504). -/
def extractors : Table := generate maxParams [.double] (generate maxParams [.int] [])

/-! ## Libraries -/

abbrev Path := List Char

/-- The part after the last slash: `fs::path::filename` (of a path that does not end with a slash). -/
def Path.filename (p : Path) : Path := (p.reverse.takeWhile (· ≠ '/')).reverse

/-- The part up to the last slash, with it: `fs::path::parent_path` but for the slashes at its end. -/
def Path.parent (p : Path) : Path := (p.reverse.dropWhile (· ≠ '/')).reverse

/-- `fs::path::is_absolute`. -/
def Path.isAbsolute (p : Path) : Bool := p.head? = some '/'

/-- `operator/` of paths: a slash in between unless there is one, or nothing before. -/
def Path.join (d p : Path) : Path := if d = [] then p else if d.getLast? = some '/' then d ++ p else d ++ '/' :: p

/-- `fs::absolute` with a base (/repo/src/expression/extern.cc 56); `cwd` is the working directory of the process. -/
def Path.absolute (cwd p base : Path) : Path :=
  if p.isAbsolute then p else Path.join (if base.isAbsolute then base else Path.join cwd base) p

/-- The check of the path in the constructor of `ExternLibrary` (/repo/src/expression/extern.cc 32-46). -/
def pathOk (p : Path) : Bool :=
  !(p = [] || p.filename = ['.'] || p.filename = ['.', '.'] || p.getLast? = some ':' || p.getLast? = some '/' || p.getLast? = some '\\')

/-- What a function of the library gives when it is called with arguments. -/
inductive Num
  | int (i : Int)
  | double (x : ℝ)

/-- A library: what each of its symbols does when called as a function of given types (the result first). -/
structure Lib where
  symbol : String → Option (List Ty → List Num → ℝ)

/-- `boost::dll::shared_library::load` with the modes to search in the folders of the system and to decorate the name. -/
abbrev Loader := (system decorate : Bool) → Path → Option Lib

/-- `define-extern-library`. -/
structure LibDecl where
  name : String
  path : Path
  system : Option Bool
  decorate : Option Bool

inductive Error
  | invalidPath
  | cannotLoad
  | undefinedLibrary
  | tooManyParameters
  | outOfRange
  | noSymbol
  | duplicate
  | wrongCount
deriving DecidableEq, Repr

/-- The path that is given to the loader (/repo/src/expression/extern.cc 54-56). -/
def target (cwd : Path) (system : Bool) (path refDir : Path) : Path :=
  if !system || path.parent ≠ [] then Path.absolute cwd path refDir else path

/-- The constructor of `ExternLibrary` (/repo/src/expression/extern.cc 28-65). -/
def loadLibrary (loader : Loader) (cwd path refDir : Path) (system decorate : Bool) : Except Error Lib :=
  if !pathOk path then .error .invalidPath
  else match loader system decorate (target cwd system path refDir) with
    | none => .error .cannotLoad
    | some l => .ok l

/-- An extern function: `ExternFunction<R, Args...>` (/repo/src/expression/extern.h); the types that it was compiled for, the result first, and the pointer. -/
structure Func where
  types : List Ty
  ptr : List Ty → List Num → ℝ

/-- The tables of the model. -/
structure State where
  libs : String → Option Lib
  funcs : String → Option Func

/-- `DefineExternLibraries` (/repo/src/initializer.cc 1380-1403), of one library in the input file `file`. -/
def defineLibrary (loader : Loader) (cwd file : Path) (s : State) (d : LibDecl) : Except Error State :=
  match loadLibrary loader cwd d.path file.parent (d.system.getD false) (d.decorate.getD false) with
  | .error e => .error e
  | .ok l => if (s.libs d.name).isSome then .error .duplicate else .ok { s with libs := Function.update s.libs d.name (some l) }

/-- `define-extern-function`: the types are those of the result and of the parameters. -/
structure FuncDecl where
  name : String
  symbol : String
  library : String
  result : Ty
  params : List Ty

/-- `DefineExternFunction` (/repo/src/initializer.cc 1496-1540) and the constructor of `ExternFunction` (/repo/src/expression/extern.h). -/
def defineFunction (s : State) (d : FuncDecl) : Except Error State :=
  match s.libs d.library with
  | none => .error .undefinedLibrary
  | some l =>
    if maxParams < d.params.length then .error .tooManyParameters
    else match extractors.at (encode (d.result :: d.params)) with
      | none => .error .outOfRange
      | some ts => match l.symbol d.symbol with
        | none => .error .noSymbol
        | some p => if (s.funcs d.name).isSome then .error .duplicate else .ok { s with funcs := Function.update s.funcs d.name (some ⟨ts, p⟩) }

/-! ## Values -/

/-- The conversion of a number to `int`: the fraction is dropped. -/
noncomputable def trunc (x : ℝ) : Int := if 0 ≤ x then ⌊x⌋ else ⌈x⌉

/-- An argument for a parameter of the type; undefined if the number does not fit. -/
noncomputable def convert : Ty → ℝ → Option Num
  | .double, x => some (.double x)
  | .int, x => if -2 ^ 31 ≤ trunc x ∧ trunc x < 2 ^ 31 then some (.int (trunc x)) else none

/-- The constructor of `ExternExpression` (/repo/src/expression/extern.h): the function and the argument expressions. -/
def apply {E : Type} (f : Func) (args : List E) : Except Error (Func × List E) :=
  if args.length ≠ f.types.length - 1 then .error .wrongCount else .ok (f, args)

/-- `Marshal` (/repo/src/expression/extern.h): the function at its types, with the argument at each of the indices `0, …, sizeof...(Args) - 1`. `none` is undefined behaviour. -/
noncomputable def compute {E : Type} (x : Func × List E) (eval : E → ℝ) : Option ℝ :=
  ((List.range (x.1.types.length - 1)).mapM fun i =>
    match x.1.types[i + 1]?, x.2[i]? with
    | some t, some e => convert t (eval e)
    | _, _ => none).map (x.1.ptr x.1.types)

end Scram.Extern
