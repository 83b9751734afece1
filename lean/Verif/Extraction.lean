import Verif.Intervals
/-!
# Expressions from the input files

Model of `Initializer::GetExpression` and its extractors (/repo/src/initializer.cc 915-1081, 1105-1228) with the constructors of the expressions (/repo/src/expression.h 157-279 and src/expression/*.h, as in Intervals.lean).

Simplified: real numbers; what a parameter stands for is a parameter of the model; random deviates, events of event trees and extern functions are left out (C46, C68, C75); the depth of the recursion is bounded by a number.
-/
namespace Scram.Extraction
open Scram.Intervals

/-- An XML element: its name, the number in its attribute `value`, its attribute `name`, its elements. -/
inductive Xml
  | node (name : String) (value : ℝ) (ref : String) (children : List Xml)

def Xml.children : Xml → List Xml
  | .node _ _ _ cs => cs

def toExs : List Ex → Exs
  | [] => .nil
  | e :: es => .cons e (toExs es)

/-- All or nothing. -/
def allOf {α : Type} : List (Option α) → Option (List α)
  | [] => some []
  | o :: os => o.bind fun x => (allOf os).map fun xs => x :: xs

/-- The names of the unary operations (/repo/src/initializer.cc 1116-1147). -/
def unTable : List (String × Un) :=
  [("neg", .neg), ("abs", .abs), ("tan", .tan), ("cosh", .cosh), ("sinh", .sinh), ("tanh", .tanh), ("exp", .exp), ("log", .log), ("log10", .log10), ("sqrt", .sqrt), ("ceil", .ceil), ("floor", .floor), ("not", .not)]
def fxTable : List (String × Fx) := [("acos", .acos), ("asin", .asin), ("atan", .atan), ("cos", .cos), ("sin", .sin)]
def binTable : List (String × Bin) :=
  [("mod", .mod), ("pow", .pow), ("eq", .eq), ("df", .df), ("lt", .lt), ("gt", .gt), ("leq", .leq), ("geq", .geq)]
def naryTable : List (String × Nary) :=
  [("add", .add), ("sub", .sub), ("mul", .mul), ("div", .div), ("min", .min), ("max", .max), ("and", .and), ("or", .or)]

/-- `Extract<T>` for arguments that are already extracted; `none` is an error or a violated assertion (/repo/src/initializer.cc 915-1010, 1040-1062, /repo/src/expression.cc for fewer than two arguments). -/
def build (n : String) (es : List Ex) : Option Ex :=
  match unTable.lookup n with
  | some u => match es with
    | [a] => some (.un u a)
    | _ => none
  | none => match fxTable.lookup n with
  | some u => match es with
    | [a] => some (.fx u a)
    | _ => none
  | none => match binTable.lookup n with
  | some o => match es with
    | [a, b] => some (.bin o a b)
    | _ => none
  | none => match naryTable.lookup n with
  | some o => match es with
    | a :: b :: l => some (.nary o a (toExs (b :: l)))
    | _ => none
  | none =>
    if n = "mean" then match es with
      | a :: b :: l => some (.mean (toExs (a :: b :: l)))
      | _ => none
    else if n = "ite" then match es with
      | [c, t, e] => some (.ite c t e)
      | _ => none
    else if n = "exponential" then match es with
      | [l, t] => some (.exponential l t)
      | _ => none
    else if n = "GLM" then match es with
      | [g, l, m, t] => some (.glm g l m t)
      | _ => none
    else if n = "Weibull" then match es with
      | [a, b, t0, t] => some (.weibull a b t0 t)
      | _ => none
    else if n = "periodic-test" then match es with
      | [l, u, h, t] => some (.instantRepair l u h t)
      | [l, m, u, h, t] => some (.instantTest l m u h t)
      | [l, lt, m, u, h, g, d, a, s, o, t] => some (.complete l lt m u h g d a s o t)
      | _ => none
    else none

/-- `Extract<Switch>` (/repo/src/initializer.cc 1064-1085). -/
def switchOf (g : Xml → Option Ex) : List Xml → Option (Cases × Ex)
  | [] => none
  | [d] => (g d).map fun e => (.nil, e)
  | c :: cs => match c.children with
    | [a, b] => (g a).bind fun x => (g b).bind fun y => (switchOf g cs).map fun r => (.cons x y r.1, r.2)
    | _ => none

/-- `GetExpression` (/repo/src/initializer.cc 1157-1228). -/
noncomputable def getExpression (par : String → Option Ex) : Nat → Xml → Option Ex
  | 0, _ => none
  | d + 1, .node n v ref cs =>
    if n = "int" ∨ n = "float" then some (.const v)
    else if n = "bool" then some (.const (open Classical in if v ≠ 0 then 1 else 0))
    else if n = "pi" then some (.const Real.pi)
    else if n = "parameter" then par ref
    else if n = "system-mission-time" then some .time
    else if n = "switch" then (switchOf (getExpression par d) cs).map fun r => .switch r.1 r.2
    else (allOf (cs.map (getExpression par d))).bind (build n)

end Scram.Extraction
