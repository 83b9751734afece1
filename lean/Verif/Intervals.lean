import Verif.Props.C34
import Mathlib.Analysis.SpecialFunctions.Trigonometric.Arctan
import Mathlib.Analysis.SpecialFunctions.Trigonometric.Inverse
import Mathlib.Analysis.SpecialFunctions.Log.Base
import Mathlib.Analysis.SpecialFunctions.Trigonometric.DerivHyp
import Mathlib.Analysis.SpecialFunctions.Arsinh
/-!
# Intervals of expressions

Models the classes of src/expression.h, src/expression/numerical.{h,cc}, boolean.h, conditional.{h,cc}, constant.h,
exponential.{h,cc}, test_event.h and src/parameter.h: `value`/`Compute`, `interval` and `Validate`, over the real numbers (no
rounding, infinities or NaN).
-/
namespace Scram.Intervals
open Scram.FailureModels

/-- `Interval` (src/expression.h 34): bounds and whether the lower bound is excluded (`left_open`, used by the log-normal and
gamma deviates, src/expression/random_deviate.cc 97-100, 137-143). Upper bounds are always included. -/
structure Iv where
  lo : ℝ
  hi : ℝ
  leftOpen : Bool

/-- `Interval::closed`. -/
def closed (a b : ℝ) : Iv := ⟨a, b, false⟩

/-- `Contains(interval, value)` (src/expression.h 40-42). -/
def Iv.Has (i : Iv) (x : ℝ) : Prop := (if i.leftOpen then i.lo < x else i.lo ≤ x) ∧ x ≤ i.hi

/-- `IsProbability` (src/expression.h 45-47): `within(interval, [0, 1])`; an empty interval is within everything. -/
def Iv.IsProbability (i : Iv) : Prop := ∀ x, i.Has x → 0 ≤ x ∧ x ≤ 1
/-- `IsNonNegative` (src/expression.h 50-52). -/
def Iv.IsNonNegative (i : Iv) : Prop := 0 ≤ i.lo
/-- `IsPositive` (src/expression.h 55-57). -/
def Iv.IsPositive (i : Iv) : Prop := i.IsNonNegative ∧ ¬ i.Has 0

/-- The unary `NaryExpression`s with the general interval (src/expression/numerical.h 62-88, boolean.h 31). -/
inductive Un | neg | abs | tan | cosh | sinh | tanh | exp | log | log10 | sqrt | ceil | floor | not
/-- The unary ones with their own fixed interval (src/expression/numerical.h 169-196). -/
inductive Fx | acos | asin | atan | cos | sin
/-- The binary ones (src/expression/numerical.h 82-83, boolean.h 34-39). -/
inductive Bin | mod | pow | eq | df | lt | gt | leq | geq
/-- The multivariate ones (src/expression/numerical.h 63-66, 87-88, boolean.h 32-33). -/
inductive Nary | add | sub | mul | div | min | max | and | or

/-- A truth value as a number. -/
noncomputable def truth (p : Prop) : ℝ := open Classical in if p then 1 else 0

/-- Conversion to `int`. -/
noncomputable def trunc (x : ℝ) : ℤ := if 0 ≤ x then ⌊x⌋ else ⌈x⌉

noncomputable def Un.op : Un → ℝ → ℝ
  | .neg, x => -x | .abs, x => |x| | .tan, x => Real.tan x | .cosh, x => Real.cosh x | .sinh, x => Real.sinh x
  | .tanh, x => Real.tanh x | .exp, x => Real.exp x | .log, x => Real.log x | .log10, x => Real.logb 10 x
  | .sqrt, x => Real.sqrt x | .ceil, x => (⌈x⌉ : ℝ) | .floor, x => (⌊x⌋ : ℝ) | .not, x => truth (x = 0)

noncomputable def Fx.op : Fx → ℝ → ℝ
  | .acos, x => Real.arccos x | .asin, x => Real.arcsin x | .atan, x => Real.arctan x
  | .cos, x => Real.cos x | .sin, x => Real.sin x

/-- The specializations of `interval` (src/expression/numerical.h 169-196). -/
noncomputable def Fx.interval : Fx → Iv
  | .acos => closed 0 Real.pi
  | .asin => closed (-(Real.pi / 2)) (Real.pi / 2)
  | .atan => closed (-(Real.pi / 2)) (Real.pi / 2)
  | .cos => closed (-1) 1
  | .sin => closed (-1) 1

noncomputable def Bin.op : Bin → ℝ → ℝ → ℝ
  | .mod, x, y => ((trunc x).tmod (trunc y) : ℤ) | .pow, x, y => x ^ y
  | .eq, x, y => truth (x = y) | .df, x, y => truth (x ≠ y) | .lt, x, y => truth (x < y) | .gt, x, y => truth (y < x)
  | .leq, x, y => truth (x ≤ y) | .geq, x, y => truth (y ≤ x)

noncomputable def Nary.op : Nary → ℝ → ℝ → ℝ
  | .add, x, y => x + y | .sub, x, y => x - y | .mul, x, y => x * y | .div, x, y => x / y
  | .min, x, y => Min.min x y | .max, x, y => Max.max x y | .and, x, y => truth (x ≠ 0 ∧ y ≠ 0) | .or, x, y => truth (x ≠ 0 ∨ y ≠ 0)

mutual
/-- Expressions. Parameters stand for their expressions (src/parameter.h 99-106); the same deviate may occur several times. -/
inductive Ex where
  | const (c : ℝ)
  /-- `MissionTime` (src/parameter.h 52-84). -/
  | time
  /-- `TestEvent` (src/expression/test_event.h): a context-dependent truth value. -/
  | test (id : Nat)
  /-- A random deviate: its identity, its mean, its interval. -/
  | dev (id : Nat) (mean : ℝ) (iv : Iv)
  | un (op : Un) (e : Ex)
  | fx (op : Fx) (e : Ex)
  | bin (op : Bin) (a b : Ex)
  | nary (op : Nary) (a : Ex) (es : Exs)
  /-- `Mean` (src/expression/numerical.h 92-119). -/
  | mean (es : Exs)
  | ite (c t e : Ex)
  | switch (cs : Cases) (d : Ex)
  | exponential (la t : Ex)
  | glm (ga la mu t : Ex)
  | weibull (al be t0 t : Ex)
  | instantRepair (la tau th t : Ex)
  | instantTest (la mu tau th t : Ex)
  | complete (la laTest mu tau th ga dur av si om t : Ex)
  /-- `ExternExpression` (src/expression/extern.h 143-196): an arbitrary function. -/
  | extern (f : List ℝ → ℝ) (es : Exs)
inductive Exs where
  | nil
  | cons (e : Ex) (es : Exs)
inductive Cases where
  | nil
  | cons (c v : Ex) (cs : Cases)
end

/-- What an evaluation depends on: the deviates (given their means), the mission time, the test events. -/
structure Env where
  dev : Nat → ℝ → ℝ
  time : ℝ
  test : Nat → ℝ

def Exs.length : Exs → Nat
  | .nil => 0
  | .cons _ es => es.length + 1

mutual
/-- `value()` and `DoSample()` (the same `Compute`, src/expression.h 155-180; src/expression/*.h). -/
noncomputable def Ex.eval (r : Env) : Ex → ℝ
  | .const c => c
  | .time => r.time
  | .test i => r.test i
  | .dev i m _ => r.dev i m
  | .un op e => op.op (e.eval r)
  | .fx op e => op.op (e.eval r)
  | .bin op a b => op.op (a.eval r) (b.eval r)
  | .nary op a es => es.fold r op.op (a.eval r)
  | .mean es => es.fold r (· + ·) 0 / es.length
  | .ite c t e => open Classical in if c.eval r ≠ 0 then t.eval r else e.eval r
  | .switch cs d => cs.pick r (d.eval r)
  | .exponential la t => FailureModels.exponential (la.eval r) (t.eval r)
  | .glm ga la mu t => FailureModels.glm (ga.eval r) (la.eval r) (mu.eval r) (t.eval r)
  | .weibull al be t0 t => FailureModels.weibull (al.eval r) (be.eval r) (t0.eval r) (t.eval r)
  | .instantRepair la tau th t => FailureModels.instantRepair (la.eval r) (tau.eval r) (th.eval r) (t.eval r)
  | .instantTest la mu tau th t =>
    FailureModels.instantTest (la.eval r) (mu.eval r) (tau.eval r) (th.eval r) (t.eval r)
  | .complete la laTest mu tau th ga dur av si om t =>
    open Classical in
    FailureModels.complete (la.eval r) (laTest.eval r) (mu.eval r) (tau.eval r) (th.eval r) (ga.eval r) (dur.eval r)
      (decide (av.eval r ≠ 0)) (si.eval r) (om.eval r) (t.eval r)
  | .extern f es => f (es.list r)
noncomputable def Exs.fold (r : Env) (f : ℝ → ℝ → ℝ) : Exs → ℝ → ℝ
  | .nil, x => x
  | .cons e es, x => es.fold r f (f x (e.eval r))
noncomputable def Exs.list (r : Env) : Exs → List ℝ
  | .nil => []
  | .cons e es => e.eval r :: es.list r
noncomputable def Cases.pick (r : Env) : Cases → ℝ → ℝ
  | .nil, d => d
  | .cons c v cs, d => open Classical in if c.eval r ≠ 0 then v.eval r else cs.pick r d
end

/-- The unary interval (src/expression.h 203-209). -/
noncomputable def unInterval (f : ℝ → ℝ) (i : Iv) : Iv := closed (min (f i.hi) (f i.lo)) (max (f i.hi) (f i.lo))

/-- The four corners (src/expression.h 232-241, 281-289). -/
noncomputable def binInterval (f : ℝ → ℝ → ℝ) (i j : Iv) : Iv :=
  closed (min (min (f i.hi j.hi) (f i.hi j.lo)) (min (f i.lo j.hi) (f i.lo j.lo)))
    (max (max (f i.hi j.hi) (f i.hi j.lo)) (max (f i.lo j.hi) (f i.lo j.lo)))

/-- The environment of `value()`: deviates at their means. -/
def means (T : ℝ) (ctx : Nat → ℝ) : Env := ⟨fun _ m => m, T, ctx⟩

mutual
/-- `interval()`; `m` is the environment of `value()`. -/
noncomputable def Ex.interval (m : Env) : Ex → Iv
  | .const c => closed c c
  | .time => closed 0 m.time
  | .test _ => closed 0 1
  | .dev _ _ iv => iv
  | .un op e => unInterval op.op (e.interval m)
  | .fx op _ => op.interval
  | .bin op a b => binInterval op.op (a.interval m) (b.interval m)
  | .nary op a es => es.foldInterval m op.op (closed (a.interval m).lo (a.interval m).hi)
  | .mean es => closed (es.sumLo m / es.length) (es.sumHi m / es.length)
  | .ite _ t e => closed (min (t.interval m).lo (e.interval m).lo) (max (t.interval m).hi (e.interval m).hi)
  | .switch cs d => cs.hull m (closed (d.interval m).lo (d.interval m).hi)
  | .exponential _ _ => closed 0 1
  | .glm _ _ _ _ => closed 0 1
  | .weibull _ _ _ _ => closed 0 1
  | .instantRepair _ _ _ _ => closed 0 1
  | .instantTest _ _ _ _ _ => closed 0 1
  | .complete _ _ _ _ _ _ _ _ _ _ _ => closed 0 1
  | .extern f es => closed (f (es.list m)) (f (es.list m))
/-- The loop of the multivariate interval (src/expression.h 275-292). -/
noncomputable def Exs.foldInterval (m : Env) (f : ℝ → ℝ → ℝ) : Exs → Iv → Iv
  | .nil, i => i
  | .cons e es, i => es.foldInterval m f (binInterval f i (e.interval m))
noncomputable def Exs.sumLo (m : Env) : Exs → ℝ
  | .nil => 0
  | .cons e es => (e.interval m).lo + es.sumLo m
noncomputable def Exs.sumHi (m : Env) : Exs → ℝ
  | .nil => 0
  | .cons e es => (e.interval m).hi + es.sumHi m
/-- The loop of `Switch::interval` (src/expression/conditional.cc 44-55). -/
noncomputable def Cases.hull (m : Env) : Cases → Iv → Iv
  | .nil, i => i
  | .cons _ v cs, i => cs.hull m (closed (min i.lo (v.interval m).lo) (max i.hi (v.interval m).hi))
end

/-- `EnsureProbability` (src/expression.cc 75-85). -/
def EnsureProbability (m : Env) (e : Ex) : Prop := 0 ≤ e.eval m ∧ e.eval m ≤ 1 ∧ (e.interval m).IsProbability
/-- `EnsurePositive` (src/expression.cc 87-101). -/
def EnsurePositive (m : Env) (e : Ex) : Prop := 0 < e.eval m ∧ (e.interval m).IsPositive
/-- `EnsureNonNegative` (src/expression.cc 103-117). -/
def EnsureNonNegative (m : Env) (e : Ex) : Prop := 0 ≤ e.eval m ∧ (e.interval m).IsNonNegative

/-- The loop of `Div::Validate` (src/expression/numerical.cc 28-37). -/
def Exs.noZero (m : Env) : Exs → Prop
  | .nil => True
  | .cons e es => (e.eval m ≠ 0 ∧ ¬ (e.interval m).Has 0) ∧ es.noZero m

mutual
/-- All expressions of the tree pass their `Validate` (src/initializer.cc 1803-1811). The checks that only guard the domain
of `Mod`, `Pow`, `Acos`, `Asin` are left out: the theorems do not need them. -/
def Ex.Valid (m : Env) : Ex → Prop
  | .const _ => True
  | .time => True
  | .test _ => True
  | .dev _ _ _ => True
  | .un op e => e.Valid m ∧
    match op with
    | .log | .log10 => EnsurePositive m e
    | .sqrt => EnsureNonNegative m e
    | _ => True
  | .fx _ e => e.Valid m
  | .bin _ a b => a.Valid m ∧ b.Valid m
  | .nary op a es => a.Valid m ∧ es.Valid m ∧
    match op with
    | .div => es.noZero m
    | _ => True
  | .mean es => es.Valid m
  | .ite c t e => c.Valid m ∧ t.Valid m ∧ e.Valid m
  | .switch cs d => cs.Valid m ∧ d.Valid m
  | .exponential la t => (la.Valid m ∧ t.Valid m) ∧ EnsureNonNegative m la ∧ EnsureNonNegative m t
  | .glm ga la mu t => (ga.Valid m ∧ la.Valid m ∧ mu.Valid m ∧ t.Valid m) ∧
    EnsurePositive m la ∧ EnsureNonNegative m mu ∧ EnsureNonNegative m t ∧ EnsureProbability m ga
  | .weibull al be t0 t => (al.Valid m ∧ be.Valid m ∧ t0.Valid m ∧ t.Valid m) ∧
    EnsurePositive m al ∧ EnsurePositive m be ∧ EnsureNonNegative m t0 ∧ EnsureNonNegative m t
  | .instantRepair la tau th t => (la.Valid m ∧ tau.Valid m ∧ th.Valid m ∧ t.Valid m) ∧
    EnsurePositive m la ∧ EnsurePositive m tau ∧ EnsureNonNegative m th ∧ EnsureNonNegative m t
  | .instantTest la mu tau th t => (la.Valid m ∧ mu.Valid m ∧ tau.Valid m ∧ th.Valid m ∧ t.Valid m) ∧
    EnsurePositive m la ∧ EnsurePositive m tau ∧ EnsureNonNegative m th ∧ EnsureNonNegative m t ∧ EnsureNonNegative m mu
  | .complete la laTest mu tau th ga dur av si om t =>
    (la.Valid m ∧ laTest.Valid m ∧ mu.Valid m ∧ tau.Valid m ∧ th.Valid m ∧ ga.Valid m ∧ dur.Valid m ∧ av.Valid m ∧
      si.Valid m ∧ om.Valid m ∧ t.Valid m) ∧
    EnsurePositive m la ∧ EnsurePositive m tau ∧ EnsureNonNegative m th ∧ EnsureNonNegative m t ∧ EnsureNonNegative m mu ∧
    EnsureNonNegative m laTest ∧ EnsurePositive m dur ∧ EnsureProbability m ga ∧ EnsureProbability m si ∧
    EnsureProbability m om ∧ dur.eval m ≤ tau.eval m ∧ (dur.interval m).hi ≤ (tau.interval m).lo
  | .extern _ es => es.Valid m
def Exs.Valid (m : Env) : Exs → Prop
  | .nil => True
  | .cons e es => e.Valid m ∧ es.Valid m
def Cases.Valid (m : Env) : Cases → Prop
  | .nil => True
  | .cons c v cs => c.Valid m ∧ v.Valid m ∧ cs.Valid m
end

/-! ## Where the corner rule is right -/

/-- The interval of an operand on which the function of one operand is monotone. -/
def Un.Fits (i : Iv) : Un → Prop
  | .neg | .sinh | .tanh | .exp | .ceil | .floor | .sqrt => True
  | .log | .log10 => 0 < i.lo
  | .abs | .cosh | .not => 0 ≤ i.lo ∨ i.hi ≤ 0
  | .tan => -(Real.pi / 2) < i.lo ∧ i.hi < Real.pi / 2

def Bin.Fits (i _j : Iv) : Bin → Prop
  | .lt | .gt | .leq | .geq => True
  | .pow => 0 < i.lo
  | .mod | .eq | .df => False

def Nary.Fits (i j : Iv) : Nary → Prop
  | .add | .sub | .mul | .min | .max => True
  | .div => 0 < j.lo ∨ j.hi < 0
  | .and | .or => 0 ≤ i.lo ∧ 0 ≤ j.lo

mutual
/-- No random deviate and no mission time or test event below. -/
def Ex.Fixed : Ex → Prop
  | .const _ => True
  | .time => False
  | .test _ => False
  | .dev _ _ _ => False
  | .un _ e => e.Fixed
  | .fx _ e => e.Fixed
  | .bin _ a b => a.Fixed ∧ b.Fixed
  | .nary _ a es => a.Fixed ∧ es.Fixed
  | .mean es => es.Fixed
  | .ite c t e => c.Fixed ∧ t.Fixed ∧ e.Fixed
  | .switch cs d => cs.Fixed ∧ d.Fixed
  | .exponential la t => la.Fixed ∧ t.Fixed
  | .glm ga la mu t => ga.Fixed ∧ la.Fixed ∧ mu.Fixed ∧ t.Fixed
  | .weibull al be t0 t => al.Fixed ∧ be.Fixed ∧ t0.Fixed ∧ t.Fixed
  | .instantRepair la tau th t => la.Fixed ∧ tau.Fixed ∧ th.Fixed ∧ t.Fixed
  | .instantTest la mu tau th t => la.Fixed ∧ mu.Fixed ∧ tau.Fixed ∧ th.Fixed ∧ t.Fixed
  | .complete la laTest mu tau th ga dur av si om t => la.Fixed ∧ laTest.Fixed ∧ mu.Fixed ∧ tau.Fixed ∧ th.Fixed ∧
    ga.Fixed ∧ dur.Fixed ∧ av.Fixed ∧ si.Fixed ∧ om.Fixed ∧ t.Fixed
  | .extern _ es => es.Fixed
def Exs.Fixed : Exs → Prop
  | .nil => True
  | .cons e es => e.Fixed ∧ es.Fixed
def Cases.Fixed : Cases → Prop
  | .nil => True
  | .cons c v cs => c.Fixed ∧ v.Fixed ∧ cs.Fixed
end

mutual
/-- Every operator of the tree is applied where the corner rule is right for it. -/
def Ex.Fits (m : Env) : Ex → Prop
  | .const _ => True
  | .time => True
  | .test _ => True
  | .dev _ _ _ => True
  | .un op e => e.Fits m ∧ op.Fits (e.interval m)
  | .fx _ e => e.Fits m
  | .bin op a b => a.Fits m ∧ b.Fits m ∧ op.Fits (a.interval m) (b.interval m)
  | .nary op a es => a.Fits m ∧ es.FitsFold m op (closed (a.interval m).lo (a.interval m).hi)
  | .mean es => es.Fits m
  | .ite c t e => c.Fits m ∧ t.Fits m ∧ e.Fits m
  | .switch cs d => cs.Fits m ∧ d.Fits m
  | .exponential la t => la.Fits m ∧ t.Fits m
  | .glm ga la mu t => ga.Fits m ∧ la.Fits m ∧ mu.Fits m ∧ t.Fits m
  | .weibull al be t0 t => al.Fits m ∧ be.Fits m ∧ t0.Fits m ∧ t.Fits m
  | .instantRepair la tau th t => la.Fits m ∧ tau.Fits m ∧ th.Fits m ∧ t.Fits m
  | .instantTest la mu tau th t => la.Fits m ∧ mu.Fits m ∧ tau.Fits m ∧ th.Fits m ∧ t.Fits m
  | .complete la laTest mu tau th ga dur av si om t => la.Fits m ∧ laTest.Fits m ∧ mu.Fits m ∧ tau.Fits m ∧ th.Fits m ∧
    ga.Fits m ∧ dur.Fits m ∧ av.Fits m ∧ si.Fits m ∧ om.Fits m ∧ t.Fits m
  | .extern _ es => es.Fixed
def Exs.Fits (m : Env) : Exs → Prop
  | .nil => True
  | .cons e es => e.Fits m ∧ es.Fits m
def Exs.FitsFold (m : Env) (op : Nary) : Exs → Iv → Prop
  | .nil, _ => True
  | .cons e es, i => e.Fits m ∧ op.Fits i (e.interval m) ∧ es.FitsFold m op (binInterval op.op i (e.interval m))
def Cases.Fits (m : Env) : Cases → Prop
  | .nil => True
  | .cons c v cs => c.Fits m ∧ v.Fits m ∧ cs.Fits m
end

mutual
/-- The environment gives every deviate of the tree a value in its interval. -/
def Ex.Sampled (r : Env) : Ex → Prop
  | .const _ => True
  | .time => True
  | .test _ => True
  | .dev i m iv => iv.Has (r.dev i m)
  | .un _ e => e.Sampled r
  | .fx _ e => e.Sampled r
  | .bin _ a b => a.Sampled r ∧ b.Sampled r
  | .nary _ a es => a.Sampled r ∧ es.Sampled r
  | .mean es => es.Sampled r
  | .ite c t e => c.Sampled r ∧ t.Sampled r ∧ e.Sampled r
  | .switch cs d => cs.Sampled r ∧ d.Sampled r
  | .exponential la t => la.Sampled r ∧ t.Sampled r
  | .glm ga la mu t => ga.Sampled r ∧ la.Sampled r ∧ mu.Sampled r ∧ t.Sampled r
  | .weibull al be t0 t => al.Sampled r ∧ be.Sampled r ∧ t0.Sampled r ∧ t.Sampled r
  | .instantRepair la tau th t => la.Sampled r ∧ tau.Sampled r ∧ th.Sampled r ∧ t.Sampled r
  | .instantTest la mu tau th t => la.Sampled r ∧ mu.Sampled r ∧ tau.Sampled r ∧ th.Sampled r ∧ t.Sampled r
  | .complete la laTest mu tau th ga dur av si om t => la.Sampled r ∧ laTest.Sampled r ∧ mu.Sampled r ∧ tau.Sampled r ∧
    th.Sampled r ∧ ga.Sampled r ∧ dur.Sampled r ∧ av.Sampled r ∧ si.Sampled r ∧ om.Sampled r ∧ t.Sampled r
  | .extern _ es => es.Sampled r
def Exs.Sampled (r : Env) : Exs → Prop
  | .nil => True
  | .cons e es => e.Sampled r ∧ es.Sampled r
def Cases.Sampled (r : Env) : Cases → Prop
  | .nil => True
  | .cons c v cs => c.Sampled r ∧ v.Sampled r ∧ cs.Sampled r
end

/-! ## Proofs -/

theorem Iv.Has.le {i : Iv} {x : ℝ} (h : i.Has x) : i.lo ≤ x ∧ x ≤ i.hi := by
  obtain ⟨h1, h2⟩ := h
  split at h1
  · exact ⟨h1.le, h2⟩
  · exact ⟨h1, h2⟩

theorem has_closed {a b x : ℝ} : (closed a b).Has x ↔ a ≤ x ∧ x ≤ b := by simp [closed, Iv.Has]

theorem Iv.Has.pos {i : Iv} {x : ℝ} (h : i.Has x) (hp : i.IsPositive) : 0 < x := by
  obtain ⟨h1, h2⟩ := hp
  rcases lt_or_eq_of_le (le_trans h1 h.le.1) with h3 | h3
  · exact h3
  · exact absurd (h3 ▸ h) h2

theorem Iv.Has.nonneg {i : Iv} {x : ℝ} (h : i.Has x) (hp : i.IsNonNegative) : 0 ≤ x := le_trans hp h.le.1

/-- Between the values at the two ends. -/
def Between (f : ℝ → ℝ) (a b : ℝ) : Prop := ∀ x, a ≤ x → x ≤ b → min (f b) (f a) ≤ f x ∧ f x ≤ max (f b) (f a)

theorem between_mono {f : ℝ → ℝ} {a b : ℝ} (h : ∀ x y, a ≤ x → x ≤ y → y ≤ b → f x ≤ f y) : Between f a b := by
  intro x h1 h2
  exact ⟨le_trans (min_le_right _ _) (h a x (le_refl a) h1 h2), le_trans (h x b h1 h2 (le_refl b)) (le_max_left _ _)⟩

theorem between_anti {f : ℝ → ℝ} {a b : ℝ} (h : ∀ x y, a ≤ x → x ≤ y → y ≤ b → f y ≤ f x) : Between f a b := by
  intro x h1 h2
  exact ⟨le_trans (min_le_left _ _) (h x b h1 h2 (le_refl b)), le_trans (h a x (le_refl a) h1 h2) (le_max_right _ _)⟩

theorem un_sound {f : ℝ → ℝ} {i : Iv} {x : ℝ} (hx : i.Has x) (h : Between f i.lo i.hi) : (unInterval f i).Has (f x) := by
  rw [unInterval, has_closed]
  exact h x hx.le.1 hx.le.2

theorem bin_sound {f : ℝ → ℝ → ℝ} {i j : Iv} {x y : ℝ} (hx : i.Has x) (hy : j.Has y)
    (h1 : ∀ y, j.lo ≤ y → y ≤ j.hi → Between (f · y) i.lo i.hi) (h2 : ∀ x, i.lo ≤ x → x ≤ i.hi → Between (f x) j.lo j.hi) :
    (binInterval f i j).Has (f x y) := by
  rw [binInterval, has_closed]
  obtain ⟨x1, x2⟩ := hx.le
  obtain ⟨y1, y2⟩ := hy.le
  have a := h1 y y1 y2 x x1 x2
  have b := h2 i.lo (le_refl _) (x1.trans x2) y y1 y2
  have c := h2 i.hi (x1.trans x2) (le_refl _) y y1 y2
  exact ⟨le_trans (min_le_min c.1 b.1) a.1, le_trans a.2 (max_le_max c.2 b.2)⟩

theorem truth_mono {p q : Prop} (h : p → q) : truth p ≤ truth q := by
  unfold truth
  by_cases hp : p
  · simp [hp, h hp]
  · simp only [hp, if_false]; split <;> norm_num

theorem Un.sound {op : Un} {i : Iv} (h : op.Fits i) (hne : i.lo ≤ i.hi) : Between op.op i.lo i.hi := by
  cases op
  case neg => exact between_anti fun x y _ h _ => neg_le_neg h
  case abs =>
    rcases h with h | h
    · exact between_mono fun x y h1 h2 _ => by
        simp only [Un.op]; rw [abs_of_nonneg (by linarith), abs_of_nonneg (by linarith)]; exact h2
    · exact between_anti fun x y h1 h2 h3 => by
        simp only [Un.op]; rw [abs_of_nonpos (by linarith), abs_of_nonpos (by linarith)]; linarith
  case tan =>
    obtain ⟨h1, h2⟩ := h
    exact between_mono fun x y hx hxy hy => by
      rcases eq_or_lt_of_le hxy with rfl | hlt
      · exact le_refl _
      · exact (Real.tan_lt_tan_of_lt_of_lt_pi_div_two (by linarith) (by linarith) hlt).le
  case cosh =>
    rcases h with h | h
    · exact between_mono fun x y h1 h2 _ => by
        simp only [Un.op]; rw [Real.cosh_le_cosh, abs_of_nonneg (by linarith), abs_of_nonneg (by linarith)]; exact h2
    · exact between_anti fun x y h1 h2 h3 => by
        simp only [Un.op]; rw [Real.cosh_le_cosh, abs_of_nonpos (by linarith), abs_of_nonpos (by linarith)]; linarith
  case sinh => exact between_mono fun x y _ h _ => Real.sinh_le_sinh.2 h
  case tanh =>
    exact between_mono fun x y _ h _ => by
      simp only [Un.op, Real.tanh_eq_sinh_div_cosh]
      rw [div_le_div_iff₀ (Real.cosh_pos x) (Real.cosh_pos y)]
      have : 0 ≤ Real.sinh (y - x) := by rw [Real.sinh_nonneg_iff]; linarith
      rw [Real.sinh_sub] at this
      linarith
  case exp => exact between_mono fun x y _ h _ => Real.exp_le_exp.2 h
  case log => exact between_mono fun x y h1 h2 _ => Real.log_le_log (lt_of_lt_of_le h h1) h2
  case log10 =>
    exact between_mono fun x y h1 h2 _ => by
      simp only [Un.op]
      exact Real.logb_le_logb_of_le (by norm_num) (lt_of_lt_of_le h h1) h2
  case sqrt => exact between_mono fun x y _ h _ => Real.sqrt_le_sqrt h
  case ceil => exact between_mono fun x y _ h _ => by simp only [Un.op]; exact_mod_cast Int.ceil_mono h
  case floor => exact between_mono fun x y _ h _ => by simp only [Un.op]; exact_mod_cast Int.floor_mono h
  case not =>
    rcases h with h | h
    · exact between_anti fun x y h1 h2 _ => truth_mono fun h3 => by linarith
    · exact between_mono fun x y h1 h2 h3 => truth_mono fun h4 => by linarith

theorem Fx.sound (op : Fx) (x : ℝ) : op.interval.Has (op.op x) := by
  cases op <;> simp only [Fx.interval, has_closed, Fx.op]
  · exact ⟨Real.arccos_nonneg x, Real.arccos_le_pi x⟩
  · exact ⟨Real.neg_pi_div_two_le_arcsin x, Real.arcsin_le_pi_div_two x⟩
  · exact ⟨(Real.neg_pi_div_two_lt_arctan x).le, (Real.arctan_lt_pi_div_two x).le⟩
  · exact ⟨Real.neg_one_le_cos x, Real.cos_le_one x⟩
  · exact ⟨Real.neg_one_le_sin x, Real.sin_le_one x⟩

theorem Bin.sound {op : Bin} {i j : Iv} {x y : ℝ} (hx : i.Has x) (hy : j.Has y) (h : op.Fits i j) :
    (binInterval op.op i j).Has (op.op x y) := by
  cases op
  case mod => exact h.elim
  case eq => exact h.elim
  case df => exact h.elim
  case pow =>
    have hlo : 0 < i.lo := h
    apply bin_sound hx hy
    · intro y _ _
      simp only [Bin.op]
      rcases le_total 0 y with h0 | h0
      · exact between_mono fun a b h1 h2 _ => Real.rpow_le_rpow (by linarith) h2 h0
      · exact between_anti fun a b h1 h2 _ => Real.rpow_le_rpow_of_nonpos (by linarith) h2 h0
    · intro x h1 _
      rcases le_total 1 x with h0 | h0
      · exact between_mono fun a b _ h2 _ => Real.rpow_le_rpow_of_exponent_le h0 h2
      · exact between_anti fun a b _ h2 _ => Real.rpow_le_rpow_of_exponent_ge (by linarith) h0 h2
  case lt =>
    apply bin_sound hx hy
    · intro y _ _; exact between_anti fun a b _ h _ => truth_mono fun h' => by linarith
    · intro y _ _; exact between_mono fun a b _ h _ => truth_mono fun h' => by linarith
  case gt =>
    apply bin_sound hx hy
    · intro y _ _; exact between_mono fun a b _ h _ => truth_mono fun h' => by linarith
    · intro y _ _; exact between_anti fun a b _ h _ => truth_mono fun h' => by linarith
  case leq =>
    apply bin_sound hx hy
    · intro y _ _; exact between_anti fun a b _ h _ => truth_mono fun h' => by linarith
    · intro y _ _; exact between_mono fun a b _ h _ => truth_mono fun h' => by linarith
  case geq =>
    apply bin_sound hx hy
    · intro y _ _; exact between_mono fun a b _ h _ => truth_mono fun h' => by linarith
    · intro y _ _; exact between_anti fun a b _ h _ => truth_mono fun h' => by linarith

theorem Nary.sound {op : Nary} {i j : Iv} {x y : ℝ} (hx : i.Has x) (hy : j.Has y) (h : op.Fits i j) :
    (binInterval op.op i j).Has (op.op x y) := by
  cases op
  case add =>
    apply bin_sound hx hy
    · intro y _ _; exact between_mono fun a b _ h _ => by simp only [Nary.op]; linarith
    · intro y _ _; exact between_mono fun a b _ h _ => by simp only [Nary.op]; linarith
  case sub =>
    apply bin_sound hx hy
    · intro y _ _; exact between_mono fun a b _ h _ => by simp only [Nary.op]; linarith
    · intro y _ _; exact between_anti fun a b _ h _ => by simp only [Nary.op]; linarith
  case mul =>
    apply bin_sound hx hy
    · intro y _ _
      rcases le_total 0 y with h0 | h0
      · exact between_mono fun a b _ h _ => by simp only [Nary.op]; nlinarith
      · exact between_anti fun a b _ h _ => by simp only [Nary.op]; nlinarith
    · intro y _ _
      rcases le_total 0 y with h0 | h0
      · exact between_mono fun a b _ h _ => by simp only [Nary.op]; nlinarith
      · exact between_anti fun a b _ h _ => by simp only [Nary.op]; nlinarith
  case div =>
    apply bin_sound hx hy
    · intro y h1 h2
      rcases h with h | h
      · exact between_mono fun a b _ h' _ => by
          simp only [Nary.op]; exact div_le_div_of_nonneg_right h' (by linarith)
      · exact between_anti fun a b _ h' _ => by
          simp only [Nary.op]; exact div_le_div_of_nonpos_of_le (by linarith) h'
    · intro x _ _
      have hinv : ∀ a b, j.lo ≤ a → a ≤ b → b ≤ j.hi → b⁻¹ ≤ a⁻¹ := by
        intro a b h1 h2 h3
        rcases h with h | h
        · exact inv_anti₀ (by linarith) h2
        · rw [inv_le_inv_of_neg (by linarith) (by linarith)]; exact h2
      rcases le_total 0 x with h0 | h0
      · exact between_anti fun a b h1 h2 h3 => by
          simp only [Nary.op, div_eq_mul_inv]; exact mul_le_mul_of_nonneg_left (hinv a b h1 h2 h3) h0
      · exact between_mono fun a b h1 h2 h3 => by
          simp only [Nary.op, div_eq_mul_inv]; exact mul_le_mul_of_nonpos_left (hinv a b h1 h2 h3) h0
  case min =>
    apply bin_sound hx hy
    · intro y _ _; exact between_mono fun a b _ h _ => min_le_min_right _ h
    · intro y _ _; exact between_mono fun a b _ h _ => min_le_min_left _ h
  case max =>
    apply bin_sound hx hy
    · intro y _ _; exact between_mono fun a b _ h _ => max_le_max_right _ h
    · intro y _ _; exact between_mono fun a b _ h _ => max_le_max_left _ h
  case and =>
    obtain ⟨g1, g2⟩ := h
    apply bin_sound hx hy
    · intro y _ _; exact between_mono fun a b h1 h2 _ => truth_mono fun ⟨h3, h4⟩ => ⟨by
        rintro rfl; exact h3 (le_antisymm h2 (by linarith)), h4⟩
    · intro y _ _; exact between_mono fun a b h1 h2 _ => truth_mono fun ⟨h3, h4⟩ => ⟨h3, by
        rintro rfl; exact h4 (le_antisymm h2 (by linarith))⟩
  case or =>
    obtain ⟨g1, g2⟩ := h
    apply bin_sound hx hy
    · intro y _ _; exact between_mono fun a b h1 h2 _ => truth_mono fun h3 => by
        rcases h3 with h3 | h3
        · left; rintro rfl; exact h3 (le_antisymm h2 (by linarith))
        · exact .inr h3
    · intro y _ _; exact between_mono fun a b h1 h2 _ => truth_mono fun h3 => by
        rcases h3 with h3 | h3
        · exact .inl h3
        · right; rintro rfl; exact h3 (le_antisymm h2 (by linarith))

mutual
theorem Ex.eval_fixed (r m : Env) : ∀ e : Ex, e.Fixed → e.eval r = e.eval m
  | .const _, _ => rfl
  | .time, h => h.elim
  | .test _, h => h.elim
  | .dev _ _ _, h => h.elim
  | .un _ e, h => by simp only [Ex.eval]; rw [Ex.eval_fixed r m e h]
  | .fx _ e, h => by simp only [Ex.eval]; rw [Ex.eval_fixed r m e h]
  | .bin _ a b, h => by simp only [Ex.eval]; rw [Ex.eval_fixed r m a h.1, Ex.eval_fixed r m b h.2]
  | .nary _ a es, h => by simp only [Ex.eval]; rw [Ex.eval_fixed r m a h.1, Exs.fold_fixed r m es h.2]
  | .mean es, h => by simp only [Ex.eval]; rw [Exs.fold_fixed r m es h]
  | .ite c t e, h => by
    simp only [Ex.eval]; rw [Ex.eval_fixed r m c h.1, Ex.eval_fixed r m t h.2.1, Ex.eval_fixed r m e h.2.2]
  | .switch cs d, h => by simp only [Ex.eval]; rw [Ex.eval_fixed r m d h.2, Cases.pick_fixed r m cs h.1]
  | .exponential la t, h => by simp only [Ex.eval]; rw [Ex.eval_fixed r m la h.1, Ex.eval_fixed r m t h.2]
  | .glm ga la mu t, h => by
    simp only [Ex.eval]
    rw [Ex.eval_fixed r m ga h.1, Ex.eval_fixed r m la h.2.1, Ex.eval_fixed r m mu h.2.2.1, Ex.eval_fixed r m t h.2.2.2]
  | .weibull al be t0 t, h => by
    simp only [Ex.eval]
    rw [Ex.eval_fixed r m al h.1, Ex.eval_fixed r m be h.2.1, Ex.eval_fixed r m t0 h.2.2.1, Ex.eval_fixed r m t h.2.2.2]
  | .instantRepair la tau th t, h => by
    simp only [Ex.eval]
    rw [Ex.eval_fixed r m la h.1, Ex.eval_fixed r m tau h.2.1, Ex.eval_fixed r m th h.2.2.1, Ex.eval_fixed r m t h.2.2.2]
  | .instantTest la mu tau th t, h => by
    simp only [Ex.eval]
    rw [Ex.eval_fixed r m la h.1, Ex.eval_fixed r m mu h.2.1, Ex.eval_fixed r m tau h.2.2.1, Ex.eval_fixed r m th h.2.2.2.1,
      Ex.eval_fixed r m t h.2.2.2.2]
  | .complete la laTest mu tau th ga dur av si om t, h => by
    obtain ⟨h1, h2, h3, h4, h5, h6, h7, h8, h9, h10, h11⟩ := h
    simp only [Ex.eval]
    rw [Ex.eval_fixed r m la h1, Ex.eval_fixed r m laTest h2, Ex.eval_fixed r m mu h3, Ex.eval_fixed r m tau h4,
      Ex.eval_fixed r m th h5, Ex.eval_fixed r m ga h6, Ex.eval_fixed r m dur h7, Ex.eval_fixed r m av h8,
      Ex.eval_fixed r m si h9, Ex.eval_fixed r m om h10, Ex.eval_fixed r m t h11]
  | .extern _ es, h => by simp only [Ex.eval]; rw [Exs.list_fixed r m es h]
theorem Exs.fold_fixed (r m : Env) : ∀ es : Exs, es.Fixed → ∀ f x, es.fold r f x = es.fold m f x
  | .nil, _, _, _ => rfl
  | .cons e es, h, f, x => by simp only [Exs.fold]; rw [Ex.eval_fixed r m e h.1, Exs.fold_fixed r m es h.2]
theorem Exs.list_fixed (r m : Env) : ∀ es : Exs, es.Fixed → es.list r = es.list m
  | .nil, _ => rfl
  | .cons e es, h => by simp only [Exs.list]; rw [Ex.eval_fixed r m e h.1, Exs.list_fixed r m es h.2]
theorem Cases.pick_fixed (r m : Env) : ∀ cs : Cases, cs.Fixed → ∀ d, cs.pick r d = cs.pick m d
  | .nil, _, _ => rfl
  | .cons c v cs, h, d => by
    simp only [Cases.pick]; rw [Ex.eval_fixed r m c h.1, Ex.eval_fixed r m v h.2.1, Cases.pick_fixed r m cs h.2.2]
end

theorem closed_mono {a b a' b' x : ℝ} (h : (closed a b).Has x) (h1 : a' ≤ a) (h2 : b ≤ b') : (closed a' b').Has x := by
  rw [has_closed] at h ⊢
  exact ⟨h1.trans h.1, h.2.trans h2⟩


theorem Iv.Has.widen {i : Iv} {x : ℝ} (h : i.Has x) : (closed i.lo i.hi).Has x := has_closed.2 h.le

theorem Iv.Has.ne {i : Iv} {x : ℝ} (h : i.Has x) : i.lo ≤ i.hi := h.le.1.trans h.le.2

theorem Cases.hull_keeps (m : Env) : ∀ (cs : Cases) (lo hi x : ℝ), (closed lo hi).Has x → (cs.hull m (closed lo hi)).Has x
  | .nil, _, _, _, h => h
  | .cons c v cs, lo, hi, x, h => by
    simp only [Cases.hull]
    exact Cases.hull_keeps m cs _ _ x (closed_mono h (min_le_left _ _) (le_max_left _ _))

mutual
theorem Ex.sound (r m : Env) (ht : 0 ≤ r.time) (hT : r.time ≤ m.time) (hc : ∀ i, 0 ≤ r.test i ∧ r.test i ≤ 1) :
    ∀ e : Ex, e.Valid m → e.Fits m → e.Sampled r → (e.interval m).Has (e.eval r)
  | .const c, _, _, _ => by simp [Ex.interval, Ex.eval, has_closed]
  | .time, _, _, _ => by simpa [Ex.interval, Ex.eval, has_closed] using ⟨ht, hT⟩
  | .test i, _, _, _ => by simpa [Ex.interval, Ex.eval, has_closed] using hc i
  | .dev i mm iv, _, _, hs => by simpa [Ex.interval, Ex.eval, Ex.Sampled] using hs
  | .un op e, hv, hf, hs => by
    have h := Ex.sound r m ht hT hc e hv.1 hf.1 hs
    simp only [Ex.interval, Ex.eval]
    exact un_sound h (Un.sound hf.2 h.ne)
  | .fx op e, _, _, _ => by
    simp only [Ex.interval, Ex.eval]
    exact Fx.sound op _
  | .bin op a b, hv, hf, hs => by
    simp only [Ex.interval, Ex.eval]
    exact Bin.sound (Ex.sound r m ht hT hc a hv.1 hf.1 hs.1) (Ex.sound r m ht hT hc b hv.2 hf.2.1 hs.2) hf.2.2
  | .nary op a es, hv, hf, hs => by
    simp only [Ex.interval, Ex.eval]
    exact Exs.sound r m ht hT hc es op _ _ hv.2.1 hf.2 hs.2 (Ex.sound r m ht hT hc a hv.1 hf.1 hs.1).widen
  | .mean es, hv, hf, hs => by
    simp only [Ex.interval, Ex.eval, has_closed]
    have h := Exs.sum_sound r m ht hT hc es 0 hv hf hs
    have hl : (0 : ℝ) ≤ es.length := Nat.cast_nonneg _
    exact ⟨div_le_div_of_nonneg_right (by linarith [h.1]) hl, div_le_div_of_nonneg_right (by linarith [h.2]) hl⟩
  | .ite c t e, hv, hf, hs => by
    have h1 := (Ex.sound r m ht hT hc t hv.2.1 hf.2.1 hs.2.1).widen
    have h2 := (Ex.sound r m ht hT hc e hv.2.2 hf.2.2 hs.2.2).widen
    simp only [Ex.interval, Ex.eval]
    split
    · exact closed_mono h1 (min_le_left _ _) (le_max_left _ _)
    · exact closed_mono h2 (min_le_right _ _) (le_max_right _ _)
  | .switch cs d, hv, hf, hs => by
    simp only [Ex.interval, Ex.eval]
    exact Cases.sound r m ht hT hc cs _ _ _ hv.1 hf.1 hs.1 (Ex.sound r m ht hT hc d hv.2 hf.2 hs.2).widen
  | .exponential la t, hv, hf, hs => by
    have h1 := Ex.sound r m ht hT hc la hv.1.1 hf.1 hs.1
    have h2 := Ex.sound r m ht hT hc t hv.1.2 hf.2 hs.2
    simp only [Ex.interval, Ex.eval, has_closed]
    exact Props.C34.exponential_probability _ _ (h1.nonneg hv.2.1.2) (h2.nonneg hv.2.2.2)
  | .glm ga la mu t, hv, hf, hs => by
    obtain ⟨⟨v1, v2, v3, v4⟩, c1, c2, c3, c4⟩ := hv
    obtain ⟨f1, f2, f3, f4⟩ := hf
    obtain ⟨s1, s2, s3, s4⟩ := hs
    have h1 := Ex.sound r m ht hT hc ga v1 f1 s1
    have h2 := Ex.sound r m ht hT hc la v2 f2 s2
    have h3 := Ex.sound r m ht hT hc mu v3 f3 s3
    have h4 := Ex.sound r m ht hT hc t v4 f4 s4
    have hg := c4.2.2 _ h1
    have h := Props.C34.glm_probability _ _ _ _ (h2.pos c1.2) (h3.nonneg c2.2) (h4.nonneg c3.2) hg.1 hg.2
    simp only [Ex.interval, Ex.eval, has_closed]
    exact ⟨h.1, h.2.1⟩
  | .weibull al be t0 t, hv, hf, hs => by
    obtain ⟨⟨v1, v2, v3, v4⟩, c1, c2, c3, c4⟩ := hv
    have h1 := Ex.sound r m ht hT hc al v1 hf.1 hs.1
    simp only [Ex.interval, Ex.eval, has_closed]
    exact Props.C34.weibull_probability _ _ _ _ (h1.pos c1.2)
  | .instantRepair la tau th t, hv, hf, hs => by
    obtain ⟨⟨v1, v2, v3, v4⟩, c1, c2, c3, c4⟩ := hv
    obtain ⟨f1, f2, f3, f4⟩ := hf
    obtain ⟨s1, s2, s3, s4⟩ := hs
    have h1 := Ex.sound r m ht hT hc la v1 f1 s1
    have h2 := Ex.sound r m ht hT hc tau v2 f2 s2
    have h4 := Ex.sound r m ht hT hc t v4 f4 s4
    simp only [Ex.interval, Ex.eval, has_closed]
    exact Props.C34.instant_repair_probability _ _ _ _ (h1.pos c1.2) (h2.pos c2.2) (h4.nonneg c4.2)
  | .instantTest la mu tau th t, hv, hf, hs => by
    obtain ⟨⟨v1, v2, v3, v4, v5⟩, c1, c2, c3, c4, c5⟩ := hv
    obtain ⟨f1, f2, f3, f4, f5⟩ := hf
    obtain ⟨s1, s2, s3, s4, s5⟩ := hs
    have h1 := Ex.sound r m ht hT hc la v1 f1 s1
    have h2 := Ex.sound r m ht hT hc mu v2 f2 s2
    have h3 := Ex.sound r m ht hT hc tau v3 f3 s3
    have h4 := Ex.sound r m ht hT hc th v4 f4 s4
    have h5 := Ex.sound r m ht hT hc t v5 f5 s5
    simp only [Ex.interval, Ex.eval, has_closed]
    exact Props.C34.instant_test_probability _ _ _ _ _ (h1.pos c1.2) (h2.nonneg c5.2) (h3.pos c2.2) (h4.nonneg c3.2)
      (h5.nonneg c4.2)
  | .complete la laTest mu tau th ga dur av si om t, hv, hf, hs => by
    obtain ⟨⟨v1, v2, v3, v4, v5, v6, v7, v8, v9, v10, v11⟩, c1, c2, c3, c4, c5, c6, c7, c8, c9, c10, _, c11⟩ := hv
    obtain ⟨f1, f2, f3, f4, f5, f6, f7, f8, f9, f10, f11⟩ := hf
    obtain ⟨s1, s2, s3, s4, s5, s6, s7, s8, s9, s10, s11⟩ := hs
    have h1 := Ex.sound r m ht hT hc la v1 f1 s1
    have h2 := Ex.sound r m ht hT hc laTest v2 f2 s2
    have h3 := Ex.sound r m ht hT hc mu v3 f3 s3
    have h4 := Ex.sound r m ht hT hc tau v4 f4 s4
    have h5 := Ex.sound r m ht hT hc th v5 f5 s5
    have h6 := Ex.sound r m ht hT hc ga v6 f6 s6
    have h7 := Ex.sound r m ht hT hc dur v7 f7 s7
    have h9 := Ex.sound r m ht hT hc si v9 f9 s9
    have h10 := Ex.sound r m ht hT hc om v10 f10 s10
    have h11 := Ex.sound r m ht hT hc t v11 f11 s11
    simp only [Ex.interval, Ex.eval, has_closed]
    exact Props.C34.complete_probability _ _ _ _ _ _ _ _ _ _ _ (h1.pos c1.2) (h2.nonneg c6.2) (h3.nonneg c5.2)
      (h4.pos c2.2) (h5.nonneg c3.2) (h11.nonneg c4.2) (c8.2.2 _ h6).1 (c8.2.2 _ h6).2 (h7.pos c7.2)
      (h7.le.2.trans (c11.trans h4.le.1)) (c9.2.2 _ h9).1 (c9.2.2 _ h9).2 (c10.2.2 _ h10).1 (c10.2.2 _ h10).2
  | .extern f es, _, hf, _ => by
    simp only [Ex.interval, Ex.eval, has_closed, Exs.list_fixed r m es hf]
    exact ⟨le_refl _, le_refl _⟩
theorem Exs.sound (r m : Env) (ht : 0 ≤ r.time) (hT : r.time ≤ m.time) (hc : ∀ i, 0 ≤ r.test i ∧ r.test i ≤ 1) :
    ∀ (es : Exs) (op : Nary) (i : Iv) (x : ℝ), es.Valid m → es.FitsFold m op i → es.Sampled r → i.Has x →
      (es.foldInterval m op.op i).Has (es.fold r op.op x)
  | .nil, _, _, _, _, _, _, hx => hx
  | .cons e es, op, i, x, hv, hf, hs, hx => by
    simp only [Exs.foldInterval, Exs.fold]
    exact Exs.sound r m ht hT hc es op _ _ hv.2 hf.2.2 hs.2
      (Nary.sound hx (Ex.sound r m ht hT hc e hv.1 hf.1 hs.1) hf.2.1)
theorem Exs.sum_sound (r m : Env) (ht : 0 ≤ r.time) (hT : r.time ≤ m.time) (hc : ∀ i, 0 ≤ r.test i ∧ r.test i ≤ 1) :
    ∀ (es : Exs) (x : ℝ), es.Valid m → es.Fits m → es.Sampled r →
      x + es.sumLo m ≤ es.fold r (· + ·) x ∧ es.fold r (· + ·) x ≤ x + es.sumHi m
  | .nil, x, _, _, _ => by simp [Exs.sumLo, Exs.sumHi, Exs.fold]
  | .cons e es, x, hv, hf, hs => by
    have h1 := (Ex.sound r m ht hT hc e hv.1 hf.1 hs.1).le
    have h2 := Exs.sum_sound r m ht hT hc es (x + e.eval r) hv.2 hf.2 hs.2
    simp only [Exs.sumLo, Exs.sumHi, Exs.fold]
    exact ⟨by linarith [h1.1, h2.1], by linarith [h1.2, h2.2]⟩
theorem Cases.sound (r m : Env) (ht : 0 ≤ r.time) (hT : r.time ≤ m.time) (hc : ∀ i, 0 ≤ r.test i ∧ r.test i ≤ 1) :
    ∀ (cs : Cases) (lo hi d : ℝ), cs.Valid m → cs.Fits m → cs.Sampled r → (closed lo hi).Has d →
      (cs.hull m (closed lo hi)).Has (cs.pick r d)
  | .nil, _, _, _, _, _, _, hx => hx
  | .cons c v cs, lo, hi, d, hv, hf, hs, hx => by
    have h1 := (Ex.sound r m ht hT hc v hv.2.1 hf.2.1 hs.2.1).widen
    simp only [Cases.hull, Cases.pick]
    split
    · exact Cases.hull_keeps m cs _ _ _ (closed_mono h1 (min_le_right _ _) (le_max_right _ _))
    · exact Cases.sound r m ht hT hc cs _ _ d hv.2.2 hf.2.2 hs.2.2
        (closed_mono hx (min_le_left _ _) (le_max_left _ _))
end

end Scram.Intervals
