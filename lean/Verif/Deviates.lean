import Mathlib.Probability.Distributions.Gaussian.Real
import Mathlib.Probability.Distributions.Gamma
import Mathlib.Probability.Distributions.Beta
import Mathlib.Probability.CDF
import Mathlib.Analysis.SpecialFunctions.Integrals.Basic
/-!
# Model: random deviates

Models src/expression/random_deviate.h and random_deviate.cc.  The arguments are expressions; everything
here (validation, value, interval, samples) uses their `value()`, so a deviate is given by these numbers.
Numbers are real numbers: overflow, rounding, infinities and NaN are not modelled, so where the code
divides by zero a theorem must exclude the case.
-/
namespace Scram.Deviates
open MeasureTheory ProbabilityTheory Set
open scoped ENNReal NNReal

/-- A deviate with the values of its arguments (random_deviate.h 64–85, 88–112, 115–194, 197–217,
220–244, 247–281). -/
inductive Deviate
  | uniform (min max : ℝ)
  | normal (mean sigma : ℝ)
  /-- `LognormalDeviate` with `Logarithmic` -/
  | lognormal (mean ef level : ℝ)
  /-- `LognormalDeviate` with `Normal` -/
  | lognormal2 (mu sigma : ℝ)
  | gamma (k theta : ℝ)
  | beta (a b : ℝ)
  | histogram (boundaries weights : List ℝ)

/-- `boost::is_sorted` with `lhs <= rhs` as the order: it looks for a neighbour with `next <= current`
(random_deviate.cc 195–200). -/
def isSorted : List ℝ → Prop
  | [] => True
  | [_] => True
  | a :: b :: l => ¬ b ≤ a ∧ isSorted (b :: l)

/-- The constructor and `Validate` do not throw (random_deviate.cc 44–49, 59–63, 79–89, 110–113,
122–132, 150–160, 176–180, 191–201). -/
def Deviate.Valid : Deviate → Prop
  | .uniform min max => ¬ min ≥ max
  | .normal _ sigma => ¬ sigma ≤ 0
  | .lognormal mean ef level => ¬ (level ≤ 0 ∨ level ≥ 1) ∧ ¬ ef ≤ 1 ∧ ¬ mean ≤ 0
  | .lognormal2 _ sigma => ¬ sigma ≤ 0
  | .gamma k theta => ¬ k ≤ 0 ∧ ¬ theta ≤ 0
  | .beta a b => ¬ a ≤ 0 ∧ ¬ b ≤ 0
  | .histogram boundaries weights =>
    (weights.length : ℤ) = boundaries.length - 1 ∧ ¬ (∃ w ∈ weights, w < 0) ∧ isSorted boundaries

/-- The complementary error function (`boost::math::erfc`). -/
noncomputable def erfc (x : ℝ) : ℝ := 2 / √Real.pi * ∫ t in Ioi x, Real.exp (-t ^ 2)

/-- `boost::math::erfc_inv`: the specification of an inverse of `erfc` on (0, 2). -/
def IsErfcInv (g : ℝ → ℝ) : Prop := ∀ y, 0 < y → y < 2 → erfc (g y) = y

/-- The quantile `z` (random_deviate.cc 102). -/
noncomputable def zLevel (erfcInv : ℝ → ℝ) (level : ℝ) : ℝ := -√2 * erfcInv (2 * level)

/-- `Logarithmic::scale` (random_deviate.cc 101–104). -/
noncomputable def logScale (erfcInv : ℝ → ℝ) (ef level : ℝ) : ℝ := Real.log ef / zLevel erfcInv level

/-- `Logarithmic::location` (random_deviate.cc 106–108). -/
noncomputable def logLocation (erfcInv : ℝ → ℝ) (mean ef level : ℝ) : ℝ :=
  Real.log mean - logScale erfcInv ef level ^ 2 / 2

/-- The loop of `Histogram::value` (random_deviate.cc 204–214). -/
noncomputable def histogramLoop : ℝ → List ℝ → List ℝ → ℝ → ℝ → ℝ × ℝ
  | prev, b :: bs, w :: ws, product, weights =>
    histogramLoop b bs ws (product + (b + prev) * w) (weights + w)
  | _, _, _, product, weights => (product, weights)

/-- `value()` (random_deviate.h 75, 99, 138, 169, 208, 231–234, random_deviate.cc 115–117, 203–216). -/
noncomputable def Deviate.value : Deviate → ℝ
  | .uniform min max => (min + max) / 2
  | .normal mean _ => mean
  | .lognormal mean _ _ => mean
  | .lognormal2 mu sigma => Real.exp (mu + sigma ^ 2 / 2)
  | .gamma k theta => k * theta
  | .beta a b => a / (a + b)
  | .histogram boundaries weights =>
    let s := histogramLoop (boundaries.headD 0) boundaries.tail weights 0 0
    s.1 / (2 * s.2)

/-- `boost::math::gamma_q`: the normalised upper incomplete gamma function. -/
noncomputable def gammaQ (k x : ℝ) : ℝ := (gammaMeasure k 1).real (Ioi x)

/-- `boost::math::ibeta`: the normalised incomplete beta function. -/
noncomputable def ibeta (a b x : ℝ) : ℝ := (betaMeasure a b).real (Iic x)

/-- `interval()`: lower and upper bound (random_deviate.h 76–78, 101–105, 267–270,
random_deviate.cc 96–99, 134–140, 162–166).  Lognormal and gamma intervals are open on the left. -/
noncomputable def Deviate.interval (erfcInv : ℝ → ℝ) : Deviate → ℝ × ℝ
  | .uniform min max => (min, max)
  | .normal mean sigma => (mean - 6 * sigma, mean + 6 * sigma)
  | .lognormal mean ef level =>
    (0, Real.exp (3 * logScale erfcInv ef level + logLocation erfcInv mean ef level))
  | .lognormal2 mu sigma => (0, Real.exp (3 * sigma + mu))
  | .gamma k theta => (0, theta * (gammaQ k (gammaQ k 0 - 99 / 100))⁻¹)
  | .beta a b => (0, (ibeta a b (99 / 100))⁻¹)
  | .histogram boundaries _ => (boundaries.headD 0, boundaries.getLastD 0)

/-- `std::uniform_real_distribution` on `[a, b)`. -/
noncomputable def uniformLaw (a b : ℝ) : Measure ℝ :=
  ENNReal.ofReal (1 / (b - a)) • volume.restrict (Ico a b)

/-- `std::piecewise_constant_distribution` before the weights are normalised: the interval `i` has the
weight `w i`, spread uniformly. -/
noncomputable def pieces : List ℝ → List ℝ → Measure ℝ
  | a :: b :: bs, w :: ws => ENNReal.ofReal w • uniformLaw a b + pieces (b :: bs) ws
  | _, _ => 0

/-- The law of the samples: `DoSample` (random_deviate.cc 51–54, 65–68, 91–94, 142–145, 168–171,
228–235) with the distributions of the standard (C++17 [rand.dist]) and of Boost. -/
noncomputable def Deviate.law (erfcInv : ℝ → ℝ) : Deviate → Measure ℝ
  | .uniform min max => uniformLaw min max
  | .normal mean sigma => gaussianReal mean (NNReal.mk (sigma ^ 2) (sq_nonneg _))
  | .lognormal mean ef level =>
    (gaussianReal (logLocation erfcInv mean ef level)
      (NNReal.mk (logScale erfcInv ef level ^ 2) (sq_nonneg _))).map Real.exp
  | .lognormal2 mu sigma => (gaussianReal mu (NNReal.mk (sigma ^ 2) (sq_nonneg _))).map Real.exp
  | .gamma k theta => (gammaMeasure k 1).map (· * theta)
  | .beta a b => betaMeasure a b
  | .histogram boundaries weights =>
    (ENNReal.ofReal weights.sum)⁻¹ • pieces boundaries weights

end Scram.Deviates
