import Verif.Intervals
/-! # C32: expression intervals enclose values

`e.interval m` is the interval computed by the validation, `m` the environment of `value()` (deviates at their means, the
mission time of the model, the test events outside of event-tree walks), `r` any environment of a later evaluation: any value of
every random deviate inside its interval, any time from zero to the mission time, any state of the test events.

The full statement is false (`accepted_but_not_probability`): the corner rule is right only for functions monotone in each
operand, and `Ex.Fits` says where. -/
namespace Scram.Props.C32
open Scram.Intervals

/-- C32, where every operator is applied to intervals on which its corner rule is right (`Ex.Fits`). Missing: `abs`, `cosh`,
`not` over intervals with both signs, `tan` across a pole, `mod`, `eq`, `df`, `pow` with a base that may be zero or negative,
`and`/`or` of possibly negative operands, division by and logarithm of left-open intervals at zero (infinite bounds, not
represented over the reals), extern functions of random or time-dependent arguments. -/
theorem interval_encloses_partial (e : Ex) (m r : Env) (hv : e.Valid m) (hf : e.Fits m) (hs : e.Sampled r)
    (ht : 0 ≤ r.time) (hT : r.time ≤ m.time) (hc : ∀ i, 0 ≤ r.test i ∧ r.test i ≤ 1) :
    (e.interval m).Has (e.eval r) :=
  Ex.sound r m ht hT hc e hv hf hs

/-- C32: then an expression accepted as a probability (`BasicEvent::Validate`, src/event.cc 43-46, `EnsureProbability`)
evaluates into [0, 1] always. -/
theorem accepted_probability_partial (e : Ex) (m r : Env) (hv : e.Valid m) (ha : EnsureProbability m e) (hf : e.Fits m)
    (hs : e.Sampled r) (ht : 0 ≤ r.time) (hT : r.time ≤ m.time) (hc : ∀ i, 0 ≤ r.test i ∧ r.test i ≤ 1) :
    0 ≤ e.eval r ∧ e.eval r ≤ 1 :=
  ha.2.2 _ (interval_encloses_partial e m r hv hf hs ht hT hc)

/-- C32: all six failure models are accepted as probabilities whatever their arguments, and with validated arguments whose
intervals enclose them they are probabilities: here for the arguments of one exponential; the others are cases of
`interval_encloses_partial`. -/
theorem exponential_accepted (la t : Ex) (m : Env) (hl : EnsureNonNegative m la) (ht : EnsureNonNegative m t) :
    EnsureProbability m (.exponential la t) := by
  have h := Props.C34.exponential_probability _ _ hl.1 ht.1
  refine ⟨h.1, h.2, fun x hx => ?_⟩
  simpa [Ex.interval, has_closed] using hx

/-- The divisors of a division that was validated are not zero, at the means and in any sampling, whatever the deviates. -/
theorem divisors_not_zero_partial (a : Ex) (es : List Ex) (m r : Env) (hv : (Ex.nary .div a (es.foldr .cons .nil)).Valid m) (e : Ex) (he : e ∈ es) (hf : e.Fits m)
    (hs : e.Sampled r) (ht : 0 ≤ r.time) (hT : r.time ≤ m.time) (hc : ∀ i, 0 ≤ r.test i ∧ r.test i ≤ 1) : e.eval m ≠ 0 ∧ e.eval r ≠ 0 := by
  simp only [Ex.Valid] at hv
  obtain ⟨-, h1, h2⟩ := hv
  have h : e.Valid m ∧ e.eval m ≠ 0 ∧ ¬ (e.interval m).Has 0 := by
    induction es with
    | nil => exact absurd he List.not_mem_nil
    | cons x es ih =>
      simp only [List.foldr_cons, Exs.Valid, Exs.noZero] at h1 h2
      rcases List.mem_cons.1 he with rfl | h
      · exact ⟨h1.1, h2.1⟩
      · exact ih h h1.2 h2.2
  exact ⟨h.2.1, fun h0 => h.2.2 (h0 ▸ interval_encloses_partial e m r h.1 hf hs ht hT hc)⟩

/-! ## The counterexample -/

/-- A uniform deviate on [-0.2, 1]. -/
noncomputable def x : Ex := .dev 0 0.4 (closed (-0.2) 1)
/-- `1.2 - 1.2 * |x|`. -/
noncomputable def bad : Ex := .nary .sub (.const 1.2) (.cons (.nary .mul (.const 1.2) (.cons (.un .abs x) .nil)) .nil)

/-- C32 is false in general: `1.2 - 1.2 * abs(x)` with `x` uniform on [-0.2, 1] passes the validation as a probability (its mean
is 0.72, its corners are 0.96 and 0) but is 1.2 when the deviate is 0. -/
theorem accepted_but_not_probability : ∃ (e : Ex) (m r : Env), e.Valid m ∧ EnsureProbability m e ∧ e.Sampled r ∧
    r.time = m.time ∧ r.test = m.test ∧ 1 < e.eval r := by
  refine ⟨bad, means 1 (fun _ => 0), ⟨fun _ _ => 0, 1, fun _ => 0⟩, ?_, ?_, ?_, rfl, rfl, ?_⟩
  · simp [bad, x, Ex.Valid, Exs.Valid]
  · have h1 : |(0.4 : ℝ)| = 0.4 := abs_of_pos (by norm_num)
    have h2 : |(-0.2 : ℝ)| = 0.2 := by rw [abs_neg]; exact abs_of_pos (by norm_num)
    have h3 : |(0.2 : ℝ)| = 0.2 := abs_of_pos (by norm_num)
    refine ⟨?_, ?_, ?_⟩
    · simp only [bad, x, Ex.eval, Exs.fold, Nary.op, Un.op, means, h1]; norm_num
    · simp only [bad, x, Ex.eval, Exs.fold, Nary.op, Un.op, means, h1]; norm_num
    · intro v hv
      simp only [bad, x, Ex.interval, Exs.foldInterval, Nary.op, Un.op, unInterval, binInterval, closed, h2, abs_one] at hv
      norm_num [Iv.Has] at hv
      constructor <;> linarith [hv.1, hv.2]
  · simp only [bad, x, Ex.Sampled, Exs.Sampled, has_closed]; norm_num
  · simp only [bad, x, Ex.eval, Exs.fold, Nary.op, Un.op]; norm_num

/-- C32: the interval of an extern function is the value at the means, whatever the deviates among its arguments. -/
theorem extern_ignores_deviates : ∃ (e : Ex) (m r : Env), e.Valid m ∧ EnsureProbability m e ∧ e.Sampled r ∧
    1 < e.eval r := by
  refine ⟨.extern (fun l => 2 * l.headD 0) (.cons (.dev 0 0.5 (closed 0 1)) .nil), means 1 (fun _ => 0),
    ⟨fun _ _ => 1, 1, fun _ => 0⟩, ?_, ?_, ?_, ?_⟩
  · simp [Ex.Valid, Exs.Valid]
  · refine ⟨?_, ?_, ?_⟩
    · norm_num [Ex.eval, Exs.list, means]
    · norm_num [Ex.eval, Exs.list, means]
    · intro v hv
      norm_num [Ex.interval, Exs.list, Ex.eval, means, has_closed] at hv
      constructor <;> linarith [hv.1, hv.2]
  · norm_num [Ex.Sampled, Exs.Sampled, has_closed]
  · norm_num [Ex.eval, Exs.list]

/-! ## A case that meets the hypotheses: `x / 2` with the same exponential model inside, `x` uniform on [0, 1]. -/

noncomputable def u : Ex := .dev 7 0.5 (closed 0 1)
noncomputable def good : Ex := .nary .mul (.exponential u .time) (.cons (.nary .div u (.cons (.const 2) .nil)) .nil)

example : good.Valid (means 10 fun _ => 0) ∧ good.Fits (means 10 fun _ => 0) ∧
    good.Sampled ⟨fun _ _ => 0.25, 3, fun _ => 0⟩ := by
  refine ⟨?_, ?_, ?_⟩
  · simp only [good, u, Ex.Valid, Exs.Valid, Exs.noZero, EnsureNonNegative, Ex.eval, Ex.interval, closed, means,
      Iv.IsNonNegative, Iv.Has]
    norm_num
  · simp only [good, u, Ex.Fits, Exs.FitsFold, Ex.interval, Nary.Fits, closed, means]
    norm_num
  · simp only [good, u, Ex.Sampled, Exs.Sampled, has_closed]
    norm_num

example : good.eval ⟨fun _ _ => 0.25, 3, fun _ => 0⟩ ≤ 1 ∧ EnsureProbability (means 10 fun _ => 0) (.exponential u .time) := by
  refine ⟨?_, exponential_accepted _ _ _ ?_ ?_⟩
  · have := Props.C34.exponential_probability 0.25 3 (by norm_num) (by norm_num)
    simp only [good, u, Ex.eval, Exs.fold, Nary.op]
    nlinarith [this.1, this.2]
  · simp only [EnsureNonNegative, u, Ex.eval, Ex.interval, closed, means, Iv.IsNonNegative]; norm_num
  · simp only [EnsureNonNegative, Ex.eval, Ex.interval, closed, means, Iv.IsNonNegative]; norm_num

end Scram.Props.C32
