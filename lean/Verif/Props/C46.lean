import Verif.DeviateLaws
import Mathlib.Analysis.Complex.ExponentialBounds
/-!
# C46: the point value of a random deviate is the mean of its samples

`Deviate.law` is the distribution of the samples (C++ standard and Boost), `Deviate.value` the number of
the point analysis, `Deviate.interval` the bounds used to validate expressions.
-/
namespace Scram.Props.C46
open Scram.Deviates MeasureTheory ProbabilityTheory Set
open scoped ENNReal NNReal

/-- Parameters for which the code does not divide by zero: a confidence level other than one half; a
histogram with a positive weight. -/
def Regular : Deviate → Prop
  | .lognormal _ _ level => level ≠ 1 / 2
  | .histogram _ weights => 0 < weights.sum
  | _ => True

/-- C46: for every accepted deviate the samples have a distribution with a mean, and this mean is the
value used in the analyses without sampling. -/
theorem value_is_mean (erfcInv : ℝ → ℝ) (d : Deviate) (hv : d.Valid) (hr : Regular d) :
    IsProbabilityMeasure (d.law erfcInv) ∧ Integrable (fun x => x) (d.law erfcInv) ∧
      ∫ x, x ∂(d.law erfcInv) = d.value := by
  cases d with
  | uniform a b =>
    have h : a < b := not_le.mp hv
    exact ⟨uniformLaw_prob h, uniform_integrable a b, uniform_mean h⟩
  | normal m s =>
    refine ⟨inferInstanceAs (IsProbabilityMeasure (gaussianReal _ _)), ?_, integral_id_gaussianReal⟩
    exact (memLp_id_gaussianReal 1).integrable le_rfl
  | lognormal m ef level =>
    obtain ⟨-, -, hm⟩ := hv
    have hm : 0 < m := not_le.mp hm
    obtain ⟨h1, h2⟩ := exp_mean (logLocation erfcInv m ef level)
      (NNReal.mk (logScale erfcInv ef level ^ 2) (sq_nonneg _))
    refine ⟨Measure.isProbabilityMeasure_map Real.measurable_exp.aemeasurable, h2, ?_⟩
    show ∫ x, x ∂((gaussianReal _ _).map Real.exp) = m
    rw [h1]
    simp only [NNReal.coe_mk, logLocation]
    rw [sub_add_cancel, Real.exp_log hm]
  | lognormal2 m s =>
    obtain ⟨h1, h2⟩ := exp_mean m (NNReal.mk (s ^ 2) (sq_nonneg _))
    exact ⟨Measure.isProbabilityMeasure_map Real.measurable_exp.aemeasurable, h2, h1⟩
  | gamma k t =>
    obtain ⟨hk, ht⟩ := hv
    have hk : 0 < k := not_le.mp hk
    obtain ⟨h1, h2⟩ := gamma_mean hk
    have := isProbabilityMeasure_gammaMeasure hk one_pos
    refine ⟨Measure.isProbabilityMeasure_map (by fun_prop), ?_, ?_⟩
    · show Integrable (fun x => x) ((gammaMeasure k 1).map (· * t))
      rw [integrable_map_measure (by fun_prop) (by fun_prop)]
      exact h2.mul_const t
    · show ∫ x, x ∂((gammaMeasure k 1).map (· * t)) = k * t
      rw [integral_map (by fun_prop) (by fun_prop), integral_mul_const, h1]
  | beta a b =>
    obtain ⟨ha, hb⟩ := hv
    have ha : 0 < a := not_le.mp ha
    have hb : 0 < b := not_le.mp hb
    obtain ⟨h1, h2⟩ := beta_mean ha hb
    exact ⟨isProbabilityMeasureBeta ha hb, h2, h1⟩
  | histogram bs ws =>
    obtain ⟨hl, hw, hs⟩ := hv
    have hr : 0 < ws.sum := hr
    cases bs with
    | nil => simp at hl
    | cons a bs =>
      have hl : ws.length = bs.length := by simp at hl; omega
      push Not at hw
      obtain ⟨h1, h2, h3, -, -⟩ := pieces_facts a bs ws hl hs hw
      have hne : ENNReal.ofReal ws.sum ≠ 0 := (ENNReal.ofReal_pos.mpr hr).ne'
      have htop : (ENNReal.ofReal ws.sum)⁻¹ ≠ ∞ := ENNReal.inv_ne_top.mpr hne
      refine ⟨⟨?_⟩, h2.smul_measure htop, ?_⟩
      · simp only [Deviate.law, Measure.smul_apply, smul_eq_mul, h1]
        exact ENNReal.inv_mul_cancel hne ENNReal.ofReal_ne_top
      · simp only [Deviate.law, Deviate.value, List.headD_cons, List.tail_cons]
        rw [integral_smul_measure, (loop_sum a bs ws 0 0 hl).2, ← h3, ENNReal.toReal_inv,
          ENNReal.toReal_ofReal hr.le, smul_eq_mul, zero_add]
        field_simp

/-- C46, lognormal deviates given by mean, error factor and confidence level: there is a median such that
half of the samples are below it, and the samples are below `median * EF`, and above `median / EF`, with the
probability given by the level (for a level below one half, with the complement of the level). -/
theorem error_factor {erfcInv : ℝ → ℝ} (hg : IsErfcInv erfcInv) (mean ef level : ℝ)
    (hv : (Deviate.lognormal mean ef level).Valid) (hr : level ≠ 1 / 2) :
    ∃ median > 0,
      ((Deviate.lognormal mean ef level).law erfcInv).real (Iic median) = 1 / 2 ∧
      ((Deviate.lognormal mean ef level).law erfcInv).real (Iic (median * ef)) = max level (1 - level) ∧
      ((Deviate.lognormal mean ef level).law erfcInv).real (Ioi (median / ef)) = max level (1 - level) := by
  obtain ⟨hl, he, hm⟩ := hv
  push Not at hl he hm
  obtain ⟨hl0, hl1⟩ := hl
  have hq := zLevel_quantile hg hl0 hl1
  have hlog : 0 < Real.log ef := Real.log_pos he
  set z := zLevel erfcInv level with hz
  set loc := logLocation erfcInv mean ef level with hloc
  set s := logScale erfcInv ef level with hs
  have hsz : s = Real.log ef / z := rfl
  have hlaw : ∀ x, 0 < x → ((Deviate.lognormal mean ef level).law erfcInv).real (Iic x) =
      N01.real {y | loc + s * y ≤ Real.log x} := by
    intro x hx
    show ((gaussianReal loc (NNReal.mk (s ^ 2) (sq_nonneg _))).map Real.exp).real (Iic x) = _
    rw [map_exp_Iic _ hx, gaussian_Iic loc s _ rfl]
  have hprob : IsProbabilityMeasure ((Deviate.lognormal mean ef level).law erfcInv) :=
    Measure.isProbabilityMeasure_map Real.measurable_exp.aemeasurable
  have hcompl : ∀ x, ((Deviate.lognormal mean ef level).law erfcInv).real (Ioi x) =
      1 - ((Deviate.lognormal mean ef level).law erfcInv).real (Iic x) := by
    intro x
    rw [← probReal_compl_eq_one_sub measurableSet_Iic, compl_Iic]
  refine ⟨Real.exp loc, Real.exp_pos _, ?_, ?_, ?_⟩
  all_goals
    rcases lt_or_gt_of_ne hr with h | h
  · have hzn := zLevel_neg hg hl0 h
    have hsn : s < 0 := div_neg_of_pos_of_neg hlog hzn
    rw [hlaw _ (Real.exp_pos _), Real.log_exp]
    have : {y : ℝ | loc + s * y ≤ loc} = Ici 0 := by
      ext y
      simp only [mem_setOf_eq, mem_Ici]
      constructor
      · intro h; by_contra hc; nlinarith [mul_pos_of_neg_of_neg hsn (not_le.mp hc)]
      · intro h; nlinarith
    rw [this, N01_Ici]
    have h1 := N01_compl 0
    have h2 := N01_zero
    linarith
  · have hzp := zLevel_pos hg h hl1
    have hsp : 0 < s := div_pos hlog hzp
    rw [hlaw _ (Real.exp_pos _), Real.log_exp]
    have : {y : ℝ | loc + s * y ≤ loc} = Iic 0 := by
      ext y
      simp only [mem_setOf_eq, mem_Iic]
      constructor
      · intro h; by_contra hc; nlinarith [mul_pos hsp (not_le.mp hc)]
      · intro h; nlinarith
    rw [this]
    exact N01_zero
  · have hzn : z < 0 := zLevel_neg hg hl0 h
    have hsn : s < 0 := div_neg_of_pos_of_neg hlog hzn
    rw [hlaw _ (by positivity), Real.log_mul (Real.exp_pos _).ne' (by positivity), Real.log_exp,
      max_eq_right (by linarith)]
    have : {y : ℝ | loc + s * y ≤ loc + Real.log ef} = Ici z := by
      have hszl : s * z = Real.log ef := by rw [hsz]; exact div_mul_cancel₀ _ (by first | exact hzn.ne | exact hzp.ne')
      ext y
      simp only [mem_setOf_eq, mem_Ici]
      rw [← hszl]
      constructor
      · intro h; by_contra hc; nlinarith [mul_lt_mul_of_neg_left (not_le.mp hc) hsn]
      · intro h; nlinarith [mul_le_mul_of_nonpos_left h hsn.le]
    rw [this, N01_Ici]
    have h1 := N01_compl z
    linarith
  · have hzp : 0 < z := zLevel_pos hg h hl1
    have hsp : 0 < s := div_pos hlog hzp
    rw [hlaw _ (by positivity), Real.log_mul (Real.exp_pos _).ne' (by positivity), Real.log_exp,
      max_eq_left (by linarith)]
    have : {y : ℝ | loc + s * y ≤ loc + Real.log ef} = Iic z := by
      have hszl : s * z = Real.log ef := by rw [hsz]; exact div_mul_cancel₀ _ (by first | exact hzn.ne | exact hzp.ne')
      ext y
      simp only [mem_setOf_eq, mem_Iic]
      rw [← hszl]
      constructor
      · intro h; by_contra hc; nlinarith [mul_lt_mul_of_pos_left (not_le.mp hc) hsp]
      · intro h; nlinarith [mul_le_mul_of_nonneg_left h hsp.le]
    rw [this]
    exact hq
  · have hzn : z < 0 := zLevel_neg hg hl0 h
    have hsn : s < 0 := div_neg_of_pos_of_neg hlog hzn
    rw [hcompl, hlaw _ (by positivity), Real.log_div (Real.exp_pos _).ne' (by positivity), Real.log_exp,
      max_eq_right (by linarith)]
    have : {y : ℝ | loc + s * y ≤ loc - Real.log ef} = Ici (-z) := by
      have hszl : s * z = Real.log ef := by rw [hsz]; exact div_mul_cancel₀ _ (by first | exact hzn.ne | exact hzp.ne')
      ext y
      simp only [mem_setOf_eq, mem_Ici]
      rw [← hszl]
      constructor
      · intro h; by_contra hc; nlinarith [mul_lt_mul_of_neg_left (not_le.mp hc) hsn]
      · intro h; nlinarith [mul_le_mul_of_nonpos_left h hsn.le]
    rw [this, ← N01_Iic_neg, neg_neg, hq]
  · have hzp : 0 < z := zLevel_pos hg h hl1
    have hsp : 0 < s := div_pos hlog hzp
    rw [hcompl, hlaw _ (by positivity), Real.log_div (Real.exp_pos _).ne' (by positivity), Real.log_exp,
      max_eq_left (by linarith)]
    have : {y : ℝ | loc + s * y ≤ loc - Real.log ef} = Iic (-z) := by
      have hszl : s * z = Real.log ef := by rw [hsz]; exact div_mul_cancel₀ _ (by first | exact hzn.ne | exact hzp.ne')
      ext y
      simp only [mem_setOf_eq, mem_Iic]
      rw [← hszl]
      constructor
      · intro h; by_contra hc; nlinarith [mul_lt_mul_of_pos_left (not_le.mp hc) hsp]
      · intro h; nlinarith [mul_le_mul_of_nonneg_left h hsp.le]
    rw [this, N01_Iic_neg, N01_Ici]
    have h1 := N01_compl z
    linarith

/-! ## Intervals -/

/-- C46: samples of uniform and histogram deviates are in their intervals, and so are their means. -/
theorem bounded_in_interval (erfcInv : ℝ → ℝ) (d : Deviate) (hv : d.Valid) (hr : Regular d)
    (hd : (∃ a b, d = .uniform a b) ∨ ∃ bs ws, d = .histogram bs ws) :
    d.law erfcInv (Icc (d.interval erfcInv).1 (d.interval erfcInv).2)ᶜ = 0 ∧
      d.value ∈ Icc (d.interval erfcInv).1 (d.interval erfcInv).2 := by
  have hnull : d.law erfcInv (Icc (d.interval erfcInv).1 (d.interval erfcInv).2)ᶜ = 0 := by
    rcases hd with ⟨a, b, rfl⟩ | ⟨bs, ws, rfl⟩
    · simp only [Deviate.law, Deviate.interval, uniformLaw, Measure.smul_apply, smul_eq_mul, mul_eq_zero]
      right
      rw [Measure.restrict_apply measurableSet_Icc.compl]
      have : (Icc a b)ᶜ ∩ Ico a b = ∅ := by
        ext x
        simp only [mem_inter_iff, mem_compl_iff, mem_Icc, mem_Ico, mem_empty_iff_false, iff_false]
        rintro ⟨h1, h2, h3⟩
        exact h1 ⟨h2, h3.le⟩
      rw [this, measure_empty]
    · obtain ⟨hl, hw, hs⟩ := hv
      cases bs with
      | nil => simp at hl
      | cons a bs =>
        have hl : ws.length = bs.length := by simp at hl; omega
        push Not at hw
        obtain ⟨-, -, -, -, h5⟩ := pieces_facts a bs ws hl hs hw
        simp only [Deviate.law, Deviate.interval, Measure.smul_apply, smul_eq_mul, List.headD_cons, h5, mul_zero]
  refine ⟨hnull, ?_⟩
  obtain ⟨hp, hi, hm⟩ := value_is_mean erfcInv d hv hr
  have hae : ∀ᵐ x ∂(d.law erfcInv), x ∈ Icc (d.interval erfcInv).1 (d.interval erfcInv).2 := hnull
  rw [← hm]
  constructor
  · have := integral_mono_ae (integrable_const _) hi (hae.mono fun x hx => hx.1)
    simpa using this
  · have := integral_mono_ae hi (integrable_const _) (hae.mono fun x hx => hx.2)
    simpa using this

theorem exp_small {x c : ℝ} (hc : 0 < c) (h : 1 / c ≤ Real.exp x) : Real.exp (-x) ≤ c := by
  rw [Real.exp_neg]
  rw [inv_le_comm₀ (Real.exp_pos _) hc]
  simpa using h

/-- C46: normal deviates are in their interval with a probability of at least 99.9%. -/
theorem normal_in_interval (erfcInv : ℝ → ℝ) (mean sigma : ℝ) (hv : (Deviate.normal mean sigma).Valid) :
    999 / 1000 ≤ ((Deviate.normal mean sigma).law erfcInv).real
      (Icc ((Deviate.normal mean sigma).interval erfcInv).1
        ((Deviate.normal mean sigma).interval erfcInv).2) ∧
    (Deviate.normal mean sigma).value ∈ Icc ((Deviate.normal mean sigma).interval erfcInv).1
      ((Deviate.normal mean sigma).interval erfcInv).2 := by
  have hs : 0 < sigma := not_le.mp hv
  constructor
  · simp only [Deviate.law, Deviate.interval]
    rw [gaussian_std mean sigma _ rfl, Measure.real, Measure.map_apply (by fun_prop) measurableSet_Icc]
    have hsub : (Ioi 6 ∪ Iic (-6))ᶜ ⊆
        (fun x => mean + sigma * x) ⁻¹' Icc (mean - 6 * sigma) (mean + 6 * sigma) := by
      intro y hy
      simp only [mem_compl_iff, mem_union, mem_Ioi, mem_Iic, not_or, not_lt, not_le] at hy
      constructor <;> nlinarith [hy.1, hy.2]
    have h1 : N01.real (Ioi 6 ∪ Iic (-6))ᶜ ≤ _ := measureReal_mono (μ := N01) hsub
    rw [probReal_compl_eq_one_sub (by measurability)] at h1
    have h2 : N01.real (Ioi 6 ∪ Iic (-6)) ≤ N01.real (Ioi 6) + N01.real (Iic (-6)) := measureReal_union_le _ _
    rw [N01_Iic_neg, ← N01_Ici] at h2
    have h3 : N01.real (Ici 6) ≤ _ := N01_tail (show (0:ℝ) ≤ 6 by norm_num)
    have h4 : Real.exp (-((6:ℝ) ^ 2 / 2)) ≤ 1 / 2000 := by
      apply exp_small (by norm_num)
      have h5 : (2:ℝ) ≤ Real.exp 1 := by have := Real.add_one_le_exp (1:ℝ); linarith
      have h6 : Real.exp ((6:ℝ) ^ 2 / 2) = Real.exp 1 ^ 18 := by rw [← Real.exp_nat_mul]; norm_num
      rw [h6]
      calc (1:ℝ) / (1 / 2000) ≤ 2 ^ 18 := by norm_num
        _ ≤ _ := pow_le_pow_left₀ (by norm_num) h5 18
    have h1' : 1 - N01.real (Ioi 6 ∪ Iic (-6)) ≤
        (N01 ((fun x => mean + sigma * x) ⁻¹' Icc (mean - 6 * sigma) (mean + 6 * sigma))).toReal := h1
    linarith
  · simp only [Deviate.value, Deviate.interval]
    constructor <;> linarith

theorem exp_tail : Real.exp (-((3:ℝ) ^ 2 / 2)) ≤ 2 / 100 := by
  apply exp_small (by norm_num)
  have h5 : (27 / 10 : ℝ) ≤ Real.exp 1 := by
    have := Real.exp_one_gt_d9; linarith
  have h6 : Real.exp ((3:ℝ) ^ 2 / 2) ^ 2 = Real.exp 1 ^ 9 := by
    rw [← Real.exp_nat_mul, ← Real.exp_nat_mul]; norm_num
  have h7 : (50:ℝ) ^ 2 ≤ Real.exp ((3:ℝ) ^ 2 / 2) ^ 2 := by
    rw [h6]
    calc (50:ℝ) ^ 2 ≤ (27 / 10) ^ 9 := by norm_num
      _ ≤ _ := pow_le_pow_left₀ (by norm_num) h5 9
  have := (pow_le_pow_iff_left₀ (by norm_num) (Real.exp_pos _).le (by norm_num : (2:ℕ) ≠ 0)).mp h7
  linarith

theorem lognormal_coverage (loc s : ℝ) (v : ℝ≥0) (hv : (v : ℝ) = s ^ 2) (hs : s ≠ 0) :
    (0 < s → 98 / 100 ≤ ((gaussianReal loc v).map Real.exp).real (Ioc 0 (Real.exp (3 * s + loc)))) ∧
    (s < 0 → ((gaussianReal loc v).map Real.exp).real (Ioc 0 (Real.exp (3 * s + loc))) ≤ 2 / 100) := by
  have heq : ((gaussianReal loc v).map Real.exp).real (Ioc 0 (Real.exp (3 * s + loc))) =
      N01.real {y | loc + s * y ≤ 3 * s + loc} := by
    rw [← gaussian_Iic loc s v hv, Measure.real, Measure.map_apply Real.measurable_exp measurableSet_Ioc,
      Measure.real]
    congr 2
    ext y
    simp [Real.exp_pos]
  rw [heq]
  have ht := N01_tail (show (0:ℝ) ≤ 3 by norm_num)
  have he := exp_tail
  constructor
  · intro hp
    have : {y : ℝ | loc + s * y ≤ 3 * s + loc} = Iic 3 := by
      ext y
      simp only [mem_setOf_eq, mem_Iic]
      constructor
      · intro h; by_contra hc; nlinarith [mul_lt_mul_of_pos_left (not_le.mp hc) hp]
      · intro h; nlinarith
    rw [this, N01_compl, ← N01_Ici]
    linarith
  · intro hn
    have : {y : ℝ | loc + s * y ≤ 3 * s + loc} = Ici 3 := by
      ext y
      simp only [mem_setOf_eq, mem_Ici]
      constructor
      · intro h; by_contra hc; nlinarith [mul_lt_mul_of_neg_left (not_le.mp hc) hn]
      · intro h; nlinarith
    rw [this]
    linarith

/-- C46: lognormal deviates are in their interval with a probability of at least 98%, if the level is above
one half or the parameters are those of the normal distribution. -/
theorem lognormal_in_interval {erfcInv : ℝ → ℝ} (hg : IsErfcInv erfcInv) (d : Deviate) (hv : d.Valid)
    (hd : (∃ mean ef level, d = .lognormal mean ef level ∧ 1 / 2 < level) ∨ ∃ mu sigma, d = .lognormal2 mu sigma) :
    98 / 100 ≤ (d.law erfcInv).real (Ioc (d.interval erfcInv).1 (d.interval erfcInv).2) := by
  rcases hd with ⟨mean, ef, level, rfl, hl⟩ | ⟨mu, sigma, rfl⟩
  · obtain ⟨h1, h2, h3⟩ := hv
    push Not at h1 h2 h3
    have : 0 < logScale erfcInv ef level := div_pos (Real.log_pos h2) (zLevel_pos hg hl h1.2)
    exact (lognormal_coverage _ _ (NNReal.mk _ (sq_nonneg _)) rfl this.ne').1 this
  · have : 0 < sigma := not_le.mp hv
    exact (lognormal_coverage mu sigma (NNReal.mk _ (sq_nonneg _)) rfl this.ne').1 this

/-! ## Where the intervals do not hold -/

/-- With an accepted level below one half the scale is negative, and the interval misses nearly all samples. -/
theorem lognormal_low_level {erfcInv : ℝ → ℝ} (hg : IsErfcInv erfcInv) (mean ef level : ℝ)
    (hv : (Deviate.lognormal mean ef level).Valid) (hl : level < 1 / 2) :
    logScale erfcInv ef level < 0 ∧
    ((Deviate.lognormal mean ef level).law erfcInv).real
      (Ioc ((Deviate.lognormal mean ef level).interval erfcInv).1
        ((Deviate.lognormal mean ef level).interval erfcInv).2) ≤ 2 / 100 := by
  obtain ⟨h1, h2, h3⟩ := hv
  push Not at h1 h2 h3
  have : logScale erfcInv ef level < 0 := div_neg_of_pos_of_neg (Real.log_pos h2) (zLevel_neg hg h1.1 hl)
  exact ⟨this, (lognormal_coverage _ _ (NNReal.mk _ (sq_nonneg _)) rfl this.ne).2 this⟩

/-- The level one half is accepted although the scale is then a division by zero. -/
theorem level_half_accepted {erfcInv : ℝ → ℝ} (hg : IsErfcInv erfcInv) :
    (Deviate.lognormal 1 3 (1 / 2)).Valid ∧ zLevel erfcInv (1 / 2) = 0 := by
  refine ⟨by simp [Deviate.Valid]; norm_num, ?_⟩
  have hq := zLevel_quantile hg (show (0:ℝ) < 1 / 2 by norm_num) (by norm_num)
  have hstrict : ∀ a b : ℝ, a < b → N01.real (Iic a) < N01.real (Iic b) := by
    intro a b hab
    have h1 : N01.real (Iic b) = N01.real (Iic a) + N01.real (Ioc a b) := by
      rw [← Iic_union_Ioc_eq_Iic hab.le]
      exact measureReal_union (Iic_disjoint_Ioc le_rfl) measurableSet_Ioc
    have h2 : N01 (Ioc a b) ≠ 0 := by
      intro h0
      have := gaussianReal_absolutelyContinuous' 0 (one_ne_zero : (1:ℝ≥0) ≠ 0) h0
      rw [Real.volume_Ioc] at this
      simp at this
      linarith
    have h3 : 0 < N01.real (Ioc a b) := ENNReal.toReal_pos h2 (measure_ne_top _ _)
    linarith
  rcases lt_trichotomy (zLevel erfcInv (1 / 2)) 0 with h | h | h
  · have := hstrict _ _ h; rw [hq, N01_zero] at this; linarith
  · exact h
  · have := hstrict _ _ h; rw [hq, N01_zero] at this; linarith

/-- A histogram without any weight is accepted although its mean is a division by zero. -/
theorem zero_histogram_accepted : (Deviate.histogram [0, 1] [0]).Valid ∧ [(0:ℝ)].sum = 0 := by
  simp [Deviate.Valid, isSorted]

/-- The mean of a lognormal deviate is above its interval if the scale is above six. -/
theorem lognormal_mean_outside (erfcInv : ℝ → ℝ) (mu sigma : ℝ) (h : 6 < sigma) :
    ((Deviate.lognormal2 mu sigma).interval erfcInv).2 < (Deviate.lognormal2 mu sigma).value := by
  simp only [Deviate.interval, Deviate.value]
  apply Real.exp_lt_exp.mpr
  nlinarith

/-- The interval of a beta deviate always reaches above one, so a beta deviate is never accepted as a
probability (in exact arithmetic). -/
theorem beta_interval_above_one (erfcInv : ℝ → ℝ) (a b : ℝ) (hv : (Deviate.beta a b).Valid) :
    1 < ((Deviate.beta a b).interval erfcInv).2 := by
  obtain ⟨ha, hb⟩ := hv
  have ha : 0 < a := not_le.mp ha
  have hb : 0 < b := not_le.mp hb
  have hp := isProbabilityMeasureBeta ha hb
  have hpos : ∀ s : Set ℝ, MeasurableSet s → s ⊆ Ioo 0 1 → volume s ≠ 0 → betaMeasure a b s ≠ 0 := by
    intro s hs hsub hvol h0
    unfold betaMeasure at h0
    rw [withDensity_apply _ hs, lintegral_eq_zero_iff (show Measurable (betaPDF a b) from (measurable_betaPDFReal a b).ennreal_ofReal)] at h0
    rw [Filter.EventuallyEq, ae_restrict_iff' hs] at h0
    apply hvol
    apply measure_mono_null _ h0
    intro x hx hc
    have h1 := hc hx
    have h2 := betaPDFReal_pos (hsub hx).1 (hsub hx).2 ha hb
    simp only [betaPDF, Pi.zero_apply, ENNReal.ofReal_eq_zero] at h1
    linarith
  have hlow : 0 < ibeta a b (99 / 100) := by
    have h1 := hpos (Ioo 0 (99 / 100)) measurableSet_Ioo (Ioo_subset_Ioo_right (by norm_num))
      (by rw [Real.volume_Ioo]; norm_num)
    have h2 : 0 < (betaMeasure a b).real (Ioo 0 (99 / 100)) := ENNReal.toReal_pos h1 (measure_ne_top _ _)
    exact h2.trans_le (measureReal_mono (fun x hx => hx.2.le))
  have hhigh : ibeta a b (99 / 100) < 1 := by
    have h1 := hpos (Ioo (99 / 100) 1) measurableSet_Ioo (Ioo_subset_Ioo_left (by norm_num))
      (by rw [Real.volume_Ioo]; norm_num)
    have h2 : 0 < (betaMeasure a b).real (Ioo (99 / 100) 1) := ENNReal.toReal_pos h1 (measure_ne_top _ _)
    have h3 : (betaMeasure a b).real (Ioo (99 / 100) 1) ≤ (betaMeasure a b).real (Iic (99 / 100))ᶜ :=
      measureReal_mono (fun x hx => by simpa using hx.1)
    rw [probReal_compl_eq_one_sub measurableSet_Iic] at h3
    unfold ibeta
    linarith
  show 1 < (ibeta a b (99 / 100))⁻¹
  exact (one_lt_inv₀ hlow).mpr hhigh

/-- The interval of a gamma deviate is not its 99th percentile: the mean of a gamma deviate with shape 2 is
above its interval. -/
theorem gamma_mean_outside (erfcInv : ℝ → ℝ) (theta : ℝ) (ht : 0 < theta) :
    (Deviate.gamma 2 theta).Valid ∧
      ((Deviate.gamma 2 theta).interval erfcInv).2 < (Deviate.gamma 2 theta).value := by
  refine ⟨by simp [Deviate.Valid, ht], ?_⟩
  have hp := isProbabilityMeasure_gammaMeasure (show (0:ℝ) < 2 by norm_num) (one_pos : (0:ℝ) < 1)
  have hsmall : ∀ x : ℝ, 0 ≤ x → x ≤ 1 → (gammaMeasure 2 1).real (Iic x) ≤ x := by
    intro x hx hx1
    have h1 : gammaMeasure 2 1 (Iic x) ≤ ENNReal.ofReal x := by
      unfold gammaMeasure
      rw [withDensity_apply _ measurableSet_Iic, lintegral_Iic_eq_lintegral_Iio_add_Icc _ hx,
        lintegral_gammaPDF_of_nonpos le_rfl, zero_add]
      calc ∫⁻ y in Icc 0 x, gammaPDF 2 1 y ≤ ∫⁻ y in Icc 0 x, 1 := by
            apply setLIntegral_mono measurable_const
            intro y hy
            rw [gammaPDF_of_nonneg hy.1]
            rw [ENNReal.ofReal_le_one]
            have hG : Real.Gamma 2 = 1 := Real.Gamma_two
            rw [hG, Real.one_rpow]
            have he : Real.exp (-(1 * y)) ≤ 1 := by
              rw [Real.exp_le_one_iff]; linarith [hy.1]
            have h2 : (y:ℝ) ^ ((2:ℝ) - 1) = y := by norm_num
            rw [h2]
            have := Real.exp_pos (-(1 * y))
            have hy1 : y ≤ 1 := hy.2.trans hx1
            nlinarith [hy.1]
        _ = ENNReal.ofReal x := by simp
    calc (gammaMeasure 2 1).real (Iic x) ≤ (ENNReal.ofReal x).toReal :=
          ENNReal.toReal_mono ENNReal.ofReal_ne_top h1
      _ = x := ENNReal.toReal_ofReal hx
  have hQ : ∀ x : ℝ, 0 ≤ x → x ≤ 1 → 1 - x ≤ gammaQ 2 x ∧ gammaQ 2 x ≤ 1 := by
    intro x hx hx1
    constructor
    · have := hsmall x hx hx1
      unfold gammaQ
      rw [← compl_Iic, probReal_compl_eq_one_sub measurableSet_Iic]
      linarith
    · exact measureReal_le_one
  have h0 := hQ 0 le_rfl zero_le_one
  have hq0 : gammaQ 2 0 = 1 := le_antisymm h0.2 (by linarith [h0.1])
  have h1 := hQ (1 / 100) (by norm_num) (by norm_num)
  simp only [Deviate.interval, Deviate.value]
  rw [hq0, show (1:ℝ) - 99 / 100 = 1 / 100 by norm_num, mul_comm 2 theta]
  apply mul_lt_mul_of_pos_left _ ht
  rw [inv_lt_comm₀ (by linarith [h1.1]) (by norm_num)]
  linarith [h1.1]

/-! ## Examples -/

example : (Deviate.lognormal 1 3 (95 / 100)).Valid ∧ Regular (.lognormal 1 3 (95 / 100)) := by
  simp [Deviate.Valid, Regular]; norm_num

example : (Deviate.histogram [0, 1, 3] [2, 1]).Valid ∧ Regular (.histogram [0, 1, 3] [2, 1]) ∧
    (Deviate.histogram [0, 1, 3] [2, 1]).value = 1 := by
  simp [Deviate.Valid, Regular, isSorted, Deviate.value, histogramLoop]; norm_num

/-- The assumption on `erfc_inv` can be met. -/
theorem erfcInv_exists : ∃ g, IsErfcInv g := exists_erfcInv

end Scram.Props.C46
