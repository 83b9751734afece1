import Verif.Deviates
/-!
# Means, quantiles and supports of the distributions behind the random deviates
-/
namespace Scram.Deviates
open MeasureTheory ProbabilityTheory Set
open scoped ENNReal NNReal

theorem uniformLaw_prob {a b : ℝ} (h : a < b) : IsProbabilityMeasure (uniformLaw a b) := by
  constructor
  simp only [uniformLaw, Measure.smul_apply, Measure.restrict_apply_univ, Real.volume_Ico, smul_eq_mul]
  rw [← ENNReal.ofReal_mul (by have := sub_pos.mpr h; positivity), one_div, inv_mul_cancel₀ (by linarith)]
  simp

theorem uniform_integrable (a b : ℝ) : Integrable (fun x => x) (uniformLaw a b) := by
  unfold uniformLaw
  apply Integrable.smul_measure _ ENNReal.ofReal_ne_top
  exact (continuous_id.integrableOn_Icc (a := a) (b := b)).mono_set Ico_subset_Icc_self

theorem uniform_mean {a b : ℝ} (h : a < b) : ∫ x, x ∂(uniformLaw a b) = (a + b) / 2 := by
  unfold uniformLaw
  have hp := sub_pos.mpr h
  rw [integral_smul_measure, ENNReal.toReal_ofReal (by positivity), integral_Ico_eq_integral_Ioc,
    ← intervalIntegral.integral_of_le h.le, integral_id, smul_eq_mul]
  field_simp
  ring

theorem exp_mean (m : ℝ) (v : ℝ≥0) :
    ∫ x, x ∂((gaussianReal m v).map Real.exp) = Real.exp (m + v / 2) ∧
      Integrable (fun x => x) ((gaussianReal m v).map Real.exp) := by
  constructor
  · rw [integral_map Real.measurable_exp.aemeasurable (by fun_prop)]
    have := congrFun (mgf_id_gaussianReal (μ := m) (v := v)) 1
    simpa [mgf] using this
  · rw [integrable_map_measure (by fun_prop) Real.measurable_exp.aemeasurable]
    simpa [Function.comp_def] using integrable_exp_mul_gaussianReal (μ := m) (v := v) 1

theorem gamma_mean {k : ℝ} (hk : 0 < k) :
    ∫ x, x ∂(gammaMeasure k 1) = k ∧ Integrable (fun x => x) (gammaMeasure k 1) := by
  have hint : IntegrableOn (fun x => x ^ (k + 1 - 1) * Real.exp (-(1 * x))) (Ioi 0) := by
    have := Real.GammaIntegral_convergent (s := k + 1) (by linarith)
    simpa [mul_comm] using this
  have heq : ∀ x : ℝ, 0 < x → gammaPDFReal k 1 x * x = 1 / Real.Gamma k * (x ^ (k + 1 - 1) * Real.exp (-(1 * x))) := by
    intro x hx
    unfold gammaPDFReal
    rw [if_pos hx.le, Real.one_rpow, show k + 1 - 1 = (k - 1) + 1 by ring, Real.rpow_add hx, Real.rpow_one]
    ring
  have hm : Measurable (gammaPDF k 1) := (measurable_gammaPDFReal k 1).ennreal_ofReal
  have htop : ∀ᵐ x : ℝ, gammaPDF k 1 x < ∞ := by filter_upwards; intro x; simp [gammaPDF]
  have htr : ∀ x, (gammaPDF k 1 x).toReal = gammaPDFReal k 1 x := fun x =>
    ENNReal.toReal_ofReal (gammaPDFReal_nonneg hk one_pos x)
  have hsupp : ∀ x : ℝ, x ∉ Ioi (0:ℝ) → gammaPDFReal k 1 x * x = 0 := by
    intro x hx
    have hx : x ≤ 0 := by simpa using hx
    rcases lt_or_eq_of_le hx with h | h
    · rw [gammaPDFReal, if_neg (not_le.mpr h), zero_mul]
    · rw [h, mul_zero]
  constructor
  · unfold gammaMeasure
    rw [integral_withDensity_eq_integral_toReal_smul hm htop]
    simp only [htr, smul_eq_mul]
    rw [← setIntegral_eq_integral_of_forall_compl_eq_zero (s := Ioi 0) hsupp,
      setIntegral_congr_fun measurableSet_Ioi (fun x hx => heq x hx), integral_const_mul,
      Real.integral_rpow_mul_exp_neg_mul_Ioi (by linarith) one_pos]
    rw [Real.Gamma_add_one hk.ne']
    have := (Real.Gamma_pos_of_pos hk).ne'
    field_simp
    simp
  · unfold gammaMeasure
    rw [integrable_withDensity_iff_integrable_smul' hm htop]
    simp only [htr, smul_eq_mul]
    rw [← integrableOn_iff_integrable_of_support_subset (s := Ioi 0)]
    · exact IntegrableOn.congr_fun (hint.const_mul _) (fun x hx => (heq x hx).symm) measurableSet_Ioi
    · intro x hx
      by_contra hc
      exact hx (hsupp x hc)

theorem beta_integral {a b : ℝ} (ha : 0 < a) (hb : 0 < b) :
    ∫ x in Ioo (0:ℝ) 1, x ^ (a - 1) * (1 - x) ^ (b - 1) = beta a b ∧
      IntegrableOn (fun x : ℝ => x ^ (a - 1) * (1 - x) ^ (b - 1)) (Ioo 0 1) := by
  have hconv : IntegrableOn (fun x : ℝ => ((x : ℂ) ^ ((a:ℂ) - 1) * (1 - (x : ℂ)) ^ ((b : ℂ) - 1))) (Ioc 0 1) := by
    have := Complex.betaIntegral_convergent (u := a) (v := b) (by simpa) (by simpa)
    rwa [intervalIntegrable_iff_integrableOn_Ioc_of_le (by simp)] at this
  have hre : ∀ x ∈ Ioc (0:ℝ) 1, (((x : ℂ) ^ ((a:ℂ) - 1) * (1 - (x : ℂ)) ^ ((b : ℂ) - 1))).re =
      x ^ (a - 1) * (1 - x) ^ (b - 1) := by
    intro x hx
    norm_cast
    rw [← Complex.ofReal_cpow hx.1.le, ← Complex.ofReal_cpow (by linarith [hx.2]),
      Complex.re_mul_ofReal, Complex.ofReal_re]
  constructor
  · rw [beta_eq_betaIntegralReal a b ha hb, Complex.betaIntegral, intervalIntegral.integral_of_le (by norm_num),
      ← integral_Ioc_eq_integral_Ioo, ← RCLike.re_to_complex, ← integral_re hconv]
    exact setIntegral_congr_fun measurableSet_Ioc (fun x hx => (hre x hx).symm)
  · have h2 := hconv.re
    have h3 : IntegrableOn (fun x : ℝ => x ^ (a - 1) * (1 - x) ^ (b - 1)) (Ioc 0 1) :=
      IntegrableOn.congr_fun h2 (fun x hx => hre x hx) measurableSet_Ioc
    exact h3.mono_set Ioo_subset_Ioc_self

theorem beta_mean {a b : ℝ} (ha : 0 < a) (hb : 0 < b) :
    ∫ x, x ∂(betaMeasure a b) = a / (a + b) ∧ Integrable (fun x => x) (betaMeasure a b) := by
  obtain ⟨h1, h2⟩ := beta_integral (a := a + 1) (b := b) (by linarith) hb
  have heq : ∀ x ∈ Ioo (0:ℝ) 1, betaPDFReal a b x * x = 1 / beta a b * (x ^ (a + 1 - 1) * (1 - x) ^ (b - 1)) := by
    intro x hx
    unfold betaPDFReal
    rw [if_pos ⟨hx.1, hx.2⟩, show a + 1 - 1 = (a - 1) + 1 by ring, Real.rpow_add hx.1, Real.rpow_one]
    ring
  have hm : Measurable (betaPDF a b) := (measurable_betaPDFReal a b).ennreal_ofReal
  have htop : ∀ᵐ x : ℝ, betaPDF a b x < ∞ := by filter_upwards; intro x; simp [betaPDF]
  have htr : ∀ x, (betaPDF a b x).toReal = betaPDFReal a b x := by
    intro x
    apply ENNReal.toReal_ofReal
    by_cases hx : 0 < x ∧ x < 1
    · exact (betaPDFReal_pos hx.1 hx.2 ha hb).le
    · rw [betaPDFReal, if_neg hx]
  have hsupp : ∀ x : ℝ, x ∉ Ioo (0:ℝ) 1 → betaPDFReal a b x * x = 0 := by
    intro x hx
    rw [betaPDFReal, if_neg (by simpa using hx), zero_mul]
  constructor
  · unfold betaMeasure
    rw [integral_withDensity_eq_integral_toReal_smul hm htop]
    simp only [htr, smul_eq_mul]
    rw [← setIntegral_eq_integral_of_forall_compl_eq_zero (s := Ioo 0 1) hsupp,
      setIntegral_congr_fun measurableSet_Ioo heq, integral_const_mul, h1]
    unfold beta
    have g1 := (Real.Gamma_pos_of_pos ha).ne'
    have g2 := (Real.Gamma_pos_of_pos hb).ne'
    have g3 := (Real.Gamma_pos_of_pos (add_pos ha hb)).ne'
    rw [show a + 1 + b = (a + b) + 1 by ring, Real.Gamma_add_one ha.ne', Real.Gamma_add_one (by linarith)]
    have : a + b ≠ 0 := by linarith
    field_simp
  · unfold betaMeasure
    rw [integrable_withDensity_iff_integrable_smul' hm htop]
    simp only [htr, smul_eq_mul]
    rw [← integrableOn_iff_integrable_of_support_subset (s := Ioo 0 1)]
    · exact IntegrableOn.congr_fun (h2.const_mul _) (fun x hx => (heq x hx).symm) measurableSet_Ioo
    · intro x hx
      by_contra hc
      exact hx (hsupp x hc)

/-! ## Histograms -/

theorem loop_sum (prev : ℝ) (bs ws : List ℝ) (p w : ℝ) (h : ws.length = bs.length) :
    (histogramLoop prev bs ws p w).1 = p + (histogramLoop prev bs ws 0 0).1 ∧
      (histogramLoop prev bs ws p w).2 = w + ws.sum := by
  induction ws generalizing prev bs p w with
  | nil => cases bs <;> simp [histogramLoop] at h ⊢
  | cons x ws ih =>
    cases bs with
    | nil => simp at h
    | cons b bs =>
      have h' : ws.length = bs.length := by simpa using h
      simp only [histogramLoop, List.sum_cons]
      rw [(ih b bs _ _ h').1, (ih b bs _ _ h').2, (ih b bs (0 + (b + prev) * x) (0 + x) h').1]
      constructor <;> ring

theorem pieces_facts (a : ℝ) (bs ws : List ℝ) (h : ws.length = bs.length)
    (hs : isSorted (a :: bs)) (hw : ∀ w ∈ ws, 0 ≤ w) :
    pieces (a :: bs) ws univ = ENNReal.ofReal ws.sum ∧
      Integrable (fun x => x) (pieces (a :: bs) ws) ∧
      2 * ∫ x, x ∂(pieces (a :: bs) ws) = (histogramLoop a bs ws 0 0).1 ∧
      a ≤ (a :: bs).getLastD 0 ∧
      pieces (a :: bs) ws (Icc a ((a :: bs).getLastD 0))ᶜ = 0 := by
  induction ws generalizing a bs with
  | nil =>
    cases bs with
    | nil => simp [pieces, histogramLoop]
    | cons b bs => simp at h
  | cons w ws ih =>
    cases bs with
    | nil => simp at h
    | cons b bs =>
      have h' : ws.length = bs.length := by simpa using h
      obtain ⟨hab, hs'⟩ := hs
      have hab : a < b := not_le.mp hab
      have hw0 : 0 ≤ w := hw w (by simp)
      have hws : ∀ x ∈ ws, 0 ≤ x := fun x hx => hw x (by simp [hx])
      obtain ⟨i1, i2, i3, i4, i5⟩ := ih b bs h' hs' hws
      have hp := uniformLaw_prob hab
      have hlast : (a :: b :: bs).getLastD 0 = (b :: bs).getLastD 0 := by
        simp [List.getLastD_cons]
      have hle : b ≤ (a :: b :: bs).getLastD 0 := hlast ▸ i4
      refine ⟨?_, ?_, ?_, hab.le.trans hle, ?_⟩
      · simp only [pieces, Measure.add_apply, Measure.smul_apply, i1, measure_univ, smul_eq_mul, mul_one,
          List.sum_cons]
        rw [ENNReal.ofReal_add hw0 (List.sum_nonneg hws)]
      · exact ((uniform_integrable a b).smul_measure ENNReal.ofReal_ne_top).add_measure i2
      · simp only [pieces]
        rw [integral_add_measure ((uniform_integrable a b).smul_measure ENNReal.ofReal_ne_top) i2,
          integral_smul_measure, uniform_mean hab, ENNReal.toReal_ofReal hw0, mul_add, i3]
        simp only [histogramLoop]
        rw [(loop_sum b bs ws (0 + (b + a) * w) (0 + w) h').1, smul_eq_mul]
        ring
      · simp only [pieces, Measure.add_apply, Measure.smul_apply, smul_eq_mul, add_eq_zero,
          mul_eq_zero]
        constructor
        · right
          unfold uniformLaw
          simp only [Measure.smul_apply, smul_eq_mul, mul_eq_zero]
          right
          rw [Measure.restrict_apply (measurableSet_Icc.compl)]
          have : (Icc a ((a :: b :: bs).getLastD 0))ᶜ ∩ Ico a b = ∅ := by
            ext x
            simp only [mem_inter_iff, mem_compl_iff, mem_Icc, mem_Ico, mem_empty_iff_false, iff_false]
            rintro ⟨h1, h2, h3⟩
            exact h1 ⟨h2, h3.le.trans hle⟩
          rw [this, measure_empty]
        · refine measure_mono_null ?_ i5
          rw [hlast]
          exact compl_subset_compl.mpr (Icc_subset_Icc_left hab.le)

/-! ## Quantiles of the normal distribution -/

/-- The standard normal distribution. -/
noncomputable abbrev N01 : Measure ℝ := gaussianReal 0 1

theorem erfc_eq (x : ℝ) : erfc x = 2 * N01.real (Ioi (√2 * x)) := by
  rw [Measure.real, gaussianReal_apply_eq_integral 0 one_ne_zero,
    ENNReal.toReal_ofReal (integral_nonneg fun x => gaussianPDFReal_nonneg 0 1 x)]
  unfold erfc gaussianPDFReal
  rw [integral_const_mul]
  have h := integral_comp_mul_left_Ioi (fun u : ℝ => Real.exp (-u ^ 2 / 2)) x (b := √2) (by positivity)
  have h2 : ∀ t : ℝ, Real.exp (-(√2 * t) ^ 2 / 2) = Real.exp (-t ^ 2) := by
    intro t
    congr 1
    rw [mul_pow, Real.sq_sqrt (by norm_num)]
    ring
  simp only [h2] at h
  rw [h]
  simp only [sub_zero, NNReal.coe_one, mul_one, smul_eq_mul]
  rw [Real.sqrt_mul (by norm_num)]
  have : √Real.pi ≠ 0 := by positivity
  have : √2 ≠ 0 := by positivity
  field_simp

theorem N01_Iic_neg (x : ℝ) : N01.real (Iic (-x)) = N01.real (Ici x) := by
  have h := gaussianReal_map_neg (μ := 0) (v := 1)
  rw [neg_zero] at h
  conv_lhs => rw [N01, ← h]
  rw [Measure.real, Measure.map_apply measurable_neg measurableSet_Iic, Measure.real]
  congr 2
  ext y
  simp

instance : NullSingletonClass N01 := nullSingletonClass_gaussianReal one_ne_zero

theorem N01_Ici (x : ℝ) : N01.real (Ici x) = N01.real (Ioi x) := by
  rw [Measure.real, Measure.real, measure_congr Ioi_ae_eq_Ici]

theorem N01_compl (x : ℝ) : N01.real (Iic x) = 1 - N01.real (Ioi x) := by
  rw [← probReal_compl_eq_one_sub measurableSet_Ioi, compl_Ioi]

/-- The quantile computed by the code is the quantile of the level. -/
theorem zLevel_quantile {g : ℝ → ℝ} (hg : IsErfcInv g) {level : ℝ} (h0 : 0 < level) (h1 : level < 1) :
    N01.real (Iic (zLevel g level)) = level := by
  have h := hg (2 * level) (by linarith) (by linarith)
  rw [erfc_eq] at h
  unfold zLevel
  rw [neg_mul, N01_Iic_neg, N01_Ici]
  linarith

theorem N01_zero : N01.real (Iic 0) = 1 / 2 := by
  have h := N01_Iic_neg 0
  rw [neg_zero, N01_Ici] at h
  have := N01_compl 0
  linarith

theorem zLevel_pos {g : ℝ → ℝ} (hg : IsErfcInv g) {level : ℝ} (h0 : 1 / 2 < level) (h1 : level < 1) :
    0 < zLevel g level := by
  have h := zLevel_quantile hg (by linarith) h1
  by_contra hc
  have : N01.real (Iic (zLevel g level)) ≤ N01.real (Iic 0) :=
    measureReal_mono (Iic_subset_Iic.mpr (not_lt.mp hc))
  rw [h, N01_zero] at this
  linarith

theorem zLevel_neg {g : ℝ → ℝ} (hg : IsErfcInv g) {level : ℝ} (h0 : 0 < level) (h1 : level < 1 / 2) :
    zLevel g level < 0 := by
  have h := zLevel_quantile hg h0 (by linarith)
  by_contra hc
  have : N01.real (Iic 0) ≤ N01.real (Iic (zLevel g level)) :=
    measureReal_mono (Iic_subset_Iic.mpr (not_lt.mp hc))
  rw [h, N01_zero] at this
  linarith

/-- `erfc` has an inverse on (0, 2), so the assumption on `erfc_inv` can be met. -/
theorem exists_erfcInv : ∃ g, IsErfcInv g := by
  have hcont : Continuous (cdf N01) := by
    rw [continuous_iff_continuousAt]
    intro x
    rw [Monotone.continuousAt_iff_leftLim_eq_rightLim (monotone_cdf N01), StieltjesFunction.rightLim_eq]
    have h := StieltjesFunction.measure_singleton (cdf N01) x
    rw [measure_cdf, measure_singleton] at h
    have h := ENNReal.ofReal_eq_zero.mp h.symm
    have h2 := (monotone_cdf N01).leftLim_le (le_refl x)
    linarith
  have he : ∀ x, erfc x = 2 * (1 - cdf N01 (√2 * x)) := by
    intro x
    rw [erfc_eq, cdf_eq_real, N01_compl]
    ring
  have hs : ∀ y, 0 < y → y < 2 → ∃ x, erfc x = y := by
    intro y h0 h2
    have hmem : (1 - y / 2) ∈ range (cdf N01) := by
      apply mem_range_of_exists_le_of_exists_ge hcont
      · have := (tendsto_cdf_atBot N01).eventually (ge_mem_nhds (show (0:ℝ) < 1 - y / 2 by linarith))
        obtain ⟨a, ha⟩ := this.exists
        exact ⟨a, ha⟩
      · have := (tendsto_cdf_atTop N01).eventually (le_mem_nhds (show 1 - y / 2 < (1:ℝ) by linarith))
        obtain ⟨a, ha⟩ := this.exists
        exact ⟨a, ha⟩
    obtain ⟨x, hx⟩ := hmem
    refine ⟨x / √2, ?_⟩
    rw [he, mul_div_cancel₀ _ (by positivity), hx]
    ring
  choose! g hg using hs
  exact ⟨g, hg⟩

/-- A normal distribution in terms of the standard one. -/
theorem gaussian_std (m s : ℝ) (v : ℝ≥0) (hv : (v : ℝ) = s ^ 2) :
    gaussianReal m v = N01.map (fun x => m + s * x) := by
  have h1 := gaussianReal_map_const_mul (μ := 0) (v := 1) s
  have h2 := gaussianReal_map_const_add (μ := s * 0) (v := NNReal.mk (s ^ 2) (sq_nonneg _) * 1) m
  rw [← h1, Measure.map_map (by fun_prop) (by fun_prop)] at h2
  rw [show (fun x => m + s * x) = (fun x => m + x) ∘ (fun x => s * x) from rfl, h2]
  congr 1
  · simp
  · ext; simp [hv]

theorem gaussian_Iic (m s : ℝ) (v : ℝ≥0) (hv : (v : ℝ) = s ^ 2) (x : ℝ) :
    (gaussianReal m v).real (Iic x) = N01.real {y | m + s * y ≤ x} := by
  rw [gaussian_std m s v hv, Measure.real, Measure.map_apply (by fun_prop) measurableSet_Iic]
  rfl

theorem map_exp_Iic (μ : Measure ℝ) {x : ℝ} (hx : 0 < x) :
    (μ.map Real.exp).real (Iic x) = μ.real (Iic (Real.log x)) := by
  rw [Measure.real, Measure.map_apply Real.measurable_exp measurableSet_Iic, Measure.real]
  congr 2
  ext y
  simp [Real.le_log_iff_exp_le hx]

/-- Upper tail of the standard normal distribution. -/
theorem N01_tail {x : ℝ} (hx : 0 ≤ x) : N01.real (Ici x) ≤ Real.exp (-(x ^ 2 / 2)) := by
  have h := measure_ge_le_exp_mul_mgf (μ := N01) (X := id) x hx (by
    simpa using integrable_exp_mul_gaussianReal (μ := 0) (v := 1) x)
  rw [mgf_id_gaussianReal] at h
  refine le_trans (le_of_eq ?_) (h.trans (le_of_eq ?_))
  · rfl
  · rw [← Real.exp_add]; congr 1; simp; ring

end Scram.Deviates
