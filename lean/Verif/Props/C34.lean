import Verif.FailureModels
/-! # C34: built-in failure models return probabilities

Real arithmetic; the hypotheses of every theorem are the checks of the corresponding `Validate` function
(src/expression/exponential.cc 64-67, 80-85, 101-106, 131-157) about one vector of parameter values. -/
namespace Scram.Props.C34
open Scram.FailureModels

/-- C34, exponential: `Exponential::Validate` (64-67). -/
theorem exponential_probability (la t : ℝ) (hl : 0 ≤ la) (ht : 0 ≤ t) :
    0 ≤ exponential la t ∧ exponential la t ≤ 1 := ⟨pExp_nonneg hl ht, pExp_le_one la t⟩

/-- C34: the exponential model is nondecreasing in time. -/
theorem exponential_mono (la s t : ℝ) (hl : 0 ≤ la) (h : s ≤ t) : exponential la s ≤ exponential la t :=
  pExp_mono_time h hl

/-- C34, GLM: `Glm::Validate` (80-85). At time zero the value is the failure on demand, and for long times the
unavailability tends to `la / (la + mu)`; it is always between the two. -/
theorem glm_probability (ga la mu t : ℝ) (hl : 0 < la) (hm : 0 ≤ mu) (ht : 0 ≤ t) (hg : 0 ≤ ga) (hg1 : ga ≤ 1) :
    0 ≤ glm ga la mu t ∧ glm ga la mu t ≤ 1 ∧ glm ga la mu 0 = ga ∧
      min ga (la / (la + mu)) ≤ glm ga la mu t ∧ glm ga la mu t ≤ max ga (la / (la + mu)) := by
  have hr : 0 < la + mu := by linarith
  have hq : 0 ≤ la / (la + mu) := div_nonneg hl.le hr.le
  have hq1 : la / (la + mu) ≤ 1 := by rw [div_le_one hr]; linarith
  have he : 0 < Real.exp (-(la + mu) * t) := Real.exp_pos _
  have he1 : Real.exp (-(la + mu) * t) ≤ 1 := by
    rw [Real.exp_le_one_iff]; have := mul_nonneg hr.le ht; linarith
  have key : glm ga la mu t = la / (la + mu) * (1 - Real.exp (-(la + mu) * t)) + ga * Real.exp (-(la + mu) * t) := by
    simp only [glm]; field_simp; ring
  have hmin1 := min_le_left ga (la / (la + mu))
  have hmin2 := min_le_right ga (la / (la + mu))
  have hmax1 := le_max_left ga (la / (la + mu))
  have hmax2 := le_max_right ga (la / (la + mu))
  have hlow : min ga (la / (la + mu)) ≤ glm ga la mu t := by rw [key]; nlinarith
  have hup : glm ga la mu t ≤ max ga (la / (la + mu)) := by rw [key]; nlinarith
  refine ⟨le_trans (le_min hg hq) hlow, le_trans hup (max_le hg1 hq1), ?_, hlow, hup⟩
  simp only [glm, mul_zero, Real.exp_zero, mul_one]
  field_simp
  ring

/-- C34, Weibull: `Weibull::Validate` (101-106). -/
theorem weibull_probability (al be t0 t : ℝ) (ha : 0 < al) :
    0 ≤ weibull al be t0 t ∧ weibull al be t0 t ≤ 1 := by
  unfold weibull
  split
  · exact ⟨le_refl 0, zero_le_one⟩
  · rename_i h
    push Not at h
    have hx : 0 ≤ ((t - t0) / al) ^ be := Real.rpow_nonneg (div_nonneg (by linarith) ha.le) _
    have h1 := Real.exp_pos (-(((t - t0) / al) ^ be))
    have h2 : Real.exp (-(((t - t0) / al) ^ be)) ≤ 1 := by rw [Real.exp_le_one_iff]; linarith
    constructor <;> linarith

/-- C34: the Weibull model is nondecreasing in time. -/
theorem weibull_mono (al be t0 s t : ℝ) (ha : 0 < al) (hb : 0 < be) (h : s ≤ t) :
    weibull al be t0 s ≤ weibull al be t0 t := by
  by_cases hs : s ≤ t0
  · have : weibull al be t0 s = 0 := by simp [weibull, hs]
    rw [this]; exact (weibull_probability al be t0 t ha).1
  · have ht : ¬ t ≤ t0 := by push Not at hs ⊢; linarith
    simp only [weibull, if_neg hs, if_neg ht]
    have hx : ((s - t0) / al) ^ be ≤ ((t - t0) / al) ^ be := by
      push Not at hs
      apply Real.rpow_le_rpow (div_nonneg (by linarith) ha.le) _ hb.le
      exact div_le_div_of_nonneg_right (by linarith) ha.le
    have := Real.exp_le_exp.2 (neg_le_neg hx)
    linarith

/-- C34, periodic test with instant repair and test: `InstantRepair::Validate` (131-136). -/
theorem instant_repair_probability (la tau th t : ℝ) (hl : 0 < la) (htau : 0 < tau) (ht : 0 ≤ t) :
    0 ≤ instantRepair la tau th t ∧ instantRepair la tau th t ≤ 1 := by
  unfold instantRepair
  split
  · exact ⟨pExp_nonneg hl.le ht, pExp_le_one _ _⟩
  · rename_i h
    push Not at h
    have hr := floor_rest htau (show 0 ≤ t - th by linarith)
    refine ⟨pExp_nonneg hl.le ?_, pExp_le_one _ _⟩
    split
    · exact hr
    · exact htau.le

/-- C34, periodic test with instant test and a repair rate: `InstantTest::Validate` (138-141). The closed form is the
iteration of one period per test, so the division by `fraction - 1` is never a division by zero. -/
theorem instant_test_probability (la mu tau th t : ℝ) (hl : 0 < la) (hm : 0 ≤ mu) (htau : 0 < tau) (hth : 0 ≤ th)
    (ht : 0 ≤ t) : 0 ≤ instantTest la mu tau th t ∧ instantTest la mu tau th t ≤ 1 := by
  unfold instantTest
  split
  · exact ⟨pExp_nonneg hl.le ht, pExp_le_one _ _⟩
  · rename_i h
    push Not at h
    dsimp only
    have hf := (carry_lt_one hl hm htau).ne
    rw [geometric hf]
    have hit := iterate_mem (P := fun x => 0 ≤ x ∧ x ≤ 1)
      (g := fun x => x * carry la mu (pExp la tau) (pExp mu tau) tau + pExp la tau)
      (fun x hx => carry_step hl.le hm htau.le hx.1 hx.2) ⌊(t - th) / tau⌋₊ (pExp la th)
      ⟨pExp_nonneg hl.le hth, pExp_le_one _ _⟩
    exact carry_step hl.le hm (floor_rest htau (by linarith)) hit.1 hit.2

theorem instant_test_no_zero_division (la mu tau : ℝ) (hl : 0 < la) (hm : 0 ≤ mu) (htau : 0 < tau) :
    carry la mu (pExp la tau) (pExp mu tau) tau - 1 ≠ 0 :=
  sub_ne_zero.2 (carry_lt_one hl hm htau).ne

/-- C34, the complete periodic test: `Complete::Validate` (143-157). -/
theorem complete_probability (la laTest mu tau th ga dur : ℝ) (av : Bool) (si om t : ℝ) (hl : 0 < la) (hlt : 0 ≤ laTest)
    (hm : 0 ≤ mu) (htau : 0 < tau) (hth : 0 ≤ th) (ht : 0 ≤ t) (hg : 0 ≤ ga) (hg1 : ga ≤ 1) (hd : 0 < dur)
    (hdt : dur ≤ tau) (hs : 0 ≤ si) (hs1 : si ≤ 1) (ho : 0 ≤ om) (ho1 : om ≤ 1) :
    0 ≤ complete la laTest mu tau th ga dur av si om t ∧ complete la laTest mu tau th ga dur av si om t ≤ 1 := by
  unfold complete
  split
  · exact ⟨pExp_nonneg hl.le ht, pExp_le_one _ _⟩
  · rename_i h
    push Not at h
    dsimp only
    have hrest := floor_rest htau (show 0 ≤ t - th by linarith)
    have hit : ∀ n : ℕ, ((fun s => pPeriod la mu om
        (pTest la mu ga si om s (pExp laTest dur) (pExp mu dur) (pExp la dur) dur true) (pExp la (tau - dur))
          (pExp mu (tau - dur)) (tau - dur))^[n] ⟨pExp la th, 0, 1 - pExp la th⟩).Dist := by
      intro n
      induction n with
      | zero =>
        refine ⟨pExp_nonneg hl.le hth, le_refl 0, ?_, by simp⟩
        have := pExp_le_one la th
        simpa using this
      | succ n ih =>
        rw [Function.iterate_succ_apply']
        exact pPeriod_ok hl.le hm ho ho1 (by linarith)
          ((pTest_ok hl.le hlt hm hg hg1 hs hs1 ho ho1 hd.le ih true).2 rfl)
    split
    · have := (pTest_ok hl.le hlt hm hg hg1 hs hs1 ho ho1 hrest (hit ⌊(t - th) / tau⌋₊) av).1
      obtain ⟨-, -, -, -, h5, h6⟩ := this
      constructor <;> linarith
    · rename_i hgt
      push Not at hgt
      have h1 := (pTest_ok hl.le hlt hm hg hg1 hs hs1 ho ho1 hd.le (hit ⌊(t - th) / tau⌋₊) true).2 rfl
      obtain ⟨a1, a2, a3, a4⟩ := pPeriod_ok hl.le hm ho ho1
        (show 0 ≤ t - th - (⌊(t - th) / tau⌋₊ : ℝ) * tau - dur by linarith) h1
      constructor <;> linarith

/-- The assertions of `Complete::Compute` (lines 246-248 and 256-258): every test and every period keeps the rolling
probabilities in range. -/
theorem complete_asserts (la laTest mu ga si om t : ℝ) (s : Roll) (av : Bool) (hl : 0 < la) (hlt : 0 ≤ laTest)
    (hm : 0 ≤ mu) (hg : 0 ≤ ga) (hg1 : ga ≤ 1) (hs : 0 ≤ si) (hs1 : si ≤ 1) (ho : 0 ≤ om) (ho1 : om ≤ 1) (ht : 0 ≤ t)
    (h : s.Dist) :
    let s' := pTest la mu ga si om s (pExp laTest t) (pExp mu t) (pExp la t) t av
    (0 ≤ s'.fail ∧ s'.fail ≤ 1 ∧ 0 ≤ s'.repair ∧ s'.repair ≤ 1 ∧ 0 ≤ s'.available ∧ s'.available ≤ 1) ∧
      (pPeriod la mu om s (pExp la t) (pExp mu t) t).Dist :=
  ⟨(pTest_ok hl.le hlt hm hg hg1 hs hs1 ho ho1 ht h av).1, pPeriod_ok hl.le hm ho ho1 ht h⟩

/-- C34 (first test): a component that is not available at test is down during the whole first test, the end included. -/
theorem down_in_first_test (la laTest mu tau th ga dur si om t : ℝ) (hdt : dur < tau) (h : th < t) (h2 : t ≤ th + dur) :
    complete la laTest mu tau th ga dur false si om t = 1 := by
  have hn : ⌊(t - th) / tau⌋₊ = 0 := by
    rw [Nat.floor_eq_zero, div_lt_one (by linarith)]; linarith
  unfold complete
  rw [if_neg (not_le.2 h)]
  simp only [hn, Function.iterate_zero, id_eq, Nat.cast_zero, zero_mul, sub_zero]
  rw [if_pos (by linarith)]
  simp only [pTest]
  simp
  ring

example : complete (1/1000) (2/1000) (1/10) 730 100 (1/100) 24 false (9/10) (1/50) 124 = 1 :=
  down_in_first_test _ _ _ _ _ _ _ _ _ _ (by norm_num) (by norm_num) (by norm_num)

/-! Concrete parameters that pass the checks. -/

example : 0 ≤ complete (1/1000) (2/1000) (1/10) 730 100 (1/100) 24 false (9/10) (1/50) 8760 ∧
    complete (1/1000) (2/1000) (1/10) 730 100 (1/100) 24 false (9/10) (1/50) 8760 ≤ 1 :=
  complete_probability _ _ _ _ _ _ _ _ _ _ _ (by norm_num) (by norm_num) (by norm_num) (by norm_num) (by norm_num)
    (by norm_num) (by norm_num) (by norm_num) (by norm_num) (by norm_num) (by norm_num) (by norm_num) (by norm_num)
    (by norm_num)

example : 0 ≤ instantTest (1/1000) (1/1000) 730 100 8760 ∧ instantTest (1/1000) (1/1000) 730 100 8760 ≤ 1 :=
  instant_test_probability _ _ _ _ _ (by norm_num) (by norm_num) (by norm_num) (by norm_num) (by norm_num)

end Scram.Props.C34
