import Mathlib.Analysis.SpecialFunctions.Exp
import Mathlib.Analysis.SpecialFunctions.Pow.Real
import Mathlib.Analysis.Convex.SpecificFunctions.Basic
import Mathlib.Tactic.FieldSimp
import Mathlib.Tactic.Linarith
import Mathlib.Tactic.LinearCombination
import Mathlib.Tactic.Positivity
/-!
# Built-in failure models

Models the `Compute` functions of src/expression/exponential.cc over the real numbers (no rounding, no overflow; the
truncation `static_cast<int>` of a quotient of nonnegative numbers is the floor, and is not limited to the range of `int`).
-/
namespace Scram.FailureModels

/-- `p_exp(lambda, time)` (src/expression/exponential.cc 37-39). -/
noncomputable def pExp (l t : ℝ) : ℝ := 1 - Real.exp (-l * t)

/-- `p_exp(p_mu, p_lambda, mu, lambda, time)` (src/expression/exponential.cc 53-57). -/
noncomputable def pExp2 (pMu pLa mu la t : ℝ) : ℝ :=
  if la = mu then pLa - (1 - pLa) * la * t else (la * pMu - mu * pLa) / (la - mu)

/-- `Exponential::Compute` (src/expression/exponential.cc 69-71). -/
noncomputable def exponential (la t : ℝ) : ℝ := pExp la t

/-- `Glm::Compute` (src/expression/exponential.cc 87-91). -/
noncomputable def glm (ga la mu t : ℝ) : ℝ :=
  let r := la + mu
  (la - (la - ga * r) * Real.exp (-r * t)) / r

/-- `Weibull::Compute` (src/expression/exponential.cc 108-111). -/
noncomputable def weibull (al be t0 t : ℝ) : ℝ :=
  if t ≤ t0 then 0 else 1 - Real.exp (-(((t - t0) / al) ^ be))

/-- `PeriodicTest::InstantRepair::Compute` (src/expression/exponential.cc 159-167). -/
noncomputable def instantRepair (la tau th t : ℝ) : ℝ :=
  if t ≤ th then pExp la t
  else
    let d := t - th
    let after := d - (⌊d / tau⌋₊ : ℝ) * tau
    pExp la (if after ≠ 0 then after else tau)

/-- The lambda `carry` of `InstantTest::Compute` (src/expression/exponential.cc 185-189). -/
noncomputable def carry (la mu pLa pMu t : ℝ) : ℝ :=
  let pMuLa := pExp2 pLa pMu la mu t
  1 - pMu + pMuLa - pLa

/-- `PeriodicTest::InstantTest::Compute` (src/expression/exponential.cc 179-205). -/
noncomputable def instantTest (la mu tau th t : ℝ) : ℝ :=
  if t ≤ th then pExp la t
  else
    let prob := pExp la th
    let d := t - th
    let n := ⌊d / tau⌋₊
    let fraction := carry la mu (pExp la tau) (pExp mu tau) tau
    let compound := fraction ^ n
    let prob := prob * compound + pExp la tau * (compound - 1) / (fraction - 1)
    let after := d - (n : ℝ) * tau
    prob * carry la mu (pExp la after) (pExp mu after) after + pExp la after

/-- The three rolling probabilities of `Complete::Compute` (src/expression/exponential.cc 226-228). -/
structure Roll where
  fail : ℝ
  repair : ℝ
  available : ℝ

/-- The lambda `p_mu_lambda` (src/expression/exponential.cc 231-233). -/
noncomputable def pMuLambda (la mu om pMu pLa t : ℝ) : ℝ := pMu * om + (1 - om) * pExp2 pMu pLa mu la t

/-- The lambda `p_test` (src/expression/exponential.cc 235-249). -/
noncomputable def pTest (la mu ga si om : ℝ) (s : Roll) (pLaTest pMu pLa t : ℝ) (available : Bool) : Roll :=
  let transient := s.fail + s.available * (ga + (1 - ga) * pLaTest)
  let fail := s.repair * pMuLambda la mu om pMu pLa t + (1 - si) * transient
  let repair := (1 - pMu) * s.repair + si * transient
  ⟨fail, repair, 1 - fail - repair - (if available then 0 else s.available * (1 - ga) * (1 - pLaTest))⟩

/-- The lambda `p_period` (src/expression/exponential.cc 251-259). -/
noncomputable def pPeriod (la mu om : ℝ) (s : Roll) (pLa pMu t : ℝ) : Roll :=
  let fail := s.available * pLa + s.fail + s.repair * pMuLambda la mu om pMu pLa t
  let repair := s.repair * (1 - pMu)
  ⟨fail, repair, 1 - fail - repair⟩

/-- `PeriodicTest::Complete::Compute` (src/expression/exponential.cc 219-291). The assertions of the code are not part of
the function; `C34` proves them (`complete_asserts`). -/
noncomputable def complete (la laTest mu tau th ga dur : ℝ) (availableAtTest : Bool) (si om t : ℝ) : ℝ :=
  if t ≤ th then pExp la t
  else
    let s0 : Roll := ⟨pExp la th, 0, 1 - pExp la th⟩
    let d := t - th
    let n := ⌊d / tau⌋₊
    let dp := tau - dur
    let step := fun s => pPeriod la mu om
      (pTest la mu ga si om s (pExp laTest dur) (pExp mu dur) (pExp la dur) dur true) (pExp la dp) (pExp mu dp) dp
    let s := step^[n] s0
    let after := d - (n : ℝ) * tau
    let s :=
      if after ≤ dur then
        pTest la mu ga si om s (pExp laTest after) (pExp mu after) (pExp la after) after availableAtTest
      else
        let s := pTest la mu ga si om s (pExp laTest dur) (pExp mu dur) (pExp la dur) dur true
        pPeriod la mu om s (pExp la (after - dur)) (pExp mu (after - dur)) (after - dur)
    1 - s.available

/-! ## Proofs -/

theorem pExp_nonneg {l t : ℝ} (hl : 0 ≤ l) (ht : 0 ≤ t) : 0 ≤ pExp l t := by
  unfold pExp
  have : Real.exp (-l * t) ≤ 1 := by
    rw [Real.exp_le_one_iff]; have := mul_nonneg hl ht; linarith
  linarith

theorem pExp_lt_one (l t : ℝ) : pExp l t < 1 := by
  unfold pExp; have := Real.exp_pos (-l * t); linarith

theorem pExp_le_one (l t : ℝ) : pExp l t ≤ 1 := (pExp_lt_one l t).le

theorem pExp_pos {l t : ℝ} (hl : 0 < l) (ht : 0 < t) : 0 < pExp l t := by
  unfold pExp
  have : Real.exp (-l * t) < 1 := by
    rw [Real.exp_lt_one_iff]; have := mul_pos hl ht; linarith
  linarith

theorem pExp_mono_rate {a b t : ℝ} (h : a ≤ b) (ht : 0 ≤ t) : pExp a t ≤ pExp b t := by
  unfold pExp
  have : Real.exp (-b * t) ≤ Real.exp (-a * t) := Real.exp_le_exp.2 (by nlinarith)
  linarith

theorem pExp_mono_time {a s t : ℝ} (h : s ≤ t) (ha : 0 ≤ a) : pExp a s ≤ pExp a t := by
  unfold pExp
  have : Real.exp (-a * t) ≤ Real.exp (-a * s) := Real.exp_le_exp.2 (by nlinarith)
  linarith

/-- Concavity of `x ↦ 1 - exp (-x)`. -/
theorem concave {y z : ℝ} (hy : 0 ≤ y) (hyz : y ≤ z) : y * (1 - Real.exp (-z)) ≤ z * (1 - Real.exp (-y)) := by
  rcases eq_or_lt_of_le (hy.trans hyz) with hz | hz
  · have : y = 0 := by linarith
    subst this; rw [← hz]
  · have h := convexOn_exp.2 (Set.mem_univ (-z)) (Set.mem_univ 0) (show 0 ≤ y / z by positivity)
      (show 0 ≤ 1 - y / z by rw [sub_nonneg, div_le_one hz]; exact hyz) (by ring)
    simp only [smul_eq_mul, mul_zero, add_zero, Real.exp_zero, mul_one] at h
    have e : y / z * -z = -y := by field_simp
    rw [e] at h
    have := mul_le_mul_of_nonneg_left h hz.le
    have e2 : z * (y / z * Real.exp (-z) + (1 - y / z)) = y * Real.exp (-z) + z - y := by field_simp; ring
    rw [e2] at this
    linarith

/-- The second of two consecutive processes: at least zero and at most the first. -/
theorem pExp2_bounds {mu la t : ℝ} (hm : 0 ≤ mu) (hl : 0 ≤ la) (ht : 0 ≤ t) :
    0 ≤ pExp2 (pExp mu t) (pExp la t) mu la t ∧ pExp2 (pExp mu t) (pExp la t) mu la t ≤ pExp mu t := by
  unfold pExp2
  split
  · rename_i h
    subst h
    have hx : 0 ≤ la * t := mul_nonneg hl ht
    have h1 := Real.add_one_le_exp (la * t)
    have h2 : Real.exp (-la * t) * Real.exp (la * t) = 1 := by rw [← Real.exp_add]; simp
    have h3 := Real.exp_pos (-la * t)
    have h4 := Real.exp_pos (la * t)
    unfold pExp
    constructor
    · have := mul_le_mul_of_nonneg_left h1 h3.le
      rw [h2] at this
      linarith
    · have := mul_nonneg h3.le hx
      linarith
  · rename_i hne
    rcases lt_or_gt_of_ne hne with h | h
    · -- la < mu
      have hneg : la - mu < 0 := by linarith
      have hpm := pExp_mono_rate h.le ht
      constructor
      · apply div_nonneg_of_nonpos _ hneg.le
        rcases eq_or_lt_of_le ht with h0 | h0
        · subst h0; simp [pExp]
        · have := concave (y := la * t) (z := mu * t) (by positivity) (by nlinarith)
          simp only [pExp, neg_mul]
          nlinarith
      · rw [div_le_iff_of_neg hneg]
        nlinarith
    · have hpos : 0 < la - mu := by linarith
      have hpm := pExp_mono_rate h.le ht
      constructor
      · apply div_nonneg _ hpos.le
        rcases eq_or_lt_of_le ht with h0 | h0
        · subst h0; simp [pExp]
        · have := concave (y := mu * t) (z := la * t) (by positivity) (by nlinarith)
          simp only [pExp, neg_mul]
          nlinarith
      · rw [div_le_iff₀ hpos]
        nlinarith

/-- The order of the two processes does not matter. -/
theorem pExp2_comm (mu la t : ℝ) :
    pExp2 (pExp la t) (pExp mu t) la mu t = pExp2 (pExp mu t) (pExp la t) mu la t := by
  unfold pExp2
  by_cases h : la = mu
  · subst h; rfl
  · rw [if_neg h, if_neg (Ne.symm h)]
    have h1 : la - mu ≠ 0 := sub_ne_zero.2 h
    have h2 : mu - la ≠ 0 := sub_ne_zero.2 (Ne.symm h)
    field_simp
    ring

/-- One test period is a mixture of two probabilities. -/
theorem carry_step {la mu t p : ℝ} (hl : 0 ≤ la) (hm : 0 ≤ mu) (ht : 0 ≤ t) (h0 : 0 ≤ p) (h1 : p ≤ 1) :
    0 ≤ p * carry la mu (pExp la t) (pExp mu t) t + pExp la t ∧
    p * carry la mu (pExp la t) (pExp mu t) t + pExp la t ≤ 1 := by
  have hb := pExp2_bounds hm hl ht
  rw [← pExp2_comm] at hb
  have hla := pExp_nonneg hl ht
  have hla1 := pExp_le_one la t
  have hmu1 := pExp_le_one mu t
  simp only [carry]
  generalize pExp2 (pExp la t) (pExp mu t) la mu t = x at *
  constructor <;> nlinarith

theorem carry_lt_one {la mu t : ℝ} (hl : 0 < la) (hm : 0 ≤ mu) (ht : 0 < t) :
    carry la mu (pExp la t) (pExp mu t) t < 1 := by
  have hb := pExp2_bounds hm hl.le ht.le
  rw [← pExp2_comm] at hb
  have hla := pExp_pos hl ht
  simp only [carry]
  linarith [hb.2]

/-- The geometric progression is the iteration of one period. -/
theorem geometric {f c p : ℝ} (hf : f ≠ 1) (n : ℕ) :
    p * f ^ n + c * (f ^ n - 1) / (f - 1) = (fun x => x * f + c)^[n] p := by
  have h : f - 1 ≠ 0 := sub_ne_zero.2 hf
  induction n with
  | zero => simp
  | succ n ih =>
    rw [Function.iterate_succ_apply', ← ih]
    field_simp
    ring

theorem iterate_mem {P : ℝ → Prop} {g : ℝ → ℝ} (hg : ∀ x, P x → P (g x)) (n : ℕ) : ∀ x, P x → P (g^[n] x) := by
  induction n with
  | zero => intro x h; exact h
  | succ n ih => intro x h; exact ih _ (hg x h)

/-- A distribution over the three states. -/
def Roll.Dist (s : Roll) : Prop := 0 ≤ s.fail ∧ 0 ≤ s.repair ∧ 0 ≤ s.available ∧ s.fail + s.repair + s.available = 1

theorem pMuLambda_bounds {la mu om t : ℝ} (hl : 0 ≤ la) (hm : 0 ≤ mu) (ho : 0 ≤ om) (ho1 : om ≤ 1) (ht : 0 ≤ t) :
    0 ≤ pMuLambda la mu om (pExp mu t) (pExp la t) t ∧ pMuLambda la mu om (pExp mu t) (pExp la t) t ≤ pExp mu t := by
  have hb := pExp2_bounds hm hl ht
  have := pExp_nonneg hm ht
  unfold pMuLambda
  generalize pExp2 (pExp mu t) (pExp la t) mu la t = x at *
  constructor <;> nlinarith

/-- One test: sub-probabilities; a distribution if the component stays available. -/
theorem pTest_ok {la laTest mu ga si om t : ℝ} {s : Roll} (hl : 0 ≤ la) (hlt : 0 ≤ laTest) (hm : 0 ≤ mu)
    (hg : 0 ≤ ga) (hg1 : ga ≤ 1) (hs : 0 ≤ si) (hs1 : si ≤ 1) (ho : 0 ≤ om) (ho1 : om ≤ 1) (ht : 0 ≤ t) (h : s.Dist)
    (a : Bool) :
    let s' := pTest la mu ga si om s (pExp laTest t) (pExp mu t) (pExp la t) t a
    (0 ≤ s'.fail ∧ s'.fail ≤ 1 ∧ 0 ≤ s'.repair ∧ s'.repair ≤ 1 ∧ 0 ≤ s'.available ∧ s'.available ≤ 1) ∧
      (a = true → s'.Dist) := by
  have hb := pMuLambda_bounds hl hm ho ho1 ht
  have hq := pExp_nonneg hlt ht
  have hq1 := pExp_le_one laTest t
  have hmu := pExp_nonneg hm ht
  have hmu1 := pExp_le_one mu t
  obtain ⟨h1, h2, h3, h4⟩ := h
  simp only [pTest, Roll.Dist]
  generalize pMuLambda la mu om (pExp mu t) (pExp la t) t = x at *
  generalize pExp laTest t = q at *
  generalize pExp mu t = m at *
  obtain ⟨F, R, A⟩ := s
  simp only at *
  -- the transient failure and the rest
  have hu0 : 0 ≤ ga + (1 - ga) * q := by nlinarith
  have hrest : 0 ≤ A * ((1 - ga) * (1 - q)) := mul_nonneg h3 (mul_nonneg (by linarith) (by linarith))
  have htr : F + A * (ga + (1 - ga) * q) = F + A - A * ((1 - ga) * (1 - q)) := by ring
  have htr0 : 0 ≤ F + A * (ga + (1 - ga) * q) := add_nonneg h1 (mul_nonneg h3 hu0)
  have hAe : A * (1 - ga) * (1 - q) = A * ((1 - ga) * (1 - q)) := by ring
  rw [hAe]
  generalize A * ((1 - ga) * (1 - q)) = V at *
  generalize F + A * (ga + (1 - ga) * q) = T at *
  have a1 : 0 ≤ R * x := mul_nonneg h2 hb.1
  have a2 : R * x ≤ R * m := mul_le_mul_of_nonneg_left hb.2 h2
  have a3 : 0 ≤ (1 - si) * T := mul_nonneg (by linarith) htr0
  have a4 : 0 ≤ si * T := mul_nonneg hs htr0
  have a5 : 0 ≤ (1 - m) * R := mul_nonneg (by linarith) h2
  have hsum : R * x + (1 - si) * T + ((1 - m) * R + si * T) ≤ R + T := by nlinarith
  refine ⟨⟨by linarith, by linarith, by linarith, by linarith, ?_, ?_⟩, ?_⟩
  · cases a <;> simp <;> linarith
  · cases a <;> simp <;> linarith
  · intro ha; subst ha; simp; refine ⟨by linarith, by linarith, by linarith⟩

theorem pPeriod_ok {la mu om t : ℝ} {s : Roll} (hl : 0 ≤ la) (hm : 0 ≤ mu) (ho : 0 ≤ om) (ho1 : om ≤ 1) (ht : 0 ≤ t)
    (h : s.Dist) : (pPeriod la mu om s (pExp la t) (pExp mu t) t).Dist := by
  have hb := pMuLambda_bounds hl hm ho ho1 ht
  have hla := pExp_nonneg hl ht
  have hla1 := pExp_le_one la t
  have hmu1 := pExp_le_one mu t
  obtain ⟨h1, h2, h3, h4⟩ := h
  simp only [pPeriod, Roll.Dist]
  generalize pMuLambda la mu om (pExp mu t) (pExp la t) t = x at *
  generalize pExp la t = q at *
  generalize pExp mu t = m at *
  obtain ⟨F, R, A⟩ := s
  simp only at *
  have a1 : 0 ≤ R * x := mul_nonneg h2 hb.1
  have a2 : R * x ≤ R * m := mul_le_mul_of_nonneg_left hb.2 h2
  have a3 : 0 ≤ A * q := mul_nonneg h3 hla
  have a4 : A * q ≤ A := by nlinarith
  have a5 : 0 ≤ R * (1 - m) := mul_nonneg h2 (by linarith)
  refine ⟨by linarith, a5, by nlinarith, by ring⟩

theorem floor_rest {d tau : ℝ} (ht : 0 < tau) (hd : 0 ≤ d) : 0 ≤ d - (⌊d / tau⌋₊ : ℝ) * tau := by
  have := Nat.floor_le (div_nonneg hd ht.le)
  rw [le_div_iff₀ ht] at this
  linarith

end Scram.FailureModels
