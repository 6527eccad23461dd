import Verif.Lemmas.IncGamma
import Mathlib.Probability.Distributions.Gamma
import Mathlib.Probability.CDF
import Mathlib.MeasureTheory.Integral.IntegralEqImproper
/-
The gamma law in terms of the incomplete gamma functions.
-/
namespace TFR.IncGamma
open MeasureTheory ProbabilityTheory Set

/-- `Γ(s) = γ(s, z) + Γ(s, z)`. -/
theorem gamma_split {s z : ℝ} (hs : 0 < s) (hz : 0 < z) : Real.Gamma s = lower s z + J s z 0 := by
  rw [Real.Gamma_eq_integral hs]
  have e1 : ∫ t in Ioi 0, Real.exp (-t) * t ^ (s - 1) = ∫ t in Ioi (0 : ℝ), t ^ (s - 1) * Real.exp (-t) := by
    congr 1; ext t; ring
  have hint : IntegrableOn (fun t : ℝ => t ^ (s - 1) * Real.exp (-t)) (Ioi 0) := by
    refine (Real.GammaIntegral_convergent hs).congr ?_
    filter_upwards with t
    ring
  have e2 : J s z 0 = ∫ t in Ioi z, t ^ (s - 1) * Real.exp (-t) := by
    unfold J
    congr 1
    ext t
    simp [weight]
  have e3 : lower s z = ∫ t in Ioc 0 z, t ^ (s - 1) * Real.exp (-t) := by
    unfold lower
    rw [intervalIntegral.integral_of_le hz.le]
  rw [e1, e2, e3, ← setIntegral_union (Ioc_disjoint_Ioi le_rfl) measurableSet_Ioi (hint.mono_set Ioc_subset_Ioi_self)
    (hint.mono_set (Ioi_subset_Ioi hz.le)), Ioc_union_Ioi_eq_Ioi hz.le]

/-- Distribution function of the gamma law with rate one half. -/
theorem gammaMeasure_Iic {s x : ℝ} (hs : 0 < s) (hx : 0 < x) :
    (gammaMeasure s (1 / 2)).real (Iic x) = lower s (x / 2) / Real.Gamma s := by
  have hp : IsProbabilityMeasure (gammaMeasure s (1 / 2)) := isProbabilityMeasure_gammaMeasure hs (by norm_num)
  rw [← cdf_eq_real, cdf_gammaMeasure_eq_integral hs (by norm_num)]
  have e1 : ∫ t in Iic x, gammaPDFReal s (1 / 2) t = ∫ t in Ioc 0 x, gammaPDFReal s (1 / 2) t := by
    rw [← Iic_union_Ioc_eq_Iic hx.le]
    have h0 : ∫ t in Iic (0 : ℝ), gammaPDFReal s (1 / 2) t = 0 := by
      rw [← integral_Iic_eq_integral_Iio.symm]
      apply setIntegral_eq_zero_of_forall_eq_zero
      intro t (ht : t < 0)
      simp [gammaPDFReal, not_le.2 ht]
    have hi : Integrable (gammaPDFReal s (1 / 2)) := by
      refine ⟨(stronglyMeasurable_gammaPDFReal s (1 / 2)).aestronglyMeasurable, ?_⟩
      rw [hasFiniteIntegral_iff_ofReal (Filter.Eventually.of_forall (gammaPDFReal_nonneg hs (by norm_num)))]
      have := lintegral_gammaPDF_eq_one hs (show (0 : ℝ) < 1 / 2 by norm_num)
      unfold gammaPDF at this
      rw [this]
      exact ENNReal.one_lt_top
    rw [setIntegral_union (Iic_disjoint_Ioc le_rfl) measurableSet_Ioc hi.integrableOn hi.integrableOn, h0, zero_add]
  have e2 : ∫ t in Ioc 0 x, gammaPDFReal s (1 / 2) t =
      ∫ t in (0 : ℝ)..x, (1 / 2) / Real.Gamma s * ((fun u : ℝ => u ^ (s - 1) * Real.exp (-u)) (t * (1 / 2))) := by
    rw [intervalIntegral.integral_of_le hx.le]
    apply setIntegral_congr_fun measurableSet_Ioc
    intro t ht
    have ht0 : 0 < t := ht.1
    simp only [gammaPDFReal, if_pos ht0.le]
    rw [Real.mul_rpow ht0.le (by norm_num), show ((1 : ℝ) / 2) ^ s = (1 / 2) * (1 / 2) ^ (s - 1) by
      rw [← Real.rpow_one_add' (by norm_num) (by simpa using hs.ne')]; congr 1; ring, mul_comm t (1 / 2)]
    ring
  rw [e1, e2, intervalIntegral.integral_const_mul, intervalIntegral.integral_comp_mul_right (fun u : ℝ => u ^ (s - 1) * Real.exp (-u)) (show (1 / 2 : ℝ) ≠ 0 by norm_num)]
  unfold lower
  rw [zero_mul, show x * (1 / 2) = x / 2 by ring]
  simp only [smul_eq_mul]
  ring

theorem gammaMeasure_Ioi {s x : ℝ} (hs : 0 < s) (hx : 0 < x) :
    (gammaMeasure s (1 / 2)).real (Ioi x) = J s (x / 2) 0 / Real.Gamma s := by
  have hp : IsProbabilityMeasure (gammaMeasure s (1 / 2)) := isProbabilityMeasure_gammaMeasure hs (by norm_num)
  rw [← compl_Iic, probReal_compl_eq_one_sub measurableSet_Iic, gammaMeasure_Iic hs hx]
  have h := gamma_split (s := s) (z := x / 2) hs (by positivity)
  have hg := Real.Gamma_pos_of_pos hs
  field_simp
  linarith

theorem gammaMeasure_Ioi_zero {s : ℝ} (hs : 0 < s) : (gammaMeasure s (1 / 2)).real (Ioi 0) = 1 := by
  have hp : IsProbabilityMeasure (gammaMeasure s (1 / 2)) := isProbabilityMeasure_gammaMeasure hs (by norm_num)
  rw [← compl_Iic, probReal_compl_eq_one_sub measurableSet_Iic, ← cdf_eq_real, cdf_gammaMeasure_eq_integral hs (by norm_num),
    integral_Iic_eq_integral_Iio, setIntegral_eq_zero_of_forall_eq_zero, sub_zero]
  intro t (ht : t < 0)
  simp [gammaPDFReal, not_le.2 ht]

/-- Both incomplete gamma functions have the order of `z^s e^(-z)`. -/
theorem J_le {s z : ℝ} (hz : 1 ≤ z) (hzs : s ≤ z) : J s z 0 ≤ z ^ s * Real.exp (-z) := by
  have hz0 : 0 < z := by linarith
  have h := J_first (s := s) hz0
  have h0 := J_pos (s := s) hz0 0
  have h1 := J_pos (s := s) hz0 1
  have h2 := J_anti (s := s) hz0 0
  rw [h]
  rcases le_or_gt 1 s with hs | hs
  · nlinarith
  · have : (s - 1) * J s z 0 ≤ (s - 1) * J s z 1 := mul_le_mul_of_nonpos_left h2 (by linarith)
    nlinarith

theorem J_ge {s z : ℝ} (hs : 0 < s) (hz0 : 0 < z) (hz : z ≤ 1 ∨ z < s) : z ^ s * Real.exp (-z) ≤ 2 * max 1 z * J s z 0 := by
  have h := J_first (s := s) hz0
  have h0 := J_pos (s := s) hz0 0
  have h1 := J_pos (s := s) hz0 1
  have h2 := J_anti (s := s) hz0 0
  have m1 : 1 ≤ max 1 z := le_max_left _ _
  have m2 : z ≤ max 1 z := le_max_right _ _
  rw [h]
  rcases le_or_gt 1 s with hs | hs
  · have : (s - 1) * J s z 1 ≤ (s - 1) * J s z 0 := mul_le_mul_of_nonneg_left h2 (by linarith)
    have h3 : z * J s z 0 ≤ max 1 z * J s z 0 := mul_le_mul_of_nonneg_right m2 h0.le
    nlinarith
  · have h3 : (s - 1) * J s z 1 ≤ 0 := mul_nonpos_of_nonpos_of_nonneg (by linarith) h1.le
    have h4 : (1 + z - s) * J s z 0 ≤ 2 * max 1 z * J s z 0 := mul_le_mul_of_nonneg_right (by linarith) h0.le
    linarith

end TFR.IncGamma
