import Verif.Spec.ChiSquareLaw
import Mathlib.Probability.Moments.ComplexMGF
import Mathlib.Probability.Distributions.Gaussian.Real
import Mathlib.MeasureTheory.Integral.Pi
import Mathlib.Analysis.SpecialFunctions.ImproperIntegrals
/-
The chi-square law is the law of a sum of squares of independent standard normal variables (moment generating functions).
-/
namespace TFR
open MeasureTheory ProbabilityTheory Set Filter Topology

private theorem mgf_gamma_eq (a t : ℝ) (ha : 0 < a) :
    mgf id (gammaMeasure a (1 / 2)) t =
      (1 / 2) ^ a / Real.Gamma a * ∫ x in Ioi (0 : ℝ), x ^ (a - 1) * Real.exp (-((1 / 2 - t) * x)) := by
  have hr : (0 : ℝ) < 1 / 2 := by norm_num
  unfold mgf gammaMeasure
  have hmeas : Measurable (gammaPDF a (1 / 2)) := by unfold gammaPDF; fun_prop
  rw [integral_withDensity_eq_integral_toReal_smul hmeas (ae_of_all _ fun x => by unfold gammaPDF; exact ENNReal.ofReal_lt_top),
    ← integral_const_mul, ← integral_indicator measurableSet_Ioi]
  apply integral_congr_ae
  have h0 : ∀ᵐ x : ℝ, x ≠ 0 := by
    rw [ae_iff]; simp
  filter_upwards [h0] with x hx
  simp only [gammaPDF, ENNReal.toReal_ofReal (gammaPDFReal_nonneg ha hr x), id, smul_eq_mul]
  rcases lt_or_gt_of_ne hx with h | h
  · rw [indicator_of_notMem (by simpa using h.le), gammaPDFReal, if_neg (by linarith), zero_mul]
  · rw [indicator_of_mem (by simpa using h), gammaPDFReal, if_pos h.le, mul_assoc, mul_assoc, ← Real.exp_add,
      show -(1 / 2 * x) + t * x = -((1 / 2 - t) * x) by ring]

private theorem mgf_gamma (a t : ℝ) (ha : 0 < a) :
    mgf id (gammaMeasure a (1 / 2)) t = if t < 1 / 2 then (1 / (1 - 2 * t)) ^ a else 0 := by
  have hG := Real.Gamma_pos_of_pos ha
  rw [mgf_gamma_eq a t ha]
  split_ifs with h
  · rw [Real.integral_rpow_mul_exp_neg_mul_Ioi ha (by linarith), show (1 / (1 - 2 * t)) = (1 / 2) * (1 / (1 / 2 - t)) by
      have : 1 - 2 * t ≠ 0 := by linarith
      have : 1 / 2 - t ≠ 0 := by linarith
      field_simp, Real.mul_rpow (by norm_num) (by
        apply div_nonneg zero_le_one; linarith)]
    field_simp
  · rw [integral_undef, mul_zero]
    intro hi
    apply not_integrableOn_Ioi_rpow (a - 1)
    refine hi.mono ?_ ?_
    · exact (measurable_id.pow_const _).aestronglyMeasurable
    · rw [ae_restrict_iff' measurableSet_Ioi]
      filter_upwards with x hx
      have hx0 : (0 : ℝ) < x := hx
      rw [norm_mul]
      have h1 : 1 ≤ ‖Real.exp (-((1 / 2 - t) * x))‖ := by
        rw [Real.norm_eq_abs, abs_of_pos (Real.exp_pos _)]
        apply Real.one_le_exp
        nlinarith
      exact le_mul_of_one_le_right (norm_nonneg _) h1

private theorem gauss_sq (t : ℝ) : ∫ x, Real.exp (t * x ^ 2) ∂(gaussianReal 0 1) = if t < 1 / 2 then (1 / (1 - 2 * t)) ^ (1 / 2 : ℝ) else 0 := by
  rw [integral_gaussianReal_eq_integral_smul (by norm_num)]
  have e : ∀ x : ℝ, gaussianPDFReal 0 1 x • Real.exp (t * x ^ 2) = (Real.sqrt (2 * Real.pi))⁻¹ * Real.exp (-(1 / 2 - t) * x ^ 2) := by
    intro x
    simp only [gaussianPDFReal, smul_eq_mul, NNReal.coe_one, sub_zero, mul_one]
    rw [mul_assoc, ← Real.exp_add]
    congr 2
    ring
  simp only [e]
  rw [integral_const_mul, integral_gaussian]
  split_ifs with h
  · have h1 : 0 < 1 - 2 * t := by linarith
    have h2 : 0 < 1 / 2 - t := by linarith
    rw [← Real.sqrt_eq_rpow, ← Real.sqrt_inv, ← Real.sqrt_mul (by positivity)]
    congr 1
    have := Real.pi_pos
    have h3 : 1 - 2 * t ≠ 0 := h1.ne'
    have h4 : 1 / 2 - t ≠ 0 := h2.ne'
    field_simp
  · rw [Real.sqrt_eq_zero_of_nonpos (x := Real.pi / (1 / 2 - t)) (div_nonpos_of_nonneg_of_nonpos Real.pi_pos.le (by linarith)),
      mul_zero]

private theorem mgf_sum (k : ℕ) (hk : 0 < k) (t : ℝ) :
    mgf (fun z : Fin k → ℝ => ∑ i, z i ^ 2) (Measure.pi fun _ : Fin k => gaussianReal 0 1) t =
      if t < 1 / 2 then (1 / (1 - 2 * t)) ^ ((k : ℝ) / 2) else 0 := by
  unfold mgf
  have e : ∀ z : Fin k → ℝ, Real.exp (t * ∑ i, z i ^ 2) = ∏ i, Real.exp (t * z i ^ 2) := by
    intro z
    rw [Finset.mul_sum, Real.exp_sum]
  simp only [e]
  rw [integral_fintype_prod_eq_prod (fun (_ : Fin k) (x : ℝ) => Real.exp (t * x ^ 2))]
  simp only [gauss_sq, Finset.prod_const, Finset.card_univ, Fintype.card_fin]
  split_ifs with h
  · rw [← Real.rpow_natCast, ← Real.rpow_mul (by apply div_nonneg zero_le_one; linarith)]
    congr 1
    ring
  · exact zero_pow hk.ne'

/-- A variable with the moment generating function of the gamma law has the gamma law. -/
theorem map_eq_gamma {Ω : Type} [MeasurableSpace Ω] (μ : Measure Ω) [IsProbabilityMeasure μ] (X : Ω → ℝ) (hm : Measurable X) (a : ℝ)
    (ha : 0 < a) (h : ∀ t, mgf X μ t = if t < 1 / 2 then (1 / (1 - 2 * t)) ^ a else 0) : μ.map X = gammaMeasure a (1 / 2) := by
  have hp : IsProbabilityMeasure (gammaMeasure a (1 / 2)) := isProbabilityMeasure_gammaMeasure ha (by norm_num)
  have hpm := Measure.isProbabilityMeasure_map (μ := μ) hm.aemeasurable
  have hmgf : mgf id (gammaMeasure a (1 / 2)) = mgf X μ := by
    ext t
    rw [mgf_gamma _ _ ha, h]
  have hset : (0 : ℝ) ∈ interior (integrableExpSet id (gammaMeasure a (1 / 2))) := by
    rw [mem_interior]
    refine ⟨Iio (1 / 2), ?_, isOpen_Iio, by simp⟩
    intro t (ht : t < 1 / 2)
    show Integrable _ _
    by_contra hn
    have h1 := mgf_gamma a t ha
    rw [if_pos ht] at h1
    have h2 : mgf id (gammaMeasure a (1 / 2)) t = 0 := integral_undef hn
    have h3 : 0 < (1 / (1 - 2 * t)) ^ a := Real.rpow_pos_of_pos (by apply one_div_pos.2; linarith) _
    linarith
  have heq := eqOn_complexMGF_of_mgf hmgf
  apply Measure.ext_of_charFun
  ext t
  rw [← complexMGF_mul_I hm.aemeasurable, ← complexMGF_id_mul_I]
  refine (heq ?_).symm
  simpa using hset

theorem chiSquareLaw_eq_sum (k : ℕ) (hk : 0 < k) :
    (Measure.pi fun _ : Fin k => gaussianReal 0 1).map (fun z => ∑ i, z i ^ 2) = Spec.chiSquareLaw k :=
  map_eq_gamma _ _ (by fun_prop) _ (by positivity) (mgf_sum k hk)

/-! ### Minus twice the logarithm of a product of uniform variables -/

private theorem unif_log (t : ℝ) :
    ∫ u, Real.exp (t * (-2 * Real.log u)) ∂(volume.restrict (Icc (0 : ℝ) 1)) = if t < 1 / 2 then 1 / (1 - 2 * t) else 0 := by
  have e : ∫ u, Real.exp (t * (-2 * Real.log u)) ∂(volume.restrict (Icc (0 : ℝ) 1)) = ∫ u in Ioo (0 : ℝ) 1, u ^ (-2 * t) := by
    rw [integral_Icc_eq_integral_Ioo]
    apply setIntegral_congr_fun measurableSet_Ioo
    intro u hu
    simp only
    rw [Real.rpow_def_of_pos hu.1]
    congr 1
    ring
  rw [e]
  split_ifs with h
  · rw [← integral_Ioc_eq_integral_Ioo, ← intervalIntegral.integral_of_le zero_le_one, integral_rpow (Or.inl (by linarith)),
      Real.one_rpow, Real.zero_rpow (by linarith)]
    congr 1
    · ring
    · ring
  · apply integral_undef
    intro hi
    have := (intervalIntegral.integrableOn_Ioo_rpow_iff one_pos).1 hi
    linarith

instance : IsProbabilityMeasure (volume.restrict (Icc (0 : ℝ) 1)) := ⟨by simp⟩

theorem map_log_uniform (n : ℕ) (hn : 0 < n) :
    (Measure.pi fun _ : Fin n => volume.restrict (Icc (0 : ℝ) 1)).map (fun u => ∑ i, -2 * Real.log (u i)) =
      Spec.chiSquareLaw ((2 * n : ℕ) : ℝ) := by
  unfold Spec.chiSquareLaw
  refine map_eq_gamma _ _ (by fun_prop) _ (by positivity) ?_
  intro t
  unfold mgf
  have e : ∀ z : Fin n → ℝ, Real.exp (t * ∑ i, -2 * Real.log (z i)) = ∏ i, Real.exp (t * (-2 * Real.log (z i))) := by
    intro z
    rw [Finset.mul_sum, Real.exp_sum]
  simp only [e]
  rw [integral_fintype_prod_eq_prod (fun (_ : Fin n) (x : ℝ) => Real.exp (t * (-2 * Real.log x)))]
  simp only [unif_log, Finset.prod_const, Finset.card_univ, Fintype.card_fin]
  split_ifs with h
  · rw [← Real.rpow_natCast]
    congr 1
    push_cast
    ring
  · exact zero_pow hn.ne'

end TFR
