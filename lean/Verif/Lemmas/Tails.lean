import Mathlib.Probability.Distributions.Gamma
import Mathlib.Probability.Distributions.Gaussian.Real
import Mathlib.Probability.Moments.Basic
import Verif.Spec.ChiSquareLaw
/-
Tail bounds of the normal and of the chi-square law.
-/
namespace TFR
open MeasureTheory ProbabilityTheory Set

theorem gammaPDFReal_half (a x : ℝ) (ha : 0 < a) :
    gammaPDFReal a (1 / 2) x = 2 ^ a * Real.exp (-x / 4) * gammaPDFReal a (1 / 4) x := by
  unfold gammaPDFReal
  split_ifs with h
  · have e1 : (1 / 2 : ℝ) ^ a = 2 ^ a * (1 / 4) ^ a := by
      rw [← Real.mul_rpow (by norm_num) (by norm_num)]; norm_num
    have e2 : Real.exp (-(1 / 2 * x)) = Real.exp (-x / 4) * Real.exp (-(1 / 4 * x)) := by
      rw [← Real.exp_add]; congr 1; ring
    rw [e1, e2]; ring
  · simp

/-- A tail bound of the chi-square law. -/
theorem chiSquare_tail (k x : ℝ) (hk : 0 < k) :
    (Spec.chiSquareLaw k).real (Ioi x) ≤ 2 ^ (k / 2) * Real.exp (-x / 4) := by
  have hpos : (0 : ℝ) ≤ 2 ^ (k / 2) * Real.exp (-x / 4) := by positivity
  have hprob : IsProbabilityMeasure (gammaMeasure (k / 2) (1 / 4)) := isProbabilityMeasure_gammaMeasure (by linarith) (by norm_num)
  unfold Measure.real Spec.chiSquareLaw
  apply ENNReal.toReal_le_of_le_ofReal hpos
  calc gammaMeasure (k / 2) (1 / 2) (Ioi x) = ∫⁻ y in Ioi x, gammaPDF (k / 2) (1 / 2) y := by
        unfold gammaMeasure; rw [withDensity_apply _ measurableSet_Ioi]
    _ ≤ ∫⁻ y in Ioi x, ENNReal.ofReal (2 ^ (k / 2) * Real.exp (-x / 4)) * gammaPDF (k / 2) (1 / 4) y := by
        apply setLIntegral_mono' measurableSet_Ioi
        intro y hy
        unfold gammaPDF
        rw [← ENNReal.ofReal_mul hpos, gammaPDFReal_half _ _ (by linarith)]
        apply ENNReal.ofReal_le_ofReal
        apply mul_le_mul_of_nonneg_right _ (gammaPDFReal_nonneg (by linarith) (by norm_num) y)
        apply mul_le_mul_of_nonneg_left _ (by positivity)
        apply Real.exp_le_exp.2
        have : x < y := hy
        linarith
    _ = ENNReal.ofReal (2 ^ (k / 2) * Real.exp (-x / 4)) * gammaMeasure (k / 2) (1 / 4) (Ioi x) := by
        rw [lintegral_const_mul' _ _ ENNReal.ofReal_ne_top]
        unfold gammaMeasure; rw [withDensity_apply _ measurableSet_Ioi]
    _ ≤ ENNReal.ofReal (2 ^ (k / 2) * Real.exp (-x / 4)) * 1 := by gcongr; exact prob_le_one
    _ = _ := mul_one _

theorem normal_upper_tail (t : ℝ) (ht : 0 ≤ t) : (gaussianReal 0 1).real {x | t ≤ x} ≤ Real.exp (-t ^ 2 / 2) := by
  have h := measure_ge_le_exp_mul_mgf (μ := gaussianReal 0 1) (X := id) (t := t) t ht (by
    exact integrable_exp_mul_gaussianReal t)
  have e : mgf id (gaussianReal 0 1) t = Real.exp (t ^ 2 / 2) := by
    have := congrFun (mgf_id_gaussianReal (μ := 0) (v := 1)) t
    rw [this]; simp
  rw [e, ← Real.exp_add] at h
  refine h.trans (Real.exp_le_exp.2 ?_)
  nlinarith

theorem normal_lower_tail (t : ℝ) (ht : 0 ≤ t) : (gaussianReal 0 1).real {x | x ≤ -t} ≤ Real.exp (-t ^ 2 / 2) := by
  have h := measure_le_le_exp_mul_mgf (μ := gaussianReal 0 1) (X := id) (t := -t) (-t) (by linarith) (by
    exact integrable_exp_mul_gaussianReal (-t))
  have e : mgf id (gaussianReal 0 1) (-t) = Real.exp (t ^ 2 / 2) := by
    have := congrFun (mgf_id_gaussianReal (μ := 0) (v := 1)) (-t)
    rw [this]; simp
  rw [e, ← Real.exp_add] at h
  refine h.trans (Real.exp_le_exp.2 ?_)
  nlinarith

/-- Two-sided tail bound of the normal law. -/
theorem normal_two_tails (t : ℝ) (ht : 0 ≤ t) : (gaussianReal 0 1).real {x | t ≤ |x|} ≤ 2 * Real.exp (-t ^ 2 / 2) := by
  have : {x : ℝ | t ≤ |x|} ⊆ {x | t ≤ x} ∪ {x | x ≤ -t} := by
    intro x hx
    rcases le_abs.1 (show t ≤ |x| from hx) with h | h
    · exact Or.inl h
    · exact Or.inr (by show x ≤ -t; linarith)
  refine (measureReal_mono this).trans ((measureReal_union_le _ _).trans ?_)
  have h1 := normal_upper_tail t ht
  have h2 := normal_lower_tail t ht
  linarith

end TFR
