import Mathlib.Analysis.SpecialFunctions.ImproperIntegrals
import Mathlib.Analysis.Real.Pi.Bounds
import Mathlib.Analysis.Complex.ExponentialBounds
import Verif.Lemmas.Tails
/-
Mills' bound of the tails of the normal law.
-/
namespace TFR
open MeasureTheory ProbabilityTheory Set

theorem normal_upper_mills (t : ℝ) (ht : 0 < t) : (gaussianReal 0 1).real {x | t ≤ x} ≤ 2 / 5 * Real.exp (-t ^ 2 / 2) / t := by
  have hset : {x : ℝ | t ≤ x} = Ici t := rfl
  unfold Measure.real
  rw [hset, gaussianReal_apply_eq_integral 0 (by norm_num), integral_Ici_eq_integral_Ioi]
  apply ENNReal.toReal_le_of_le_ofReal (by positivity)
  apply ENNReal.ofReal_le_ofReal
  have hi := (integrableOn_exp_mul_Ioi (a := -t) (by linarith) t)
  calc ∫ x in Ioi t, gaussianPDFReal 0 1 x ≤ ∫ x in Ioi t, (2 / 5 * Real.exp (t ^ 2 / 2)) * Real.exp (-t * x) := by
        apply setIntegral_mono_on (integrable_gaussianPDFReal 0 1).integrableOn (hi.const_mul _) measurableSet_Ioi
        intro x hx
        have hx : t < x := hx
        unfold gaussianPDFReal
        rw [mul_assoc (2 / 5 : ℝ), ← Real.exp_add]
        apply mul_le_mul _ _ (Real.exp_pos _).le (by norm_num)
        · rw [inv_le_comm₀ (by positivity) (by norm_num)]
          apply Real.le_sqrt_of_sq_le
          have := Real.pi_gt_d2
          norm_num at *
          linarith
        · apply Real.exp_le_exp.2
          norm_num
          nlinarith [sq_nonneg (x - t)]
    _ = _ := by
        rw [integral_const_mul, integral_exp_mul_Ioi (by linarith)]
        have : Real.exp (-t ^ 2 / 2) = Real.exp (t ^ 2 / 2) * Real.exp (-t * t) := by
          rw [← Real.exp_add]; congr 1; ring
        rw [this]
        field_simp

theorem normal_lower_mills (t : ℝ) (ht : 0 < t) : (gaussianReal 0 1).real {x | x ≤ -t} ≤ 2 / 5 * Real.exp (-t ^ 2 / 2) / t := by
  have h : (gaussianReal 0 1).map (fun x => -x) = gaussianReal 0 1 := by
    have := gaussianReal_map_neg (μ := 0) (v := 1)
    simpa using this
  have e : (gaussianReal 0 1).real {x | x ≤ -t} = (gaussianReal 0 1).real {x | t ≤ x} := by
    conv_rhs => rw [← h]
    rw [map_measureReal_apply (f := fun x : ℝ => -x) measurable_neg (show MeasurableSet {x : ℝ | t ≤ x} from measurableSet_Ici)]
    congr 1
    ext x
    show x ≤ -t ↔ t ≤ -x
    constructor <;> intro h <;> linarith
  rw [e]
  exact normal_upper_mills t ht

theorem normal_two_mills (t : ℝ) (ht : 0 < t) : (gaussianReal 0 1).real {x | t ≤ |x|} ≤ 4 / 5 * Real.exp (-t ^ 2 / 2) / t := by
  have : {x : ℝ | t ≤ |x|} ⊆ {x | t ≤ x} ∪ {x | x ≤ -t} := by
    intro x hx
    rcases le_abs.1 (show t ≤ |x| from hx) with h | h
    · exact Or.inl h
    · exact Or.inr (by show x ≤ -t; linarith)
  refine (measureReal_mono this).trans ((measureReal_union_le _ _).trans ?_)
  have h1 := normal_upper_mills t ht
  have h2 := normal_lower_mills t ht
  have : 4 / 5 * Real.exp (-t ^ 2 / 2) / t = 2 / 5 * Real.exp (-t ^ 2 / 2) / t + 2 / 5 * Real.exp (-t ^ 2 / 2) / t := by ring
  linarith

/-- A z-score of at least 6.2 has a two-sided p-value of at most 1e-9. -/
theorem normal_reject (z : ℝ) (hz : 6.2 ≤ |z|) : (gaussianReal 0 1).real {x | |z| ≤ |x|} ≤ 1 / 10 ^ 9 := by
  have hz : (31 : ℝ) / 5 ≤ |z| := by norm_num at hz; exact hz
  refine (normal_two_mills |z| (by linarith)).trans ?_
  set t := |z|
  have h1 : Real.exp (-t ^ 2 / 2) ≤ Real.exp (-(961 / 50)) := Real.exp_le_exp.2 (by nlinarith)
  have h2 : Real.exp (-(961 / 50)) ≤ 5 / 10 ^ 9 := by
    rw [Real.exp_neg, inv_le_comm₀ (Real.exp_pos _) (by norm_num)]
    have h := Real.exp_one_gt_d9
    have e : Real.exp (961 / 50) = Real.exp 1 ^ 19 * Real.exp (11 / 50) := by
      rw [← Real.exp_nat_mul, ← Real.exp_add]; norm_num
    have h3 : (2.7182818283 : ℝ) ^ 19 ≤ Real.exp 1 ^ 19 := pow_le_pow_left₀ (by norm_num) h.le 19
    have h4 : (11 / 50 + 1 : ℝ) ≤ Real.exp (11 / 50) := Real.add_one_le_exp _
    rw [e]
    calc ((5 : ℝ) / 10 ^ 9)⁻¹ ≤ 2.7182818283 ^ 19 * (11 / 50 + 1) := by norm_num
      _ ≤ _ := mul_le_mul h3 h4 (by norm_num) (by positivity)
  rw [div_le_iff₀ (by linarith)]
  have : (1 : ℝ) / 10 ^ 9 * (31 / 5) ≤ 1 / 10 ^ 9 * t := mul_le_mul_of_nonneg_left hz (by norm_num)
  have h3 : 4 / 5 * Real.exp (-t ^ 2 / 2) ≤ 4 / 5 * (5 / 10 ^ 9) := by linarith
  refine h3.trans (le_trans ?_ this)
  norm_num

end TFR
