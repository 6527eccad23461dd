import Mathlib.MeasureTheory.Integral.IntervalIntegral.FundThmCalculus
import Verif.Lemmas.Mills
/-
Lower bounds of the two-sided tails of the normal law: z-scores that are certainly not rejected.
-/
namespace TFR
open ProbabilityTheory MeasureTheory Set

theorem normal_two_eq (t : ℝ) (ht : 0 < t) : (gaussianReal 0 1).real {x | t ≤ |x|} = 2 * ∫ x in Ici t, gaussianPDFReal 0 1 x := by
  have h : (gaussianReal 0 1).map (fun x => -x) = gaussianReal 0 1 := by
    have := gaussianReal_map_neg (μ := 0) (v := 1)
    simpa using this
  have e : (gaussianReal 0 1).real {x | x ≤ -t} = (gaussianReal 0 1).real {x | t ≤ x} := by
    conv_rhs => rw [← h]
    rw [map_measureReal_apply (f := fun x : ℝ => -x) measurable_neg (show MeasurableSet {x : ℝ | t ≤ x} from measurableSet_Ici)]
    congr 1
    ext x
    show x ≤ -t ↔ t ≤ -x
    constructor <;> intro h <;> linarith
  have hu : {x : ℝ | t ≤ |x|} = {x | t ≤ x} ∪ {x | x ≤ -t} := by
    ext x
    simp only [mem_ofPred_eq, mem_union, le_abs]
    constructor <;> rintro (h | h)
    · exact Or.inl h
    · exact Or.inr (by linarith)
    · exact Or.inl h
    · exact Or.inr (by linarith)
  have hd : Disjoint {x : ℝ | t ≤ x} {x | x ≤ -t} := by
    rw [disjoint_left]
    intro x h1 h2
    simp only [mem_ofPred_eq] at h1 h2
    linarith
  have hi : (gaussianReal 0 1).real {x | t ≤ x} = ∫ x in Ici t, gaussianPDFReal 0 1 x := by
    unfold Measure.real
    rw [gaussianReal_apply_eq_integral 0 (by norm_num)]
    exact ENNReal.toReal_ofReal (integral_nonneg fun x => gaussianPDFReal_nonneg 0 1 x)
  rw [hu, measureReal_union hd measurableSet_Iic, e, hi]; ring

theorem normal_lower_bound (t h : ℝ) (ht : 0 < t) (hh : 0 < h) :
    2 * ((Real.sqrt (2 * Real.pi))⁻¹ * Real.exp (-t ^ 2 / 2)) * ((1 - Real.exp (-((t + h / 2) * h))) / (t + h / 2)) ≤
      (gaussianReal 0 1).real {x | t ≤ |x|} := by
  rw [normal_two_eq t ht, mul_assoc]
  apply mul_le_mul_of_nonneg_left _ (by norm_num)
  set a := t + h / 2 with ha
  have ha0 : 0 < a := by positivity
  set K := (Real.sqrt (2 * Real.pi))⁻¹ * Real.exp (-t ^ 2 / 2)
  have hint : ∫ x in t..t + h, K * Real.exp (-(a * (x - t))) = K * ((1 - Real.exp (-(a * h))) / a) := by
    rw [intervalIntegral.integral_const_mul]
    congr 1
    rw [intervalIntegral.integral_eq_sub_of_hasDerivAt (f := fun x => -Real.exp (-(a * (x - t))) / a)]
    · simp; ring
    · intro x _
      have h1 : HasDerivAt (fun x : ℝ => -(a * (x - t))) (-a) x := by
        have := (((hasDerivAt_id x).sub_const t).const_mul (-a))
        simp only [mul_one, neg_mul, id] at this
        exact this
      have h2 := (h1.exp.neg).div_const a
      refine h2.congr_deriv ?_
      field_simp
    · apply Continuous.intervalIntegrable
      fun_prop
  rw [← hint, intervalIntegral.integral_of_le (by linarith)]
  have hφ := (integrable_gaussianPDFReal 0 1)
  calc ∫ x in Ioc t (t + h), K * Real.exp (-(a * (x - t))) ≤ ∫ x in Ioc t (t + h), gaussianPDFReal 0 1 x := by
        apply setIntegral_mono_on _ hφ.integrableOn measurableSet_Ioc
        · intro x hx
          unfold gaussianPDFReal
          show (Real.sqrt (2 * Real.pi))⁻¹ * Real.exp (-t ^ 2 / 2) * Real.exp (-(a * (x - t))) ≤ _
          rw [mul_assoc, ← Real.exp_add]
          have e : -(x - 0) ^ 2 / (2 * ((1 : NNReal) : ℝ)) = -x ^ 2 / 2 := by norm_num
          have e2 : Real.sqrt (2 * Real.pi * ((1 : NNReal) : ℝ)) = Real.sqrt (2 * Real.pi) := by norm_num
          rw [e, e2]
          apply mul_le_mul_of_nonneg_left _ (by positivity)
          apply Real.exp_le_exp.2
          rw [ha]
          nlinarith [mul_nonneg (sub_nonneg.2 hx.1.le) (sub_nonneg.2 hx.2)]
        · apply Continuous.integrableOn_Ioc; fun_prop
    _ ≤ ∫ x in Ici t, gaussianPDFReal 0 1 x := by
        apply setIntegral_mono_set hφ.integrableOn
        · exact Filter.Eventually.of_forall fun x => gaussianPDFReal_nonneg 0 1 x
        · apply LE.le.eventuallyLE
          intro x hx; exact hx.1.le

theorem inv_sqrt_two_pi : (0.398 : ℝ) ≤ (Real.sqrt (2 * Real.pi))⁻¹ := by
  rw [le_inv_comm₀ (by norm_num) (by positivity)]
  apply Real.sqrt_le_iff.2
  have := Real.pi_lt_d2
  constructor
  · norm_num
  · norm_num at *; linarith

theorem normal_anti (z t : ℝ) (hz : |z| ≤ t) : (gaussianReal 0 1).real {x | t ≤ |x|} ≤ (gaussianReal 0 1).real {x | |z| ≤ |x|} :=
  measureReal_mono fun _ hx => hz.trans hx

theorem normal_accept (z : ℝ) (hz : |z| ≤ 6) : 1 / 10 ^ 9 < (gaussianReal 0 1).real {x | |z| ≤ |x|} := by
  refine lt_of_lt_of_le ?_ (normal_anti z 6 hz)
  refine lt_of_lt_of_le ?_ (normal_lower_bound 6 (3 / 5) (by norm_num) (by norm_num))
  have h1 : (1 : ℝ) / 7 * 10⁻¹ ^ 7 ≤ Real.exp (-6 ^ 2 / 2) := by
    have : Real.exp (-6 ^ 2 / 2) = (Real.exp 1 ^ 18)⁻¹ := by rw [← Real.exp_nat_mul, ← Real.exp_neg]; norm_num
    rw [this, le_inv_comm₀ (by norm_num) (by positivity)]
    refine (pow_le_pow_left₀ (Real.exp_pos 1).le Real.exp_one_lt_d9.le 18).trans ?_
    norm_num
  have h2 : Real.exp (-((6 + 3 / 5 / 2) * (3 / 5))) ≤ 1 / 8 := by
    calc Real.exp (-((6 + 3 / 5 / 2) * (3 / 5))) ≤ Real.exp (-3) := Real.exp_le_exp.2 (by norm_num)
      _ = (Real.exp 1 ^ 3)⁻¹ := by rw [← Real.exp_nat_mul, ← Real.exp_neg]; norm_num
      _ ≤ 1 / 8 := by
        rw [inv_le_comm₀ (by positivity) (by norm_num)]
        refine le_trans ?_ (pow_le_pow_left₀ (by norm_num) Real.exp_one_gt_d9.le 3)
        norm_num
  have h3 := inv_sqrt_two_pi
  calc (1 : ℝ) / 10 ^ 9 < 2 * (0.398 * (1 / 7 * 10⁻¹ ^ 7)) * ((1 - 1 / 8) / (6 + 3 / 5 / 2)) := by norm_num
    _ ≤ _ := by gcongr

theorem normal_unsuspicious (z : ℝ) (hz : |z| ≤ 43 / 10) : 1 / 10 ^ 5 < (gaussianReal 0 1).real {x | |z| ≤ |x|} := by
  refine lt_of_lt_of_le ?_ (normal_anti z (43 / 10) hz)
  refine lt_of_lt_of_le ?_ (normal_lower_bound (43 / 10) (4 / 5) (by norm_num) (by norm_num))
  have h1 : (8 : ℝ) / 10 ^ 5 ≤ Real.exp (-(43 / 10) ^ 2 / 2) := by
    calc (8 : ℝ) / 10 ^ 5 ≤ (2.7182818286 ^ 9)⁻¹ * (1 - 1849 / 200 + 9) := by norm_num
      _ ≤ (Real.exp 1 ^ 9)⁻¹ * Real.exp (9 - 1849 / 200) := by
          apply mul_le_mul
          · exact inv_anti₀ (by positivity) (pow_le_pow_left₀ (Real.exp_pos 1).le Real.exp_one_lt_d9.le 9)
          · have := Real.add_one_le_exp (9 - 1849 / 200 : ℝ); linarith
          · norm_num
          · positivity
      _ = _ := by rw [← Real.exp_nat_mul, ← Real.exp_neg, ← Real.exp_add]; norm_num
  have h2 : Real.exp (-((43 / 10 + 4 / 5 / 2) * (4 / 5))) ≤ 1 / 16 := by
    calc Real.exp (-((43 / 10 + 4 / 5 / 2) * (4 / 5))) ≤ Real.exp (-3) := Real.exp_le_exp.2 (by norm_num)
      _ = (Real.exp 1 ^ 3)⁻¹ := by rw [← Real.exp_nat_mul, ← Real.exp_neg]; norm_num
      _ ≤ 1 / 16 := by
        rw [inv_le_comm₀ (by positivity) (by norm_num)]
        refine le_trans ?_ (pow_le_pow_left₀ (by norm_num) Real.exp_one_gt_d9.le 3)
        norm_num
  have h3 := inv_sqrt_two_pi
  calc (1 : ℝ) / 10 ^ 5 < 2 * (0.398 * (8 / 10 ^ 5)) * ((1 - 1 / 16) / (43 / 10 + 4 / 5 / 2)) := by norm_num
    _ ≤ _ := by gcongr
end TFR
