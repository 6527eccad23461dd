import Verif.Spec.ChiSquareLaw
import Verif.Lemmas.ChiLaw
import Verif.Lemmas.GammaLoops
import Verif.Lemmas.LogGamma
import Verif.Lemmas.ChiSum
import Verif.Props.Normal
import Verif.Props.ChiSquare
/-
C90, C91: the p-value of a chi-square statistic and the logarithm of the gamma function (exact arithmetic with the constants
and stopping rules of the code).
-/
namespace TFR
open MeasureTheory ProbabilityTheory IncGamma Set

/-- C91. `log_gamma` differs from the logarithm of the gamma function by less than `4e-12` for every positive argument. -/
theorem C91_log_gamma (z : ℝ) (hz : 0 < z) : |logGamma z - Real.log (Real.Gamma z)| ≤ 4 / 10 ^ 12 := LogGamma.err_le hz

example : |logGamma (1 / 2) - Real.log (Real.Gamma (1 / 2))| ≤ 4 / 10 ^ 12 := C91_log_gamma _ (by norm_num)

/-- C91. Its exponential approximates the gamma function with relative error below `5e-12`; in particular at the half integers
used by the chi-square test and at factorials. -/
theorem C91_gamma (z : ℝ) (hz : 0 < z) : |Real.exp (logGamma z) - Real.Gamma z| ≤ 5 / 10 ^ 12 * Real.Gamma z := by
  have hg := Real.Gamma_pos_of_pos hz
  have h := C91_log_gamma z hz
  set e := logGamma z - Real.log (Real.Gamma z) with he
  have h1 : Real.exp (logGamma z) = Real.Gamma z * Real.exp e := by
    rw [he, Real.exp_sub, Real.exp_log hg]
    field_simp
  have h2 := Real.abs_exp_sub_one_sub_id_le (x := e) (h.trans (by norm_num))
  have h3 : e ^ 2 ≤ 4 / 10 ^ 12 * (4 / 10 ^ 12) := by
    rw [← sq_abs, sq]
    exact mul_le_mul h h (abs_nonneg _) (by norm_num)
  have h4 := abs_le.1 h
  have h5 := abs_le.1 h2
  have h6 : |Real.exp e - 1| ≤ 5 / 10 ^ 12 := by
    rw [abs_le]
    constructor <;> linarith [h4.1, h4.2, h5.1, h5.2]
  rw [h1, show Real.Gamma z * Real.exp e - Real.Gamma z = Real.Gamma z * (Real.exp e - 1) by ring, abs_mul, abs_of_pos hg]
  rw [mul_comm]
  exact mul_le_mul_of_nonneg_right h6 hg.le

theorem C91_factorial (n : ℕ) : |Real.exp (logGamma (n + 1)) - n.factorial| ≤ 5 / 10 ^ 12 * n.factorial := by
  have := C91_gamma (n + 1) (by positivity)
  rwa [Real.Gamma_nat_eq_factorial] at this

example : |Real.exp (logGamma ((20 : ℕ) + 1)) - Nat.factorial 20| ≤ 5 / 10 ^ 12 * Nat.factorial 20 := C91_factorial 20

/-- C90. The two loops behind the p-value always end through their convergence test, never through the limit of 10000
iterations, for every number of degrees of freedom below the switch to the normal approximation and every value of the
statistic. -/
theorem C90_iteration_limit (chi2 df : ℝ) (hc : 0 ≤ chi2) (hdf : 0 < df) (hdf2 : df < 1100000) :
    ((chi2 ≤ 2 ∨ chi2 < df) → (gammapLoop (1 / 2 * df) (1 / 2 * chi2) (kfMaxIterations - 1) 1 1 1).1 < kfMaxIterations) ∧
    (¬ (chi2 ≤ 2 ∨ chi2 < df) →
      (gammaqLoop (1 / 2 * df) (1 / 2 * chi2) (kfMaxIterations - 1) 1 (lentzStart (1 / 2 * df) (1 / 2 * chi2))).1 < kfMaxIterations) := by
  constructor
  · intro h
    obtain ⟨k, hk, he, -⟩ := gammap_run (s := 1 / 2 * df) (z := 1 / 2 * chi2) (by linarith) (by linarith) (by linarith)
      (h.imp (fun h => by linarith) (fun h => by linarith))
    rw [he]
    show k + 1 < 10000
    omega
  · intro h
    push Not at h
    obtain ⟨k, hk, he, -⟩ := gammaq_run (s := 1 / 2 * df) (z := 1 / 2 * chi2) (by linarith) (by linarith) (by linarith) (by linarith)
    rw [he]
    show k + 1 < 10000
    omega

example : (gammaqLoop (1 / 2 * 1099999) (1 / 2 * 1100000) (kfMaxIterations - 1) 1
    (lentzStart (1 / 2 * 1099999) (1 / 2 * 1100000))).1 < kfMaxIterations :=
  (C90_iteration_limit 1100000 1099999 (by norm_num) (by norm_num) (by norm_num)).2 (by norm_num)

private theorem exp_err {e : ℝ} (h : |e| ≤ 4 / 10 ^ 12) : |Real.exp e - 1| ≤ 5 / 10 ^ 12 := by
  have h2 := Real.abs_exp_sub_one_sub_id_le (x := e) (h.trans (by norm_num))
  have h3 : e ^ 2 ≤ 4 / 10 ^ 12 * (4 / 10 ^ 12) := by
    rw [← sq_abs, sq]
    exact mul_le_mul h h (abs_nonneg _) (by norm_num)
  have h4 := abs_le.1 h
  have h5 := abs_le.1 h2
  rw [abs_le]
  constructor <;> linarith [h4.1, h4.2, h5.1, h5.2]

private theorem series_value {s z : ℝ} (hge : 1 / 2 ≤ s) (hs2 : s ≤ 550000) (hz0 : 0 < z) (hz : z ≤ 1 ∨ z < s) :
    |kfGammapSeries s z - lower s z / Real.Gamma s| ≤ 11 / 10 ^ 12 * (lower s z / Real.Gamma s) ∧
    lower s z / Real.Gamma s ≤ 50000 / 50001 ∧ 0 ≤ lower s z / Real.Gamma s := by
  have hs : 0 < s := by linarith
  obtain ⟨k, hk, he, hstop⟩ := gammap_run hs hs2 hz0.le hz
  obtain ⟨l1, l2⟩ := series_error hs hz0 hz k hk hstop
  have hS : 1 ≤ psum s z (k + 1) := one_le_psum hs hz0.le _
  have hSle := psum_le hs hz0.le hz (k + 1)
  have hG := Real.Gamma_pos_of_pos hs
  have hG1 : Real.Gamma (s + 1) = s * Real.Gamma s := Real.Gamma_add_one hs.ne'
  have herr := C91_log_gamma (s + 1) (by linarith)
  set e := logGamma (s + 1) - Real.log (Real.Gamma (s + 1)) with hedef
  have hw : 0 < z ^ s * Real.exp (-z) := by positivity
  set w := z ^ s * Real.exp (-z) with hwdef
  have hval : kfGammapSeries s z = w * psum s z (k + 1) / (s * Real.Gamma s) * Real.exp (-e) := by
    unfold kfGammapSeries
    rw [he, if_neg hz0.ne']
    show Real.exp _ = _
    have hg1 : 0 < Real.Gamma (s + 1) := by rw [hG1]; positivity
    rw [show logGamma (s + 1) = e + Real.log (Real.Gamma (s + 1)) by rw [hedef]; ring,
      show s * Real.log z - z - (e + Real.log (Real.Gamma (s + 1))) + Real.log (psum s z (k + 1)) =
        Real.log z * s + -z + Real.log (psum s z (k + 1)) + -Real.log (Real.Gamma (s + 1)) + -e by ring,
      Real.exp_add, Real.exp_add, Real.exp_add, Real.exp_add, ← Real.rpow_def_of_pos hz0, Real.exp_log (by linarith),
      Real.exp_neg (Real.log _), Real.exp_log hg1, hG1, hwdef]
    rw [div_eq_mul_inv]
  set a := w * psum s z (k + 1) / (s * Real.Gamma s) with hadef
  have ha : 0 < a := by rw [hadef]; positivity
  have hP : lower s z / Real.Gamma s = s * lower s z / (s * Real.Gamma s) := by field_simp
  have b1 : a ≤ lower s z / Real.Gamma s := by
    rw [hP, hadef]
    gcongr
  have b2 : lower s z / Real.Gamma s ≤ a * (1 + 5 / 10 ^ 12) := by
    rw [hP, hadef, div_mul_eq_mul_div]
    gcongr
  have hx := abs_le.1 (exp_err (e := -e) (by rwa [abs_neg]))
  have main : |kfGammapSeries s z - lower s z / Real.Gamma s| ≤ 11 / 10 ^ 12 * (lower s z / Real.Gamma s) := by
    rw [hval, abs_le]
    constructor
    · nlinarith [hx.1, hx.2]
    · nlinarith [hx.1, hx.2]
  refine ⟨main, ?_, div_nonneg (lower_nonneg hz0) hG.le⟩
  have hJ := J_ge hs hz0 hz
  have hsplit := gamma_split hs hz0
  have hJ0 := J_pos (s := s) hz0 0
  have hmax : max 1 z ≤ 2 * s ∨ max 1 z ≤ s := by
    rcases hz with h | h
    · left; rw [max_eq_left h]; linarith
    · rcases le_total 1 z with h' | h'
      · right; rw [max_eq_right h']; exact h.le
      · left; rw [max_eq_left h']; linarith
  have hm : max 1 z ≤ 2 * s := by
    rcases hmax with h | h
    · exact h
    · linarith
  have hk' : ((k + 1 : ℕ) : ℝ) ≤ 9999 := by exact_mod_cast hk
  have hlow : lower s z ≤ 50000 * J s z 0 := by
    have h1 : s * lower s z ≤ w * 10001 := by
      refine l2.trans ?_
      rw [mul_assoc]
      apply mul_le_mul_of_nonneg_left _ hw.le
      nlinarith
    have h2 : w ≤ 4 * s * J s z 0 := hJ.trans (mul_le_mul_of_nonneg_right (by linarith) hJ0.le)
    have h3 : s * lower s z ≤ s * (50000 * J s z 0) := by nlinarith [mul_pos hs hJ0]
    exact le_of_mul_le_mul_left h3 hs
  rw [div_le_div_iff₀ hG (by norm_num), hsplit]
  linarith

private theorem fraction_value {s z : ℝ} (hs : 0 < s) (hs2 : s ≤ 550000) (hzs : s ≤ z) (hz : 1 ≤ z) :
    |kfGammaqFraction s z - J s z 0 / Real.Gamma s| ≤ 2 / 10 ^ 10 * (J s z 0 / Real.Gamma s) ∧
    J s z 0 / Real.Gamma s ≤ 550000 / 550001 := by
  have hz0 : 0 < z := by linarith
  obtain ⟨k, hk, he, hstop⟩ := gammaq_run hs hs2 hzs hz
  have hF := lF_pos hzs hz (k + 1)
  have hL := lentz_error hs hzs hz k (1 / 10 ^ 14) (by norm_num) hstop
  have hG := Real.Gamma_pos_of_pos hs
  have herr := C91_log_gamma s hs
  set e := logGamma s - Real.log (Real.Gamma s) with hedef
  have hJ0 := J_pos (s := s) hz0 0
  have hw : 0 < z ^ s * Real.exp (-z) := by positivity
  have hft : fTrue s z = z ^ s * Real.exp (-z) / J s z 0 := rfl
  have hJw := J_le hz hzs
  have hlb := (lower_bounds hs hz0 ⌈z⌉₊ (by have := Nat.le_ceil z; linarith)).1
  have hone := one_le_psum (s := s) (z := z) hs hz0.le ⌈z⌉₊
  set w := z ^ s * Real.exp (-z) with hwdef
  have hval : kfGammaqFraction s z = w / (Real.Gamma s * lF s z (k + 1)) * Real.exp (-e) := by
    unfold kfGammaqFraction
    rw [he]
    show Real.exp _ = _
    rw [show logGamma s = e + Real.log (Real.Gamma s) by rw [hedef]; ring,
      show s * Real.log z - z - (e + Real.log (Real.Gamma s)) - Real.log (lF s z (k + 1)) =
        Real.log z * s + -z + -Real.log (lF s z (k + 1)) + -Real.log (Real.Gamma s) + -e by ring,
      Real.exp_add, Real.exp_add, Real.exp_add, Real.exp_add, ← Real.rpow_def_of_pos hz0, Real.exp_neg (Real.log _),
      Real.exp_log hF, Real.exp_neg (Real.log _), Real.exp_log hG, hwdef]
    field_simp
  have hk' : (k : ℝ) + 1 ≤ 9999 := by exact_mod_cast hk
  have hr : |fTrue s z / lF s z (k + 1) - 1| ≤ 1 / 10 ^ 10 := by
    refine hL.trans ?_
    have : (k : ℝ) + 2 ≤ 10 ^ 4 := by linarith
    linarith
  set r := fTrue s z / lF s z (k + 1) with hrdef
  set Q := J s z 0 / Real.Gamma s with hQdef
  have hQ : 0 < Q := by rw [hQdef]; positivity
  have hval2 : kfGammaqFraction s z = Q * (r * Real.exp (-e)) := by
    rw [hval, hrdef, hQdef, hft]
    field_simp
  have hx := abs_le.1 (exp_err (e := -e) (by rwa [abs_neg]))
  have hr' := abs_le.1 hr
  constructor
  · rw [hval2, show Q * (r * Real.exp (-e)) - Q = Q * (r * Real.exp (-e) - 1) by ring, abs_mul, abs_of_pos hQ, mul_comm]
    apply mul_le_mul_of_nonneg_right _ hQ.le
    rw [abs_le]
    constructor
    · nlinarith [hx.1, hx.2, hr'.1, hr'.2]
    · nlinarith [hx.1, hx.2, hr'.1, hr'.2]
  · have hsplit := gamma_split hs hz0
    have h1 : J s z 0 ≤ s * lower s z := by nlinarith
    have h2 : 0 ≤ lower s z := lower_nonneg hz0
    have h3 : s * lower s z ≤ 550000 * lower s z := mul_le_mul_of_nonneg_right hs2 h2
    rw [hQdef, div_le_div_iff₀ hG (by norm_num), hsplit]
    linarith

private theorem cdf_eq {chi2 df : ℝ} (hdf : 1 ≤ df) (hdf2 : df < 1100000) :
    chi2DistributionCdf chi2 df = 1 - kfGammap (1 / 2 * df) (1 / 2 * chi2) := by
  have h1 : isNearR df 0 = false := by
    unfold isNearR
    rw [decide_eq_false_iff_not, sub_zero, abs_of_pos (by linarith)]
    norm_num
    linarith
  have h2 : isNearR (1 / 2 * df) 0 = false := by
    unfold isNearR
    rw [decide_eq_false_iff_not, sub_zero, abs_of_pos (by linarith)]
    norm_num
    linarith
  unfold chi2DistributionCdf gammaRegularized
  rw [h1, if_neg (by simp), if_neg (by linarith), h2, if_neg (by simp)]

/-- C90. When the statistic exceeds both the number of degrees of freedom and 2 — where small p-values come from — the computed
p-value agrees with the upper tail probability of the chi-square law to a relative error of `2e-10`. -/
theorem C90_small_p_values (chi2 df : ℝ) (hdf : 1 ≤ df) (hdf2 : df < 1100000) (h2 : 2 < chi2) (hc : df ≤ chi2) :
    |chi2DistributionCdf chi2 df - (Spec.chiSquareLaw df).real (Ioi chi2)| ≤
      2 / 10 ^ 10 * (Spec.chiSquareLaw df).real (Ioi chi2) := by
  have hU : (Spec.chiSquareLaw df).real (Ioi chi2) = J (1 / 2 * df) (1 / 2 * chi2) 0 / Real.Gamma (1 / 2 * df) := by
    unfold Spec.chiSquareLaw
    rw [gammaMeasure_Ioi (by linarith) (by linarith), show df / 2 = 1 / 2 * df by ring, show chi2 / 2 = 1 / 2 * chi2 by ring]
  rw [cdf_eq hdf hdf2, hU, kfGammap, if_neg (by push Not; constructor <;> linarith), sub_sub_cancel]
  exact (fraction_value (by linarith) (by linarith) (by linarith) (by linarith)).1

/-- C90. Otherwise the computed probability of a smaller value agrees with the distribution function to a relative error of
`2e-11`. -/
theorem C90_large_p_values (chi2 df : ℝ) (hc : 0 ≤ chi2) (hdf : 1 ≤ df) (hdf2 : df < 1100000) (h : chi2 ≤ 2 ∨ chi2 < df) :
    |(1 - chi2DistributionCdf chi2 df) - (Spec.chiSquareLaw df).real (Iic chi2)| ≤
      2 / 10 ^ 11 * (Spec.chiSquareLaw df).real (Iic chi2) := by
  have hz : 1 / 2 * chi2 ≤ 1 ∨ 1 / 2 * chi2 < 1 / 2 * df := h.imp (fun h => by linarith) (fun h => by linarith)
  rw [cdf_eq hdf hdf2, kfGammap, if_pos hz, sub_sub_cancel]
  rcases hc.eq_or_lt with rfl | hc
  · have h0 : (Spec.chiSquareLaw df).real (Iic 0) = 0 := by
      have hp : IsProbabilityMeasure (Spec.chiSquareLaw df) := isProbabilityMeasure_gammaMeasure (by linarith) (by norm_num)
      have h1 : (Spec.chiSquareLaw df).real (Ioi 0) = 1 := gammaMeasure_Ioi_zero (by linarith)
      rw [← compl_Iic, probReal_compl_eq_one_sub measurableSet_Iic] at h1
      linarith
    rw [h0, kfGammapSeries, if_pos (by ring)]
    simp
  · have hL : (Spec.chiSquareLaw df).real (Iic chi2) = lower (1 / 2 * df) (1 / 2 * chi2) / Real.Gamma (1 / 2 * df) := by
      unfold Spec.chiSquareLaw
      rw [gammaMeasure_Iic (by linarith) hc, show df / 2 = 1 / 2 * df by ring, show chi2 / 2 = 1 / 2 * chi2 by ring]
    rw [hL]
    obtain ⟨h1, -, h3⟩ := series_value (s := 1 / 2 * df) (z := 1 / 2 * chi2) (by linarith) (by linarith) (by linarith) hz
    refine h1.trans (mul_le_mul_of_nonneg_right (by norm_num) h3)

/-- C90. The p-value of a chi-square statistic: `chi2_distribution_cdf` lies in `(0, 1]`, is `1` for the statistic `0`, and agrees
with the probability that a chi-square variable exceeds the statistic up to `2e-10`, for every statistic and every number of
degrees of freedom below the switch to the normal approximation. -/
theorem C90_p_value (chi2 df : ℝ) (hc : 0 ≤ chi2) (hdf : 1 ≤ df) (hdf2 : df < 1100000) :
    0 < chi2DistributionCdf chi2 df ∧ chi2DistributionCdf chi2 df ≤ 1 ∧ chi2DistributionCdf 0 df = 1 ∧
    |chi2DistributionCdf chi2 df - (Spec.chiSquareLaw df).real (Ioi chi2)| ≤ 2 / 10 ^ 10 := by
  have hp : IsProbabilityMeasure (Spec.chiSquareLaw df) := isProbabilityMeasure_gammaMeasure (by linarith) (by norm_num)
  have hzero : chi2DistributionCdf 0 df = 1 := by
    rw [cdf_eq hdf hdf2, kfGammap, if_pos (Or.inl (by norm_num)), kfGammapSeries, if_pos (by ring)]
    norm_num
  have hcompl : (Spec.chiSquareLaw df).real (Iic chi2) = 1 - (Spec.chiSquareLaw df).real (Ioi chi2) := by
    rw [← compl_Iic, probReal_compl_eq_one_sub measurableSet_Iic]; ring
  by_cases h : chi2 ≤ 2 ∨ chi2 < df
  · have hacc := C90_large_p_values chi2 df hc hdf hdf2 h
    have hle : (Spec.chiSquareLaw df).real (Iic chi2) ≤ 1 := measureReal_le_one
    have h0 : 0 ≤ (Spec.chiSquareLaw df).real (Iic chi2) := measureReal_nonneg
    have hacc' := abs_le.1 hacc
    refine ⟨?_, ?_, hzero, ?_⟩
    · rcases hc.eq_or_lt with rfl | hc
      · rw [hzero]; norm_num
      · have hL : (Spec.chiSquareLaw df).real (Iic chi2) = lower (1 / 2 * df) (1 / 2 * chi2) / Real.Gamma (1 / 2 * df) := by
          unfold Spec.chiSquareLaw
          rw [gammaMeasure_Iic (by linarith) hc, show df / 2 = 1 / 2 * df by ring, show chi2 / 2 = 1 / 2 * chi2 by ring]
        have h2 := (series_value (s := 1 / 2 * df) (z := 1 / 2 * chi2) (by linarith) (by linarith) (by linarith)
          (h.imp (fun h => by linarith) (fun h => by linarith))).2.1
        rw [← hL] at h2
        nlinarith [hacc'.2]
    · nlinarith [hacc'.1]
    · rw [abs_le]
      constructor <;> nlinarith [hacc'.1, hacc'.2]
  · push Not at h
    have hacc := C90_small_p_values chi2 df hdf hdf2 h.1 h.2
    have hU : (Spec.chiSquareLaw df).real (Ioi chi2) = J (1 / 2 * df) (1 / 2 * chi2) 0 / Real.Gamma (1 / 2 * df) := by
      unfold Spec.chiSquareLaw
      rw [gammaMeasure_Ioi (by linarith) (by linarith), show df / 2 = 1 / 2 * df by ring, show chi2 / 2 = 1 / 2 * chi2 by ring]
    have hpos : 0 < (Spec.chiSquareLaw df).real (Ioi chi2) := by
      rw [hU]
      exact div_pos (J_pos (by linarith) 0) (Real.Gamma_pos_of_pos (by linarith))
    have hle := (fraction_value (s := 1 / 2 * df) (z := 1 / 2 * chi2) (by linarith) (by linarith) (by linarith) (by linarith)).2
    rw [← hU] at hle
    have hacc' := abs_le.1 hacc
    refine ⟨by nlinarith [hacc'.1], by nlinarith [hacc'.2], hzero, hacc.trans ?_⟩
    have : (Spec.chiSquareLaw df).real (Ioi chi2) ≤ 1 := by linarith
    linarith

example : |chi2DistributionCdf 300 255 - (Spec.chiSquareLaw 255).real (Ioi 300)| ≤ 2 / 10 ^ 10 *
    (Spec.chiSquareLaw 255).real (Ioi 300) := C90_small_p_values 300 255 (by norm_num) (by norm_num) (by norm_num) (by norm_num)

example : 0 < chi2DistributionCdf (1 / 3) 1 := (C90_p_value (1 / 3) 1 (by norm_num) (by norm_num) (by norm_num)).1

/-- C90. From 1100000 degrees of freedom on, Fisher's normal approximation is used: the p-value is the upper tail of the standard
normal law at `√(2χ²) - √(2k - 1)`; it is a probability and never grows with the statistic. -/
theorem C90_many_degrees (chi2 chi2' df : ℝ) (hdf : 1100000 ≤ df) :
    chi2DistributionCdf chi2 df = (gaussianReal 0 1).real (Ioi (Real.sqrt (2 * chi2) - Real.sqrt (2 * df - 1))) ∧
    0 ≤ chi2DistributionCdf chi2 df ∧ chi2DistributionCdf chi2 df ≤ 1 ∧
    (chi2 ≤ chi2' → chi2DistributionCdf chi2' df ≤ chi2DistributionCdf chi2 df) := by
  have h1 : isNearR df 0 = false := by
    unfold isNearR
    rw [decide_eq_false_iff_not, sub_zero, abs_of_pos (by linarith)]
    norm_num
    linarith
  have hv : ∀ x, chi2DistributionCdf x df = (gaussianReal 0 1).real (Ioi (Real.sqrt (2 * x) - Real.sqrt (2 * df - 1))) := by
    intro x
    unfold chi2DistributionCdf chi2NormalApproximation normalCdf
    rw [h1, if_neg (by simp), if_pos (by linarith), cdf_eq_real, ← compl_Iic, probReal_compl_eq_one_sub measurableSet_Iic]
  refine ⟨hv _, by rw [hv]; exact measureReal_nonneg, by rw [hv]; exact measureReal_le_one, fun h => ?_⟩
  rw [hv, hv]
  refine measureReal_mono (Ioi_subset_Ioi ?_) (measure_ne_top _ _)
  have : Real.sqrt (2 * chi2) ≤ Real.sqrt (2 * chi2') := Real.sqrt_le_sqrt (by linarith)
  linarith

example : chi2DistributionCdf 0 2000000 ≤ 1 := (C90_many_degrees 0 0 2000000 (by norm_num)).2.2.1

/-- C90. The law of the specification is the chi-square law of the textbooks: the law of the sum of the squares of `k` independent
standard normal variables. -/
theorem C90_law (k : ℕ) (hk : 0 < k) :
    Spec.chiSquareLaw k = (Measure.pi fun _ : Fin k => gaussianReal 0 1).map (fun z => ∑ i, z i ^ 2) :=
  (chiSquareLaw_eq_sum k hk).symm

example : (Spec.chiSquareLaw (3 : ℕ)).real (Ioi 5) =
    (Measure.pi fun _ : Fin 3 => gaussianReal 0 1).real {z | 5 < ∑ i, z i ^ 2} := by
  rw [C90_law 3 (by norm_num), map_measureReal_apply (by fun_prop) measurableSet_Ioi]
  rfl

/-- C90. End to end: the p-value of Pearson's statistic over `m` used cells is a probability in `(0, 1]`, and for `m ≤ 1100000`
it is the probability that the sum of the squares of `m - 1` independent standard normal variables exceeds the statistic, up to
`2e-10`; the same holds for the G statistic. -/
theorem C90_chi2_stats (n : Nat) (o e : Nat → ℝ) (thr : ℝ) (hthr : 0 ≤ thr) (used : Finset ℕ)
    (hused : ∀ i, i ∈ used ↔ i < n ∧ thr < e i) (s : Statistic ℝ) (hs : chi2Stats chi2DistributionCdf n o e thr = some s) :
    0 ≤ s.pValue ∧ s.pValue ≤ 1 ∧
    (used.card ≤ 1100000 → 0 < s.pValue ∧
      |s.pValue - (Measure.pi fun _ : Fin (used.card - 1) => gaussianReal 0 1).real
        {z | (∑ i ∈ used, (o i - e i) ^ 2 / e i) < ∑ i, z i ^ 2}| ≤ 2 / 10 ^ 10) := by
  obtain ⟨h1, h2⟩ := C58_chi2 chi2DistributionCdf n o e thr used hused
  obtain ⟨-, hdf, hval, hp, hnn⟩ := h2 s hs
  have hcard : 2 ≤ used.card := by
    by_contra hc
    rw [h1.2 (by omega)] at hs
    cases hs
  have hdf' : s.df = ((used.card - 1 : ℕ) : ℝ) := by
    rw [hdf, Nat.cast_sub (by omega)]
    norm_num
  have hd1 : (1 : ℝ) ≤ s.df := by
    rw [hdf']
    exact_mod_cast (show 1 ≤ used.card - 1 by omega)
  have hv0 := (hnn hthr).1
  have key : used.card ≤ 1100000 → 0 < s.pValue ∧ s.pValue ≤ 1 ∧
      |s.pValue - (Measure.pi fun _ : Fin (used.card - 1) => gaussianReal 0 1).real
        {z | (∑ i ∈ used, (o i - e i) ^ 2 / e i) < ∑ i, z i ^ 2}| ≤ 2 / 10 ^ 10 := by
    intro hle
    have hd2 : s.df < 1100000 := by
      rw [hdf']
      exact_mod_cast (show used.card - 1 < 1100000 by omega)
    obtain ⟨a, b, -, c⟩ := C90_p_value s.value s.df hv0 hd1 hd2
    rw [hp]
    refine ⟨a, b, ?_⟩
    have e1 : (Measure.pi fun _ : Fin (used.card - 1) => gaussianReal 0 1).real
        {z | (∑ i ∈ used, (o i - e i) ^ 2 / e i) < ∑ i, z i ^ 2} = (Spec.chiSquareLaw s.df).real (Ioi s.value) := by
      rw [hdf', C90_law _ (by omega), map_measureReal_apply (by fun_prop) measurableSet_Ioi, hval]
      rfl
    rw [e1]
    exact c
  rcases le_or_gt used.card 1100000 with hle | hgt
  · obtain ⟨a, b, c⟩ := key hle
    exact ⟨a.le, b, fun _ => ⟨a, c⟩⟩
  · have hd : (1100000 : ℝ) ≤ s.df := by
      rw [hdf']
      exact_mod_cast (show 1100000 ≤ used.card - 1 by omega)
    obtain ⟨-, a, b, -⟩ := C90_many_degrees s.value 0 s.df hd
    rw [hp]
    exact ⟨a, b, fun h => by omega⟩

example : ∃ s, chi2Stats chi2DistributionCdf 2 (fun i => if i = 0 then 7 else 3) (fun _ => 5) 0 = some s ∧ 0 < s.pValue := by
  have hu : ∀ i, i ∈ Finset.range 2 ↔ i < 2 ∧ (0 : ℝ) < (fun _ => 5 : ℕ → ℝ) i := by intro i; simp
  have h := C58_chi2 chi2DistributionCdf 2 (fun i => if i = 0 then 7 else 3) (fun _ => 5) 0 (Finset.range 2) hu
  rcases hc : chi2Stats chi2DistributionCdf 2 (fun i => if i = 0 then 7 else 3) (fun _ => 5) 0 with _ | s
  · exact absurd (h.1.1 hc) (by simp)
  · exact ⟨s, rfl, ((C90_chi2_stats 2 _ _ 0 le_rfl _ hu s hc).2.2 (by simp)).1⟩

/-- C90. The p-value of the G statistic, likewise. -/
theorem C90_g_test (n : Nat) (o e : Nat → ℝ) (thr : ℝ) (hthr : 0 < thr) (s : Statistic ℝ)
    (hs : gTestStats chi2DistributionCdf n o e thr = some s) :
    0 ≤ s.pValue ∧ s.pValue ≤ 1 ∧
    (s.df < 1100000 → 0 < s.pValue ∧ |s.pValue - (Spec.chiSquareLaw s.df).real (Ioi s.value)| ≤ 2 / 10 ^ 10) := by
  classical
  set used := (Finset.range n).filter (fun i => thr ≤ e i ∧ 1 / 10 ^ 17 < o i) with hud
  obtain ⟨h1, h2⟩ := C59_g_test chi2DistributionCdf n o e thr hthr used (by intro i; simp [hud])
  obtain ⟨-, hdf, hp, -, hv0, -⟩ := h2 s hs
  have hcard : 2 ≤ used.card := by
    by_contra hc
    rw [h1.2 (by omega)] at hs
    cases hs
  have hd1 : (1 : ℝ) ≤ s.df := by
    rw [hdf]
    have : (2 : ℝ) ≤ used.card := by exact_mod_cast hcard
    linarith
  rcases lt_or_ge s.df 1100000 with hlt | hge
  · obtain ⟨a, b, -, c⟩ := C90_p_value s.value s.df hv0 hd1 hlt
    rw [hp]
    exact ⟨a.le, b, fun _ => ⟨a, c⟩⟩
  · obtain ⟨-, a, b, -⟩ := C90_many_degrees s.value 0 s.df hge
    rw [hp]
    exact ⟨a, b, fun h => by linarith⟩

end TFR
