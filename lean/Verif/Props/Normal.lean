import Verif.Model.RealStats
import Mathlib.MeasureTheory.Measure.Real
/-
C76: p-values of z-scores (exact arithmetic, exact erfc).
-/
namespace TFR
open MeasureTheory ProbabilityTheory

private noncomputable abbrev μ : Measure ℝ := gaussianReal 0 1

private theorem phi_eq (z : ℝ) : normalCdf z = μ.real (Set.Iic z) := by
  unfold normalCdf
  rw [cdf_eq_real]

private theorem real_neg (a : ℝ) : μ.real (Set.Iic (-a)) = μ.real (Set.Ici a) := by
  have h : μ.map (fun x => -x) = μ := by
    have := gaussianReal_map_neg (μ := 0) (v := 1)
    simpa using this
  have h2 : μ.real (Set.Ici a) = (μ.map (fun x => -x)).real (Set.Ici a) := by rw [h]
  rw [h2, map_measureReal_apply measurable_neg measurableSet_Ici]
  congr 1
  ext x
  simp only [Set.mem_Iic, Set.mem_preimage, Set.mem_Ici]
  constructor <;> intro h <;> linarith

/-- C76. The p-value of every z-score statistic is the two-tailed probability of the standard normal law: the probability that a
standard normal variable is at least as far from zero as `z`. -/
theorem C76_two_tailed (z : ℝ) : normalTwoTailedCdf z = (gaussianReal 0 1).real {x | |z| ≤ |x|} := by
  unfold normalTwoTailedCdf
  rw [phi_eq]
  have hset : {x : ℝ | |z| ≤ |x|} = Set.Iic (-|z|) ∪ Set.Ici |z| := by
    ext x
    simp only [Set.mem_setOf_eq, Set.mem_union, Set.mem_Iic, Set.mem_Ici]
    rw [le_abs]
    constructor
    · rintro (h | h)
      · exact Or.inr h
      · exact Or.inl (by linarith)
    · rintro (h | h)
      · exact Or.inr (by linarith)
      · exact Or.inl h
  rw [hset]
  have hinter : μ.real (Set.Iic (-|z|) ∩ Set.Ici |z|) = 0 := by
    have hna : NullSingletonClass μ := nullSingletonClass_gaussianReal (by norm_num)
    have hsub : Set.Iic (-|z|) ∩ Set.Ici |z| ⊆ {(0 : ℝ)} := by
      rintro x ⟨h1, h2⟩
      simp only [Set.mem_Iic, Set.mem_Ici] at h1 h2
      have := abs_nonneg z
      simp only [Set.mem_singleton_iff]
      linarith
    have h0 : μ.real {(0 : ℝ)} = 0 := by rw [measureReal_def, measure_singleton (μ := μ), ENNReal.toReal_zero]
    exact le_antisymm (h0 ▸ measureReal_mono hsub) measureReal_nonneg
  have hu := measureReal_union_add_inter (μ := μ) (s := Set.Iic (-|z|)) (t := Set.Ici |z|) measurableSet_Ici
  rw [hinter, add_zero] at hu
  rw [hu, real_neg, two_mul]

/-- C76. It is a probability, it is one for `z = 0`, it does not depend on the sign of `z`, and a larger deviation never has a
larger p-value. -/
theorem C76_p_value (z z' : ℝ) : 0 ≤ normalTwoTailedCdf z ∧ normalTwoTailedCdf z ≤ 1 ∧ normalTwoTailedCdf 0 = 1 ∧
    normalTwoTailedCdf (-z) = normalTwoTailedCdf z ∧ (|z| ≤ |z'| → normalTwoTailedCdf z' ≤ normalTwoTailedCdf z) := by
  refine ⟨?_, ?_, ?_, ?_, ?_⟩
  · rw [C76_two_tailed]; exact measureReal_nonneg
  · rw [C76_two_tailed]; exact measureReal_le_one
  · rw [C76_two_tailed]
    have : {x : ℝ | |(0 : ℝ)| ≤ |x|} = Set.univ := by
      ext x; simp
    rw [this]; exact probReal_univ
  · unfold normalTwoTailedCdf; rw [abs_neg]
  · intro h
    rw [C76_two_tailed, C76_two_tailed]
    exact measureReal_mono (fun x hx => h.trans hx)

/-- C76. In exact arithmetic no z-score has p-value zero. -/
theorem C76_p_value_pos (z : ℝ) : 0 < normalTwoTailedCdf z := by
  rw [C76_two_tailed]
  have hopen : IsOpen (Set.Ioi |z|) := isOpen_Ioi
  have hpos : 0 < μ (Set.Ioi |z|) := by
    rw [pos_iff_ne_zero]
    intro h0
    have hac : (volume : Measure ℝ) ≪ μ := gaussianReal_absolutelyContinuous' 0 (by norm_num)
    have := hac h0
    simp at this
  have hsub : Set.Ioi |z| ⊆ {x : ℝ | |z| ≤ |x|} := by
    intro x hx
    exact (le_of_lt hx).trans (le_abs_self x)
  have : 0 < μ.real (Set.Ioi |z|) := ENNReal.toReal_pos hpos.ne' (measure_ne_top _ _)
  exact lt_of_lt_of_le this (measureReal_mono hsub)

/-- C76. A strictly larger deviation has a strictly smaller p-value (in exact arithmetic). -/
theorem C76_strict (z z' : ℝ) (h : |z| < |z'|) : normalTwoTailedCdf z' < normalTwoTailedCdf z := by
  rw [C76_two_tailed, C76_two_tailed]
  have hpos : 0 < μ (Set.Ioo |z| |z'|) := by
    rw [pos_iff_ne_zero]
    intro h0
    have hac : (volume : Measure ℝ) ≪ μ := gaussianReal_absolutelyContinuous' 0 (by norm_num)
    have := hac h0
    rw [Real.volume_Ioo, ENNReal.ofReal_eq_zero] at this
    linarith
  have hreal : 0 < μ.real (Set.Ioo |z| |z'|) := ENNReal.toReal_pos hpos.ne' (measure_ne_top _ _)
  have hdisj : Disjoint (Set.Ioo |z| |z'|) {x : ℝ | |z'| ≤ |x|} := by
    rw [Set.disjoint_left]
    rintro x ⟨h1, h2⟩ h3
    have hx : 0 < x := lt_of_le_of_lt (abs_nonneg z) h1
    rw [Set.mem_setOf_eq, abs_of_pos hx] at h3
    linarith
  have hsub : Set.Ioo |z| |z'| ∪ {x : ℝ | |z'| ≤ |x|} ⊆ {x : ℝ | |z| ≤ |x|} := by
    rintro x (hx | hx)
    · exact (le_of_lt hx.1).trans (le_abs_self x)
    · exact h.le.trans hx
  have hu := measureReal_mono (μ := μ) hsub
  rw [measureReal_union hdisj (measurableSet_le measurable_const measurable_id.abs)] at hu
  linarith

-- The hypotheses are met, for instance by the scores -1 and 2.
example : normalTwoTailedCdf 2 < normalTwoTailedCdf (-1) := C76_strict (-1) 2 (by norm_num)

end TFR
