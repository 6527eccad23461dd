import Mathlib.MeasureTheory.Integral.IntervalIntegral.Basic
/-
The Anderson-Darling distance of a sample from the uniform distribution on the unit interval, by its definition.
-/
namespace TFR.Spec

open Classical in
/-- The empirical distribution function: the fraction of the data which is at most `u`. -/
noncomputable def empirical (data : List ℝ) (u : ℝ) : ℝ := (data.countP fun x => decide (x ≤ u) : ℝ) / (data.length : ℝ)

/-- `A² = n ∫₀¹ (F_n(u) - u)² / (u (1 - u)) du`. -/
noncomputable def andersonDarling (data : List ℝ) : ℝ :=
  (data.length : ℝ) * ∫ u in (0 : ℝ)..1, (empirical data u - u) ^ 2 / (u * (1 - u))

/-- Published upper critical values of the Anderson-Darling statistic for testing against a known continuous distribution
(P. A. W. Lewis 1961, M. A. Stephens 1974): the statistic exceeds the first number with about the second probability. -/
noncomputable def andersonDarlingCritical : List (ℝ × ℝ) := [(1933 / 1000, 10 / 100), (2492 / 1000, 5 / 100), (3880 / 1000, 1 / 100)]

/-- The upper quartile in the same tables. -/
noncomputable def andersonDarlingQuartile : ℝ := 1248 / 1000

end TFR.Spec
