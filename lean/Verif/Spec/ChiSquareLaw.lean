import Mathlib.Probability.Distributions.Gamma
/-
The chi-square law, used by the specification of the p-values.
-/
namespace TFR.Spec
open MeasureTheory ProbabilityTheory

/-- The chi-square law with `k` degrees of freedom: density proportional to `x^(k/2-1) e^(-x/2)` on the positive half-line. -/
noncomputable def chiSquareLaw (k : ℝ) : Measure ℝ := gammaMeasure (k / 2) (1 / 2)

end TFR.Spec
