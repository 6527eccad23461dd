import Mathlib.MeasureTheory.Constructions.Pi
import Mathlib.MeasureTheory.Measure.Lebesgue.Basic
/-
The law of independent p-values under the null hypothesis.
-/
namespace TFR.Spec
open MeasureTheory Set

/-- `n` independent values, uniform on the unit interval. -/
noncomputable def uniformCube (n : ℕ) : Measure (Fin n → ℝ) := Measure.pi fun _ => volume.restrict (Icc (0 : ℝ) 1)

end TFR.Spec
