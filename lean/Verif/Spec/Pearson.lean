import Verif.Model.Results
import Mathlib.Data.Real.Basic
/-
Pearson's chi-square test, written without loops.
-/
namespace TFR.Spec

open Classical in
/-- The cells that take part: those whose expected count is above the threshold.  A cell is a pair (observed, expected). -/
noncomputable def usedCells (thr : ℝ) (cells : List (ℝ × ℝ)) : List (ℝ × ℝ) := cells.filter fun c => thr < c.2

/-- Pearson's statistic: the sum of `(observed - expected)² / expected`. -/
noncomputable def chiSquare (cells : List (ℝ × ℝ)) : ℝ := (cells.map fun c => (c.1 - c.2) ^ 2 / c.2).sum

/-- Pearson's chi-square test of `cells`, leaving out the cells whose expected count is not above `thr`: no result for
fewer than two remaining cells; otherwise the statistic, its p-value by `cdf`, and the degrees of freedom, which are one
less than the number of cells. -/
noncomputable def pearson (cdf : ℝ → ℝ → ℝ) (cells : List (ℝ × ℝ)) (thr : ℝ) : Option (Statistic ℝ) :=
  if (usedCells thr cells).length < 2 then none
  else some ⟨.chi2, chiSquare (usedCells thr cells), cdf (chiSquare (usedCells thr cells)) ((usedCells thr cells).length - 1),
    (usedCells thr cells).length - 1⟩

end TFR.Spec
