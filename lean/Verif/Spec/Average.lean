import Mathlib.Data.Real.Basic
import Mathlib.Data.Fintype.BigOperators
/-
Expectations under the null hypothesis: averages over all possible inputs, each counted once.
-/
namespace TFR.Spec

/-- The average of a real valued function over all elements of a finite type. -/
noncomputable def average {α : Type} [Fintype α] (f : α → ℝ) : ℝ := (∑ x, f x) / (Fintype.card α : ℝ)

/-- The fraction of the elements of a finite type that satisfy `p`. -/
noncomputable def fraction {α : Type} [Fintype α] (p : α → Prop) [DecidablePred p] : ℝ :=
  ((Finset.univ.filter p).card : ℝ) / (Fintype.card α : ℝ)

end TFR.Spec
