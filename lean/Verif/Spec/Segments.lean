import Mathlib.Data.List.Basic
/-
Cutting a sequence into consecutive minimal segments, independent of the model.
-/
namespace TFR.Spec

/-- `segs` and `rest` cut `l` greedily by the completion predicate `done`: every segment is complete and none of its
non-empty proper prefixes is, and no non-empty prefix of the rest is complete. -/
structure IsSegmentation {α : Type} (done : List α → Prop) (l : List α) (segs : List (List α)) (rest : List α) : Prop where
  cover : l = segs.flatten ++ rest
  complete : ∀ s ∈ segs, s ≠ [] ∧ done s
  minimal : ∀ s ∈ segs, ∀ p, p <+: s → p ≠ [] → p ≠ s → ¬ done p
  rest_open : ∀ p, p <+: rest → p ≠ [] → ¬ done p

/-- The number of bins entry `b` receives when each segment is counted once in bin `bin segment`. -/
def binCount {α : Type} (bin : List α → Nat) (segs : List (List α)) (b : Nat) : Nat := (segs.map bin).count b

/-- The number of maximal constant blocks of a list of booleans: the positions where a block starts. -/
def blocks (l : List Bool) : Nat :=
  (List.range l.length).countP fun i => i = 0 || l[i]? != l[i - 1]?

end TFR.Spec
