import Mathlib.Order.Interval.Finset.Nat
import Mathlib.Data.Finset.Card
/-
What "period" and "equidistributed" mean, for a sequence of values.
-/
namespace TFR.Spec

/-- How often `y` occurs among the `len` values starting at position `start`. -/
def occurrences {α : Type*} [DecidableEq α] (f : Nat → α) (y : α) (start len : Nat) : Nat :=
  ((Finset.range len).filter (fun k => f (start + k) = y)).card

/-- The sequence repeats after `p` steps, from the very beginning. -/
def IsPeriod {α : Type*} (f : Nat → α) (p : Nat) : Prop := ∀ n, f (n + p) = f n

/-- The periods of the sequence are exactly the multiples of `N`; in particular `N` is the least positive
one. -/
def LeastPeriod {α : Type*} (f : Nat → α) (N : Nat) : Prop := 0 < N ∧ ∀ p, IsPeriod f p ↔ N ∣ p

end TFR.Spec
