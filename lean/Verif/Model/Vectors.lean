import Verif.Model.Streams
import Verif.Model.Float
import Verif.Model.CountStats
/-
The remaining vector helpers of core/src/util/algo.h.
-/
namespace TFR
variable {w : Nat} {α : Type}

/-- `append`, algo.h:15-18. -/
def appendVec (destination source : List α) : List α := destination ++ source

/-- `rescale_type_to_01_by_ref`, algo.h:39-47: the doubles and the stream afterwards (it is passed by reference). -/
def rescaleByRef : Nat → Stream (BitVec w) → List ℚ × Stream (BitVec w)
  | 0, s => ([], s)
  | n + 1, s =>
    let r := s.next
    let q := rescaleByRef n r.2
    (rescaleTypeTo01 r.1 :: q.1, q.2)

/-- `rescale_type_to_01(vector)`, algo.h:49-57, on doubles. -/
def rescaleWords (data : List (BitVec w)) : List ℚ :=
  data.foldl (fun ns v => ns ++ [rescaleTypeTo01 v]) []

/-- `accumulate(data)`, algo.h:145-148, for a vector of unsigned words: the sum is formed in `unsigned long long` (because of `0ull`) and
converted to the type of the elements. -/
def accumulateWords (data : List (BitVec w)) : BitVec w :=
  (data.foldl (fun acc v => acc + v.setWidth 64) 0#64).setWidth w

/-- One addition of `accumulate` for doubles: the `unsigned long long` sum is converted to `double`, the addition is done in `double`, and
the result is converted back, which cuts off its fraction; the conversion is undefined unless the number, cut off, is in range. -/
def accumulateStep (acc : BitVec 64) (v : ℚ) : R (BitVec 64) :=
  let x := Fl.add (Fl.ofNat acc.toNat) v
  if -1 < x ∧ x < 2 ^ 64 then .ok (BitVec.ofNat 64 ⌊max x 0⌋.toNat) else .error .badCast

/-- `accumulate(data)`, algo.h:145-148, for a vector of doubles. -/
def accumulateDoubles (data : List ℚ) : R ℚ := do
  let acc ← data.foldlM accumulateStep 0#64
  .ok (Fl.ofNat acc.toNat)

end TFR
