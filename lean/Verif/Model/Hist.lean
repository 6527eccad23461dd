import Verif.Model.Basic
/-
`std::vector<uint64_t>` used as a histogram, as all counting statistics do (core/src/statistics/*.h).
-/
namespace TFR

/-- `counts[i]++` on a vector of `uint64_t`; an index outside the vector is undefined behaviour. -/
def incrAt (counts : List (BitVec 64)) (i : Nat) : R (List (BitVec 64)) :=
  match counts[i]? with
  | some v => .ok (counts.set i (v + 1))
  | none => .error .oobIndex

end TFR
