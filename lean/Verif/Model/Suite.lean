import Verif.Model.TestSuite
import Verif.Model.Evaluate
/-
The rows of core/src/test_definitions.h:25-46 with the test functions themselves, ready for core/src/evaluate.h.
-/
namespace TFR
variable {w : Nat}

/-- What calling a test does: `none` if it never returns, an error if it is undefined behaviour, else the sub tests. -/
abbrev TestRun := Option (R (List (SubTest ℝ)))

/-- The second column of `get_tests`, test_definitions.h:28-39, without the wrapper limiting `n`. -/
noncomputable def rawStreamTest (cdf : ℝ → ℝ → ℝ) : TestType → Option (BitVec 64 → Stream (BitVec w) → TestRun)
  | .mean => some fun n s => some (meanTest n s)
  | .uniform => some fun n s => some (uniformTest cdf n s)
  | .runs => some fun n s => some (runsTest n s)
  | .serialAvalanche => some fun n s => some (serialAvalanche cdf n s)
  | .gap => some fun n s => gapTest cdf n s
  | .coupon => some fun n s => some (couponTest cdf n s)
  | .divisibility => some fun n s => divisibilityTest cdf n s
  | .permutation => some fun n s => some (permutationTest cdf n s)
  | .binaryRank => some fun n s => some (binaryRankTest cdf n s)
  | .linearComplexity => some fun n s => some (linearComplexityTest cdf n s)
  | .sac => none
  | .bic => none

/-- The third column of `get_tests`, test_definitions.h:28-44, without the wrapper limiting `n`. -/
noncomputable def rawMixerTest (cdf : ℝ → ℝ → ℝ) : TestType → Option (BitVec 64 → Stream (BitVec w) → Mixer w → TestRun)
  | .sac => some fun n s m => some (sacTest cdf n s m)
  | .bic => some fun n s m => some (bicTest cdf n s m)
  | _ => none

/-- `test_stream` of the row for `type`: the test behind the wrapper of the row (`detail::limit_n`, types.h:168-176). -/
noncomputable def suiteStream (cdf : ℝ → ℝ → ℝ) (type : TestType) : Option (BitVec 64 → Stream (BitVec w) → TestRun) :=
  (rawStreamTest cdf type).map fun test n s =>
    match (getTestDefinition type).limiter.limit n with
    | some m => test m s
    | none => some (.ok [])

/-- `test_mixer` of the row for `type`, with its wrapper (types.h:178-186). -/
noncomputable def suiteMixer (cdf : ℝ → ℝ → ℝ) (type : TestType) : Option (BitVec 64 → Stream (BitVec w) → Mixer w → TestRun) :=
  (rawMixerTest cdf type).map fun test n s mix =>
    match (getTestDefinition type).limiter.limit n with
    | some m => test m s mix
    | none => some (.ok [])

/-- The result of a test that returns normally.  (Only used where it does: C89 shows that it always does.) -/
def TestRun.value (r : TestRun) : List (SubTest ℝ) :=
  match r with
  | some (.ok res) => res
  | _ => []

/-- `get_test_definition<T>(type)`, test_definitions.h:47-56, as evaluate.h uses it. -/
noncomputable def suiteDef (cdf : ℝ → ℝ → ℝ) (type : TestType) : TestDef w ℝ where
  type := (getTestDefinition type).type
  testStream := (suiteStream cdf type).map fun f n s => (f n s).value
  testMixer := (suiteMixer cdf type).map fun f n s m => (f n s m).value

end TFR
