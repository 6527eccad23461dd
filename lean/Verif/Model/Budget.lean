import Verif.Model.Results
import Verif.Model.Evaluate
import Mathlib.Analysis.SpecialFunctions.Pow.Real
import Mathlib.Analysis.SpecialFunctions.Log.Base
/-
core/src/types.h:124-209: sample budgets.
-/
namespace TFR
variable {w : Nat} {K : Type}

/-- The loop of `split_test`, types.h:142-146, `count` iterations from index `i`. The callback has hidden state `σ`. -/
def splitLoop {σ : Type} (maxSize : BitVec 64) (f : σ → BitVec 64 → Option (Statistic K) × σ) :
    Nat → Nat → σ → List (SubTest K) × σ
  | _, 0, s => ([], s)
  | i, count + 1, s =>
    let r := f s maxSize
    let q := splitLoop maxSize f (i + 1) count r.2
    (⟨"s" ++ toString (i + 1), r.1⟩ :: q.1, q.2)

/-- `split_test`, types.h:137-147. -/
def splitTest {σ : Type} (n maxSize : BitVec 64) (f : σ → BitVec 64 → Option (Statistic K) × σ) (s : σ) :
    R (List (SubTest K) × σ) :=
  if n ≤ maxSize then
    let r := f s n
    .ok ([⟨"", r.1⟩], r.2)
  else if maxSize = 0#64 then .error .divByZero
  else
    let splitCount := max 2 (n.toNat / maxSize.toNat)
    .ok (splitLoop maxSize f 0 splitCount s)

/-- `detail::limit_n`, types.h:153-156. Simplification: `std::pow` is the exact real power (no rounding of its result);
the exponent is the given double. -/
noncomputable def limitN (n : BitVec 64) (exp : ℝ) : Option (BitVec 64) :=
  let slowN : BitVec 64 := BitVec.ofNat 64 ⌊(n.toNat : ℝ) ^ exp⌋₊
  if slowN ≥ 1#64 <<< 10 then some slowN else none

/-- The double `6. / 7.` (types.h:159), exactly. -/
noncomputable def expSlow : ℝ := 7720456504063707 / 2 ^ 53
/-- The double `5. / 7.` (types.h:163), exactly. -/
noncomputable def expSlower : ℝ := 6433713753386423 / 2 ^ 53

/-- `detail::limit_n_slow`, types.h:158-160. -/
noncomputable def limitNSlow (n : BitVec 64) : Option (BitVec 64) := limitN n expSlow
/-- `detail::limit_n_slower`, types.h:162-164. -/
noncomputable def limitNSlower (n : BitVec 64) : Option (BitVec 64) := limitN n expSlower
/-- The lambda of `limit_n_to`, types.h:195-203. -/
def limitNTo (maxN n : BitVec 64) : Option (BitVec 64) := if n ≤ maxN then some n else none

/-- `detail::limit_n(stream_test)`, types.h:168-176. -/
def limitStreamTest (test : StreamTest w K) (limit : BitVec 64 → Option (BitVec 64)) : StreamTest w K :=
  fun n source => match limit n with
    | some m => test m source
    | none => []

/-- `detail::limit_n(mixer_test)`, types.h:178-186. -/
def limitMixerTest (test : MixerTest w K) (limit : BitVec 64 → Option (BitVec 64)) : MixerTest w K :=
  fun n source mixer => match limit n with
    | some m => test m source mixer
    | none => []

/-- The number of samples a row of `get_tests` passes on, test_definitions.h:28-45 with types.h:189-209: the function the row's
wrapper hands to `detail::limit_n` (no wrapper: the test gets `n`). -/
noncomputable def Limiter.limit : Limiter → BitVec 64 → Option (BitVec 64)
  | .none, n => some n
  | .to maxN, n => limitNTo (BitVec.ofNat 64 maxN) n
  | .slow, n => limitNSlow n
  | .slower, n => limitNSlower n

/-- `test_battery_result::power_of_two`, types.h:124-126 (exact real logarithm; `log2(0)` is minus infinity, whose
conversion to `int` is undefined). -/
noncomputable def powerOfTwo (n : BitVec 64) : R Int :=
  if n = 0#64 then .error .badCast else .ok ⌈Real.logb 2 (n.toNat : ℝ)⌉

end TFR
