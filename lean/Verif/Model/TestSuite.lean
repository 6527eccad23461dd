import Verif.Model.RealStats
import Verif.Model.BinaryRank
import Verif.Model.LinearComplexity
import Verif.Model.Budget
/-
The twelve tests of the catalogue (core/src/test_definitions.h:25-46) as functions from a sample count and a stream to sub
test results: core/src/statistics/{basic,uniform,run,serial_avalanche,gap,coupon,divisibility,permutation,binary_rank,
linear_complexity,avalanche}.h.  A test gets a copy of the stream; undefined behaviour is `Except.error`.  Arithmetic on
expectations and statistics is exact; `cdf` stands for `chi2_distribution_cdf`.
-/
namespace TFR
variable {w : Nat}

/-- `main_sub_test`, types.h:77-79. -/
def mainSubTest {K : Type} (s : Option (Statistic K)) : List (SubTest K) := [⟨"", s⟩]

/-- `get_mean_rescale_01`, basic.h:30-37, in exact arithmetic (for no values the C++ result is NaN, which `z_test` with `n = 0`
does not use). -/
noncomputable def meanRescale01 (data : List (BitVec w)) : ℝ :=
  data.foldl (fun sum v => sum + (v.toNat : ℝ) / ((2 ^ w - 1 : ℕ) : ℝ)) 0 / (data.length : ℝ)

/-- `mean_test`, basic.h:65-71. -/
noncomputable def meanTest (n : BitVec 64) (s : Stream (BitVec w)) : R (List (SubTest ℝ)) :=
  .ok (mainSubTest (zTest (n.toNat : ℝ) (meanRescale01 (s.take n.toNat)) (1 / 2) (1 / 12)))

/-- `uniform_test`, uniform.h:6-12. -/
noncomputable def uniformTest (cdf : ℝ → ℝ → ℝ) (n : BitVec 64) (s : Stream (BitVec w)) : R (List (SubTest ℝ)) := do
  .ok (mainSubTest (← uniformStats cdf (s.take n.toNat)))

/-- `runs_test`, run.h:54-59: the cutoff is half the maximum, rounded down. -/
noncomputable def runsTest (n : BitVec 64) (s : Stream (BitVec w)) : R (List (SubTest ℝ)) :=
  .ok (mainSubTest (runsStats (generateRunsData (s.take n.toNat) (BitVec.ofNat w ((2 ^ w - 1) / 2)))))

/-- `serial_avalanche_stats`, serial_avalanche.h:25-39. -/
noncomputable def serialAvalancheStats (cdf : ℝ → ℝ → ℝ) (w : Nat) (bitCounts : List (BitVec 64)) (expectedTotal : ℝ) :
    R (Option (Statistic ℝ)) := do
  let expected := (List.range bitCounts.length).map fun k => expectedTotal * flipCoinPdf w k
  let merged ← mergeBins bitCounts expected 5
  if (merged.1.length : ℝ) / (bitCounts.length : ℝ) < 35 / 100 then .ok none
  else .ok (chi2Stats cdf merged.1.length (toData merged.1) (fun i => merged.2.getD i 0) 0)

/-- `serial_avalanche`, serial_avalanche.h:41-52: rows `0 .. w - 1` of the table. -/
noncomputable def serialAvalanche (cdf : ℝ → ℝ → ℝ) (n : BitVec 64) (s : Stream (BitVec w)) : R (List (SubTest ℝ)) := do
  let r ← serialAvalancheCount n s
  (List.range w).foldlM (fun (results : List (SubTest ℝ)) count => do
    let expectedTotal := (n.toNat : ℝ) * flipCoinPdf w count
    match r.1[count]? with
    | none => .error .oobIndex
    | some row =>
      match ← serialAvalancheStats cdf w row expectedTotal with
      | some stat => .ok (results ++ [⟨"bit(" ++ toString count ++ ")", some stat⟩])
      | none => .ok results) []

/-- `snap_to_01`, core/src/util/math.h:59-64. -/
def snapTo01 (x : ℚ) : ℚ :=
  if x < 0 ∧ isNear x 0 (Fl.rnd (1 / 10 ^ 6)) then 0 else if x > 1 ∧ isNear x 1 (Fl.rnd (1 / 10 ^ 6)) then 1 else x

/-- `gap_test`, gap.h:46-67, for the only value 2 of `wanted_gaps`: halves `gi = 0, 1`.  The loop of
`generate_gap_probabilities` ends for these intervals; if it did not, the test would never return. -/
noncomputable def gapTest (cdf : ℝ → ℝ → ℝ) (n : BitVec 64) (s : Stream (BitVec w)) : Option (R (List (SubTest ℝ))) :=
  let wantedGaps : Nat := 2
  let gapSize : ℚ := Fl.div 1 wantedGaps
  let expectedTotal : BitVec 64 := n / BitVec.ofNat 64 wantedGaps
  (List.range wantedGaps).foldl (fun (acc : Option (R (List (SubTest ℝ)))) (gi : Nat) => do
    let acc ← acc
    let a := snapTo01 (Fl.mul gi gapSize)
    let b := snapTo01 (Fl.add a gapSize)
    let ps ← gapProbabilities (a : ℝ) (b : ℝ)
    some (do
      let results ← acc
      let gaps ← generateGaps ps.length a b (s.take n.toNat)
      match chi2Stats cdf gaps.length (toData gaps) (fun i => ps.getD i 0 * (expectedTotal.toNat : ℝ)) 5 with
      | some st => .ok (results ++ [⟨toString (gi + 1) ++ "/" ++ toString wantedGaps, some st⟩])
      | none => .ok results)) (some (.ok []))

/-- `harmonic`, core/src/util/math.h:80-86, in exact arithmetic. -/
def harmonicQ (n : Nat) : ℚ := (List.range n).foldl (fun h i => h + 1 / ((i + 1 : ℕ) : ℚ)) 0

/-- `coupon_stats` and `coupon_test`, coupon.h:61-75: five coupons. -/
noncomputable def couponTest (cdf : ℝ → ℝ → ℝ) (n : BitVec 64) (s : Stream (BitVec w)) : R (List (SubTest ℝ)) := do
  let wanted : Nat := 5
  let ps := couponProbabilities wanted
  let cc ← collectCoupons (BitVec.ofNat 64 wanted) ps.length (s.take n.toNat)
  let expectedTotal : ℝ := (n.toNat : ℝ) / (((wanted : ℚ) * harmonicQ wanted : ℚ) : ℝ)
  .ok (mainSubTest (chi2Stats cdf cc.length (toData cc) (fun i => ((ps.getD i 0 : ℚ) : ℝ) * expectedTotal) 1))

/-- `divisibility_test`, divisibility.h:49-67, for the only divisor 2; `none` if the loop computing the probabilities did not
end. -/
noncomputable def divisibilityTest (cdf : ℝ → ℝ → ℝ) (n : BitVec 64) (s : Stream (BitVec w)) : Option (R (List (SubTest ℝ))) := do
  let divisor : Nat := 2
  let wanted : Nat := 5
  let ps ← divProbabilities divisor wanted
  some (do
    let collected ← collectDivisible (BitVec.ofNat 64 divisor) (BitVec.ofNat 64 wanted) ps.length (s.take n.toNat)
    let expectedTotal : BitVec 64 := n / BitVec.ofNat 64 (divisor * wanted)
    if expectedTotal < 100#64 then .ok []
    else match chi2Stats cdf collected.length (toData collected) (fun i => ps.getD i 0 * (expectedTotal.toNat : ℝ)) 5 with
      | some st => .ok [⟨"d" ++ toString divisor, some st⟩]
      | none => .ok [])

/-- `lambert_w_approximation`, core/src/util/math.h:93-102.  The assertion `x >= 1` only prints a message.  `none` stands for NaN:
for `x < 1` (and not near 1) `l1` is negative or minus infinity and its logarithm is NaN. -/
noncomputable def lambertWApproximation (x : ℝ) : Option ℝ :=
  if isNearR x 1 then some (56 / 100)
  else if x < 1 then none
  else
    let l1 := Real.log x
    let l2 := Real.log l1
    some (l1 - l2 + l2 / l1 + l2 * (l2 - 2) / (2 * l1 * l1))

/-- Conversion of a real to `uint64_t`. -/
noncomputable def realToU64 (x : ℝ) : R (BitVec 64) :=
  if 0 ≤ x ∧ x < 2 ^ 64 then .ok (BitVec.ofNat 64 ⌊x⌋₊)
  else if -1 < x ∧ x < 0 then .ok 0#64
  else .error .badCast

/-- `get_permutation_size`, permutation.h:28-36.  (`n * bit_sizeof<T>()` wraps in 64 bits; converting NaN is undefined.) -/
noncomputable def getPermutationSize (w : Nat) (n : BitVec 64) : R (BitVec 64) :=
  let totalBits : BitVec 64 := n * BitVec.ofNat 64 w
  let y : ℝ := (totalBits.toNat : ℝ) / 32
  match lambertWApproximation (y * Real.log 2) with
  | none => .error .badCast
  | some v => realToU64 (v / Real.log 2)

/-- `permutation_stat`, permutation.h:20-26.  The division is on integers, so `std::floor` does nothing. -/
noncomputable def permutationStat (cdf : ℝ → ℝ → ℝ) (n : BitVec 64) (s : Stream (BitVec w)) (size : BitVec 64) :
    R (Option (Statistic ℝ)) := do
  let totalBits : BitVec 64 := n * BitVec.ofNat 64 w
  let histogram ← permutationHistogram (s.take n.toNat) size
  if size = 0#64 then .error .divByZero
  else
    let expected : ℝ := ((totalBits / size).toNat : ℝ) / (histogram.length : ℝ)
    .ok (chi2Stats cdf histogram.length (fun i => ((histogram.getD i 0#8).toNat : ℝ)) (fun _ => expected) 0)

/-- `permutation_test`, permutation.h:38-44. -/
noncomputable def permutationTest (cdf : ℝ → ℝ → ℝ) (n : BitVec 64) (s : Stream (BitVec w)) : R (List (SubTest ℝ)) := do
  let size ← getPermutationSize w n
  let st ← permutationStat cdf n s size
  .ok [⟨toString size.toNat, st⟩]

/-- `binary_rank_stats`, binary_rank.h:83-97. -/
noncomputable def binaryRankStats (cdf : ℝ → ℝ → ℝ) (n : BitVec 64) (s : Stream (BitVec w)) (size : BitVec 64) :
    R (Option (Statistic ℝ)) := do
  let ps := getRankProbabilities size.toNat
  let r ← binaryRankCounts (s.take n.toNat) size.toNat
  .ok (chi2Stats cdf r.1.length (toData r.1) (fun i => ps.getD i 0 * (r.2.toNat : ℝ)) 5)

/-- `binary_rank_isolated_bit_stats`, binary_rank.h:99-117. -/
noncomputable def binaryRankIsolatedStats (cdf : ℝ → ℝ → ℝ) (n : BitVec 64) (s : Stream (BitVec w)) (size : BitVec 64) (bit : Int) :
    R (Option (Statistic ℝ)) := do
  let ps := getRankProbabilities size.toNat
  let r ← isolatedRankCounts n s size bit
  .ok (chi2Stats cdf r.1.length (toData r.1) (fun i => ps.getD i 0 * (r.2.1.toNat : ℝ)) 5)

/-- `binary_rank_test`, binary_rank.h:127-134. -/
noncomputable def binaryRankTest (cdf : ℝ → ℝ → ℝ) (n : BitVec 64) (s : Stream (BitVec w)) : R (List (SubTest ℝ)) := do
  let size ← getMatrixSize w n
  let a ← binaryRankStats cdf n s size
  let b ← binaryRankIsolatedStats cdf n s size 0
  .ok [⟨toString size.toNat, a⟩, ⟨toString size.toNat ++ ":bit(0)", b⟩]

/-- `linear_complexity_stats`, linear_complexity.h:66-82. -/
noncomputable def linearComplexityStats (cdf : ℝ → ℝ → ℝ) (n : BitVec 64) (s : Stream (BitVec w)) (blockSize : BitVec 64)
    (bit : Int) : R (Option (Statistic ℝ)) := do
  let ps := lfsrProbabilities blockSize
  let r ← linearComplexityCounts n s blockSize bit
  .ok (chi2Stats cdf r.1.length (toData r.1) (fun i => ps.getD i 0 * (r.2.1.toNat : ℝ)) 5)

/-- `linear_complexity_test`, linear_complexity.h:84-93. -/
noncomputable def linearComplexityTest (cdf : ℝ → ℝ → ℝ) (n : BitVec 64) (s : Stream (BitVec w)) : R (List (SubTest ℝ)) :=
  let blockSize := n / 1024#64
  if blockSize < 8#64 then .ok []
  else do
    let st ← linearComplexityStats cdf n s blockSize 0
    .ok [⟨toString blockSize.toNat ++ ":bit(0)", st⟩]

/-- `avalanche_sac_stats`, avalanche.h:45-52. -/
noncomputable def avalancheSacStats (cdf : ℝ → ℝ → ℝ) (w : Nat) (n : ℝ) (bitCounts : List (BitVec 64)) : Option (Statistic ℝ) :=
  let total := n * (w : ℝ)
  chi2Stats cdf bitCounts.length (toData bitCounts) (fun i => total * flipCoinPdf w i) 5

/-- `avalanche_bic_stats`, avalanche.h:54-57. -/
noncomputable def avalancheBicStats (cdf : ℝ → ℝ → ℝ) (n : ℝ) (bitCounts : List (BitVec 64)) : Option (Statistic ℝ) :=
  chi2Stats cdf bitCounts.length (fun i => toData bitCounts i * 2) (fun _ => n) 0

/-- `avalanche_mixer_sac_test`, avalanche.h:59-63. -/
noncomputable def sacTest (cdf : ℝ → ℝ → ℝ) (n : BitVec 64) (s : Stream (BitVec w)) (m : Mixer w) : R (List (SubTest ℝ)) := do
  let counts ← generateSac n s m.mix
  .ok (mainSubTest (avalancheSacStats cdf w (n.toNat : ℝ) counts))

/-- `avalanche_mixer_bic_test`, avalanche.h:65-69. -/
noncomputable def bicTest (cdf : ℝ → ℝ → ℝ) (n : BitVec 64) (s : Stream (BitVec w)) (m : Mixer w) : R (List (SubTest ℝ)) := do
  let counts ← generateBic n s m.mix
  .ok (mainSubTest (avalancheBicStats cdf (n.toNat : ℝ) counts))

end TFR
