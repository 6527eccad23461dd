import Verif.Model.Gamma
import Verif.Model.TestSuite
/-
`log_safe` (core/src/util/math.h), Fisher's method (core/src/statistics/fishersmethod.h), the Anderson-Darling test
(core/src/statistics/andersondarling.h and distributions.cpp:154-218) and the elementary statistics of core/src/statistics/basic.h.
Exact arithmetic: `double` is modelled by the real numbers, `std::log`, `std::exp` and `std::sqrt` are taken as exact.
-/
namespace TFR

/-- `log_safe`, core/src/util/math.h:40-45.  The two assertions print a message at most. -/
noncomputable def logSafe (x : ℝ) : ℝ :=
  let minP : ℝ := 1 / 10 ^ 16
  Real.log (max minP x)

/-- `fishers_combined_probabilities`, core/src/statistics/fishersmethod.h:8-17. -/
noncomputable def fishersCombined (pValues : List ℝ) : ℝ :=
  let sum := pValues.foldl (fun sum p => sum + logSafe p) 0
  chi2DistributionCdf (-2 * sum) (2 * (pValues.length : ℝ))

/-- The loop of `anderson_darling_stats`, andersondarling.h:16-22, on the sorted data. -/
noncomputable def andersonDarlingSum (data : List ℝ) : ℝ :=
  (List.range data.length).foldl (fun sum i =>
    let a := data.getD i 0
    let b := data.getD (data.length - 1 - i) 0
    sum + (2 * (i : ℝ) + 1) * (logSafe a + logSafe (1 - b))) 0

/-- `AndersonDarlingInf`, distributions.cpp:165-179. -/
noncomputable def andersonDarlingInf (z : ℝ) : ℝ :=
  if z < 2 then
    Real.exp (-(12337141 / 10 ^ 7) / z) / Real.sqrt z *
      (200012 / 10 ^ 5 +
        (247105 / 10 ^ 6 -
          (649821 / 10 ^ 7 - (347962 / 10 ^ 7 - (11672 / 10 ^ 6 - 168691 / 10 ^ 8 * z) * z) * z) * z) * z)
  else
    Real.exp (-Real.exp (10776 / 10 ^ 4 -
      (230695 / 10 ^ 5 -
        (43424 / 10 ^ 5 - (82433 / 10 ^ 6 - (8056 / 10 ^ 6 - 3146 / 10 ^ 7 * z) * z) * z) * z) * z))

/-- `AndersonDarlingErrFix`, distributions.cpp:184-205; `n` is an `int`, and `n * n` is computed in `int`. -/
noncomputable def andersonDarlingErrFix (n : Nat) (x : ℝ) : R ℝ :=
  if x > 8 / 10 then
    .ok ((-(1302137 / 10 ^ 4) +
      (7452337 / 10 ^ 4 -
        (1705091 / 10 ^ 3 - (1950646 / 10 ^ 3 - (1116360 / 10 ^ 3 - 2557844 / 10 ^ 4 * x) * x) * x) * x) * x) / (n : ℝ))
  else
    let cutoff := 1265 / 10 ^ 5 + 1757 / 10 ^ 4 / (n : ℝ)
    if x < cutoff then
      let t := x / cutoff
      let t := Real.sqrt t * (1 - t) * (49 * t - 102)
      if 2 ^ 31 ≤ n * n then .error .signedOverflow
      else .ok (t * (37 / 10 ^ 4 / ((n * n : Nat) : ℝ) + 78 / 10 ^ 5 / (n : ℝ) + 6 / 10 ^ 5) / (n : ℝ))
    else
      let t := (x - cutoff) / (8 / 10 - cutoff)
      let t := -(22633 / 10 ^ 8) +
        (654034 / 10 ^ 5 - (146538 / 10 ^ 4 - (14458 / 10 ^ 3 - (8259 / 10 ^ 3 - 191864 / 10 ^ 5 * t) * t) * t) * t) * t
      .ok (t * (4213 / 10 ^ 5 + 1365 / 10 ^ 5 / (n : ℝ)) / (n : ℝ))

/-- `AndersonDarlingPValue`, distributions.cpp:208-212. -/
noncomputable def andersonDarlingPValue (n : Nat) (z : ℝ) : R ℝ := do
  let ad := andersonDarlingInf z
  let errfix ← andersonDarlingErrFix n ad
  .ok (ad + errfix)

/-- `anderson_darling_cdf`, distributions.cpp:214-218, for a whole number of samples `df`, which is converted to `int`. -/
noncomputable def andersonDarlingCdf (A2 : ℝ) (df : Nat) : R ℝ :=
  if 2 ^ 31 ≤ df then .error .badCast
  else do
    let p ← andersonDarlingPValue df A2
    .ok (1 - clamp01 p)

/-- `anderson_darling_stats`, andersondarling.h:11-27. -/
noncomputable def andersonDarlingStats (data01 : List ℝ) : R (Option (Statistic ℝ)) :=
  if data01 = [] then .ok none
  else do
    let data := sortReals data01
    let sum := andersonDarlingSum data
    let n := (data.length : ℝ)
    let A2 := -n - sum / n
    let p ← andersonDarlingCdf A2 data.length
    .ok (some ⟨.andersonDarlingA2, A2, p, n⟩)

/-! ### Elementary statistics -/

/-- `get_median`, core/src/statistics/basic.h:9-19, for a vector of doubles which the caller has sorted.  For an empty vector the
assertion prints a message at most, the index `(s - 1) / 2` wraps and the read is out of bounds. -/
noncomputable def getMedian (sorted : List ℝ) : R ℝ :=
  let s := sorted.length
  if s % 2 = 1 then
    match sorted[s / 2]? with
    | some x => .ok x
    | none => .error .oobIndex
  else if s = 0 then .error .oobIndex
  else
    match sorted[(s - 1) / 2]?, sorted[(s - 1) / 2 + 1]? with
    | some a, some b => .ok ((a + b) / 2)
    | _, _ => .error .oobIndex

/-- `get_mean`, basic.h:21-28 (for no values the C++ result is NaN). -/
noncomputable def getMean (values : List ℝ) : ℝ := values.foldl (fun sum v => sum + v) 0 / (values.length : ℝ)

/-- `get_sum_of_squares`, basic.h:39-47. -/
noncomputable def getSumOfSquares (values : List ℝ) (mean : ℝ) : ℝ :=
  values.foldl (fun sum v => sum + (v - mean) * (v - mean)) 0

/-- `basic_statistics`, basic.h:49-55. -/
structure BasicStatistics where
  n : ℝ
  mean : ℝ
  sumOfSquares : ℝ

/-- `basic_statistics::variance`, basic.h:53. -/
noncomputable def BasicStatistics.variance (b : BasicStatistics) : ℝ := b.sumOfSquares / b.n

/-- `basic_statistics::sample_variance`, basic.h:54. -/
noncomputable def BasicStatistics.sampleVariance (b : BasicStatistics) : ℝ := b.sumOfSquares / (b.n - 1)

/-- `basic_stats`, basic.h:57-63. -/
noncomputable def basicStats (values : List ℝ) : BasicStatistics :=
  let mean := getMean values
  ⟨(values.length : ℝ), mean, getSumOfSquares values mean⟩

/-- `to_one_sided`, core/src/util/math.h:88-91. -/
noncomputable def toOneSided (p : ℝ) : ℝ := 1 - 2 * |p - 1 / 2|

/-- `std::min_element` / `std::max_element` of a non-empty vector: the extreme value. -/
noncomputable def minElement (data : List ℝ) : ℝ := data.foldl min (data.headD 0)
@[inherit_doc minElement]
noncomputable def maxElement (data : List ℝ) : ℝ := data.foldl max (data.headD 0)

/-- `rescale_to_01(vector)`, core/src/util/algo.h:59-76, for doubles. -/
noncomputable def rescaleRealsTo01 (data : List ℝ) : List ℝ :=
  if data = [] then [] else data.map fun v => rescaleTo01 v (minElement data) (maxElement data)

/-! ### Paired samples -/

section
variable {w : Nat}

/-- `rescale_type_to_01`, core/src/util/math.h:34-38, in exact arithmetic. -/
noncomputable def rescaleTypeR (x : BitVec w) : ℝ := (x.toNat : ℝ) / ((2 ^ w - 1 : ℕ) : ℝ)

/-- `create_serial_xy_by_ref`, algo.h:99-107, on a stream in state `st`: the two vectors and the state of the stream after it. -/
noncomputable def createSerialXy (s : Stream (BitVec w)) : Nat → s.σ → (List ℝ × List ℝ) × s.σ
  | 0, st => (([], []), st)
  | n + 1, st =>
    let a := s.step st
    let b := s.step a.2
    let r := createSerialXy s n b.2
    ((rescaleTypeR a.1 :: r.1.1, rescaleTypeR b.1 :: r.1.2), r.2)

/-- Inner loop of `create_bit_flipped_xy`, algo.h:91-94: the vectors filled by one value. -/
noncomputable def bitFlippedRow (mixer : Mixer w) (v : BitVec w) : R (List ℝ × List ℝ) := do
  let m := mixer.mix v
  let x := rescaleTypeR m
  (List.range w).foldlM (fun (xy : List ℝ × List ℝ) (bit : Nat) => do
    let f ← flipBit m bit
    .ok (xy.1 ++ [x], xy.2 ++ [rescaleTypeR (mixer.mix f)])) ([], [])

/-- `create_bit_flipped_xy`, algo.h:83-97. -/
noncomputable def createBitFlippedXy (n : Nat) (s : Stream (BitVec w)) (mixer : Mixer w) : R (List ℝ × List ℝ) :=
  (s.take n).foldlM (fun (xy : List ℝ × List ℝ) v => do
    let r ← bitFlippedRow mixer v
    .ok (xy.1 ++ r.1, xy.2 ++ r.2)) ([], [])

/-- The lambda of `pearson_correlation_test`, correlation.h:112-115.  The two vectors have the same length, so the statistic has no
fault (`C62_pearson`). -/
noncomputable def pearsonBlock (s : Stream (BitVec w)) (st : s.σ) (size : BitVec 64) : Option (Statistic ℝ) × s.σ :=
  let d := createSerialXy s size.toNat st
  ((pearsonStats d.1.1 d.1.2).toOption.join, d.2)

/-- The lambda of `spearman_correlation_test`, correlation.h:120-123; `ranks` is what `get_ranks` returns (`std::sort` may order
equal elements in any way). -/
noncomputable def spearmanBlock (ranks : List ℝ → List Nat) (s : Stream (BitVec w)) (st : s.σ) (size : BitVec 64) :
    Option (Statistic ℝ) × s.σ :=
  let d := createSerialXy s size.toNat st
  ((pearsonStats (rescaleVecTo01 (ranks d.1.1)) (rescaleVecTo01 (ranks d.1.2)) (106 / 100)).toOption.join, d.2)

/-- The lambda of `kendall_correlation_test`, correlation.h:128-131. -/
noncomputable def kendallBlock (s : Stream (BitVec w)) (st : s.σ) (size : BitVec 64) : Option (Statistic ℝ) × s.σ :=
  let d := createSerialXy s size.toNat st
  ((kendallStats d.1.1 d.1.2).toOption.join, d.2)

/-- `pearson_correlation_test`, correlation.h:110-116. -/
noncomputable def pearsonCorrelationTest (n : BitVec 64) (s : Stream (BitVec w)) : R (List (SubTest ℝ)) := do
  .ok (← splitTest n 1000000#64 (pearsonBlock s) s.state).1

/-- `spearman_correlation_test`, correlation.h:118-124. -/
noncomputable def spearmanCorrelationTest (ranks : List ℝ → List Nat) (n : BitVec 64) (s : Stream (BitVec w)) : R (List (SubTest ℝ)) := do
  .ok (← splitTest n 1000000#64 (spearmanBlock ranks s) s.state).1

/-- `kendall_correlation_test`, correlation.h:126-132. -/
noncomputable def kendallCorrelationTest (n : BitVec 64) (s : Stream (BitVec w)) : R (List (SubTest ℝ)) := do
  .ok (← splitTest n 10000#64 (kendallBlock s) s.state).1

end

end TFR
