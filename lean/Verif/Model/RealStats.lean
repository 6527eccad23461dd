import Verif.Model.Results
import Verif.Model.CountStats
import Mathlib.Probability.CDF
import Mathlib.Probability.Distributions.Gaussian.Real
import Mathlib.Analysis.SpecialFunctions.Artanh
import Mathlib.Analysis.SpecialFunctions.Log.Base
import Mathlib.Analysis.SpecialFunctions.Pow.Real
/-
The real-valued statistics: core/src/statistics/{chi2,g_test,kolmogorov,correlation,distributions,tests}.h, core/src/util/math.h
and the bins of core/src/util/algo.h.  Unless a definition says otherwise `double` is modelled by the real numbers: the
arithmetic is exact, there is no NaN and no infinity.  `bin_data_for_chi2` and `binomial_coefficient` are also modelled with
binary64 rounding (`Fl`).
-/
namespace TFR
open Classical in
/-- `is_near`, core/src/util/math.h:16-18, in exact arithmetic. -/
noncomputable def isNearR (a b : ℝ) (eps : ℝ := 1 / 10 ^ 6) : Bool := decide (|a - b| ≤ eps)

/-! ### distributions.h -/

/-- `normal_cdf`, distributions.h:10-13.  Simplification: `std::erfc` is taken as exact, so this is the distribution function
of the standard normal law. -/
noncomputable def normalCdf (z : ℝ) : ℝ := ProbabilityTheory.cdf (ProbabilityTheory.gaussianReal 0 1) z

/-- `normal_two_tailed_cdf`, distributions.h:15-17. -/
noncomputable def normalTwoTailedCdf (z : ℝ) : ℝ := 2 * normalCdf (-|z|)

/-- `binomial_coefficient`, distributions.h:57-67, over any field (exact arithmetic); `std::round` of the result follows. -/
def binomialLoop {K : Type} [DivisionRing K] (n k : Nat) : K :=
  (List.range k).foldl (fun c j => c * (((n - k : Nat) : K) / ((j + 1 : Nat) : K) + 1)) 1

/-- `std::round`: nearest integer, halves away from zero (here for non-negative arguments). -/
def roundAway (x : ℚ) : ℤ := ⌊x + 1 / 2⌋

/-- `binomial_coefficient`, distributions.h:57-67, with binary64 rounding of every operation. -/
def binomialCoefficientFl (n k : Nat) : R (BitVec 64) :=
  if k > n then .ok 0#64
  else
    let diff := Fl.ofNat (n - k)
    let c := (List.range k).foldl (fun c j => Fl.mul c (Fl.add (Fl.div diff (Fl.ofNat (j + 1))) 1)) 1
    toU64 (roundAway c)

/-- `binomial_coefficient`, distributions.h:57-67, in exact arithmetic (no wrap at 2^64). -/
def binomialCoefficient (n k : Nat) : Nat :=
  if k > n then 0 else (roundAway (binomialLoop n k)).toNat

/-- `binomial_pdf`, distributions.h:69-72. -/
noncomputable def binomialPdf (n : Nat) (p : ℝ) (k : Nat) : ℝ :=
  (binomialCoefficient n k : ℝ) * p ^ k * (1 - p) ^ (n - k)

/-- `flip_coin_pdf`, distributions.h:83-87. -/
noncomputable def flipCoinPdf (n k : Nat) : ℝ := (binomialCoefficient n k : ℝ) / 2 ^ n

/-- `std::clamp(x, 0., 1.)`. -/
noncomputable def clamp01 (x : ℝ) : ℝ := if x < 0 then 0 else if 1 < x then 1 else x

/-- `binomial_cdf`, distributions.cpp:134-152, for `k ≤ n` (for `k > n` the C++ takes the logarithm of a wrapped unsigned
difference).  `i * log_p`, `(n - i) * log_1_p` as written. -/
noncomputable def binomialCdf (n : Nat) (p : ℝ) (k : Nat) : ℝ :=
  if isNearR p 0 (1 / 10 ^ 10) then 1
  else if isNearR p 1 (1 / 10 ^ 10) then 0
  else
    let logP := Real.log p
    let log1P := Real.log (1 - p)
    let st := (List.range k).foldl (fun (st : ℝ × ℝ) j =>
      let b := st.1 + (Real.log ((n - (j + 1) + 1 : Nat) : ℝ) - Real.log ((j + 1 : Nat) : ℝ))
      (b, st.2 + Real.exp (b + ((j + 1 : Nat) : ℝ) * logP + ((n - (j + 1) : Nat) : ℝ) * log1P))) (0, (1 - p) ^ n)
    clamp01 st.2

/-- `kolmogorov_smirnov_cdf`, distributions.cpp:119-132, for a positive number of samples. -/
noncomputable def kolmogorovSmirnovCdf (D df : ℝ) (conv : Nat) : ℝ :=
  let sn := Real.sqrt df
  let ks := D * (sn + 12 / 100 + 11 / 100 / sn)
  let ks2 := ks * ks
  let res := (List.range conv).foldl (fun res j =>
    let k : Nat := j + 1
    let x := (if k % 2 = 1 then 1 else -1) * Real.exp (-2 * ks2 * (k : ℝ) * (k : ℝ))
    if k = conv then res + 1 / 2 * x else res + x) 0
  clamp01 (2 * res)

/-! ### tests.h -/

/-- `z_test`, tests.h:26-36. -/
noncomputable def zTest (n mean populationMean populationVariance : ℝ) : Option (Statistic ℝ) :=
  if isNearR populationVariance 0 then none
  else if isNearR n 0 then none
  else
    let se := Real.sqrt (populationVariance / n)
    let z := (mean - populationMean) / se
    some ⟨.zScore, z, normalTwoTailedCdf z, n⟩

/-- `runs_stats`, run.h:41-52; the counters are converted to `double` (exactly, in this model). -/
noncomputable def runsStats (s : RunsData) : Option (Statistic ℝ) :=
  let nPlus : ℝ := s.nPlus.toNat
  let nMinus : ℝ := s.nMinus.toNat
  let n := nPlus + nMinus
  if isNearR n 0 then none
  else
    let mean := 2 * nPlus * nMinus / n + 1
    let variance := (mean - 1) * (mean - 2)
    zTest n (s.runs.toNat : ℝ) mean variance

/-! ### chi2.h, g_test.h.  `cdf` stands for `chi2_distribution_cdf` (modelled in Model/Gamma and put in its place
by C90, C107 and C108). -/

/-- `chi2_stats`, chi2.h:43-60. -/
noncomputable def chi2Stats (cdf : ℝ → ℝ → ℝ) (n : Nat) (observed expected : Nat → ℝ) (threshold : ℝ) : Option (Statistic ℝ) :=
  let st := (List.range n).foldl (fun (st : ℝ × ℝ) i =>
    let e := expected i
    if e ≤ threshold then st
    else
      let diff := observed i - e
      (st.1 + diff * diff / e, st.2 + 1)) (0, 0)
  let df := max (st.2 - 1) 0
  if isNearR df 0 then none
  else some ⟨.chi2, st.1, cdf st.1 df, df⟩

/-- `to_data(vector)`, core/src/stream.h: element `i` as a `double` (indices are below the size at every call). -/
noncomputable def toData (l : List (BitVec 64)) (i : Nat) : ℝ := ((l.getD i 0#64).toNat : ℝ)

/-- `g_test_stats`, g_test.h:11-38. -/
noncomputable def gTestStats (cdf : ℝ → ℝ → ℝ) (n : Nat) (observed expected : Nat → ℝ) (threshold : ℝ) : Option (Statistic ℝ) :=
  let st := (List.range n).foldl (fun (st : ℝ × ℝ × ℝ × ℝ) i =>
    let e := expected i
    if e < threshold then st
    else
      let o := observed i
      if o ≤ 1 / 10 ^ 17 then st
      else (st.1 + o * Real.log (o / e), st.2.1 + o, st.2.2.1 + e, st.2.2.2 + 1)) (0, 0, 0, 0)
  let df := max (st.2.2.2 - 1) 0
  if isNearR df 0 then none
  else
    let g := st.1 - st.2.1 * Real.log (st.2.1 / st.2.2.1)
    let g := g * 2
    some ⟨.chi2, g, cdf g df, df⟩

/-- `get_bin_count_mathematica`, chi2.h:11-13, in exact arithmetic. -/
noncomputable def binCountMathematica (n : Nat) : Nat := ⌈2 * (n : ℝ) ^ (4 / 10 : ℝ)⌉₊

/-- `create_bin_count_pow2<T>`, chi2.h:15-26, in exact arithmetic.  The logarithm of zero is minus infinity, whose conversion
to an integer is undefined. -/
noncomputable def binCountPow2 (w n : Nat) : R Nat :=
  let mma := binCountMathematica n
  if mma = 0 then .error .badCast
  else
    let log2 := ⌈Real.logb 2 (mma : ℝ)⌉₊
    if 64 ≤ log2 then .error .shiftTooLarge
    else
      let pow2 := 2 ^ log2
      .ok (if w = 64 then pow2 else min pow2 (2 ^ w - 1 + 1))

/-- Loop body of `bin_data_for_chi2`, chi2.h:34-39, with binary64 rounding: the bin a value falls in.  `bins` is the number of
bins (`bins.size() - 1` wraps for no bins, but then any index is out of bounds). -/
def chi2BinIndex {w : Nat} (bins : Nat) (x : BitVec w) : R Nat := do
  let v := rescaleTypeTo01 x
  let index ← toU64 (Fl.mul (Fl.ofNat bins) v)
  .ok (min (bins - 1) index.toNat)

/-- `bin_data_for_chi2`, chi2.h:30-41, with binary64 rounding, for a given number of bins. -/
def binDataForChi2 {w : Nat} (bins : Nat) (data : List (BitVec w)) : R (List (BitVec 64)) :=
  data.foldlM (fun counts x => do
    let i ← chi2BinIndex bins x
    incrAt counts i) (List.replicate bins 0#64)

/-- `chi2_uniform_stats`, chi2.h:66-71, with `create_bin_count_pow2<T>` as in `uniform_test`, uniform.h:6-12: binning on
doubles, statistic in exact arithmetic. -/
noncomputable def uniformStats {w : Nat} (cdf : ℝ → ℝ → ℝ) (data : List (BitVec w)) : R (Option (Statistic ℝ)) := do
  let bins ← binCountPow2 w data.length
  let counts ← binDataForChi2 bins data
  let expected : ℝ := (data.length : ℝ) / (counts.length : ℝ)
  .ok (chi2Stats cdf counts.length (toData counts) (fun _ => expected) 0)

/-- State of the loop of `merge_bins`: merged observed, merged expected, running sums. -/
structure MergeState where
  observed : List (BitVec 64)
  expected : List ℝ
  observedSum : BitVec 64
  expectedSum : ℝ

/-- Loop body of `merge_bins`, algo.h:164-173. -/
noncomputable def mergeStep (threshold : ℝ) (st : MergeState) (oe : BitVec 64 × ℝ) : MergeState :=
  let e := st.expectedSum + oe.2
  let o := st.observedSum + oe.1
  if e ≥ threshold then ⟨st.observed ++ [o], st.expected ++ [e], 0#64, 0⟩ else { st with observedSum := o, expectedSum := e }

/-- `v.back() += x`. -/
def addBack {α : Type} [Add α] (l : List α) (x : α) : List α :=
  match l.getLast? with
  | some y => l.dropLast ++ [y + x]
  | none => l

/-- `merge_bins`, algo.h:155-180.  Reading past a shorter vector of expectations is undefined behaviour. -/
noncomputable def mergeBins (observed : List (BitVec 64)) (expected : List ℝ) (threshold : ℝ) : R (List (BitVec 64) × List ℝ) :=
  if expected.length < observed.length then .error .oobIndex
  else
    let st := (observed.zip expected).foldl (mergeStep threshold) ⟨[], [], 0#64, 0⟩
    if st.expected = [] then .ok (st.observed, st.expected)
    else .ok (addBack st.observed st.observedSum, addBack st.expected st.expectedSum)

/-! ### kolmogorov.h -/

open Classical in
/-- `std::sort` of doubles.  (Without NaN the sorted sequence is unique.) -/
noncomputable def sortReals (l : List ℝ) : List ℝ := l.mergeSort (fun a b => decide (a ≤ b))

/-- The loop of `kolmogorov_smirnov_stats`, kolmogorov.h:13-20, on sorted data. -/
noncomputable def ksDistance (sorted : List ℝ) : ℝ :=
  let n : ℝ := sorted.length
  (sorted.zipIdx).foldl (fun m (di : ℝ × Nat) =>
    let e0 := (di.2 : ℝ) / n
    let e1 := ((di.2 : ℝ) + 1) / n
    max (max |e0 - di.1| |e1 - di.1|) m) 0

/-- `kolmogorov_smirnov_stats`, kolmogorov.h:10-23, for non-empty data (for empty data the C++ p-value is NaN). -/
noncomputable def kolmogorovSmirnovStats (data : List ℝ) : Statistic ℝ :=
  let D := ksDistance (sortReals data)
  ⟨.kolmogorovSmirnovD, D, kolmogorovSmirnovCdf D data.length 100, data.length⟩

/-! ### correlation.h -/

/-- `adjust_correlation`, correlation.h:16-22. -/
noncomputable def adjustCorrelation (d : ℝ) : ℝ :=
  if d ≥ -1 ∧ d ≤ 1 then d
  else if isNearR d (-1) then -1
  else if isNearR d 1 then 1
  else d

/-- `fishers_transformation_safe`, core/src/util/math.h:47-57. -/
noncomputable def fishersTransformationSafe (x : ℝ) : ℝ :=
  let a : ℝ := 1 / 10 ^ 16
  let x := if isNearR x (-1) then -1 + a else if isNearR x 1 then 1 - a else x
  Real.artanh x

/-- `pearson_correlation_stats`, correlation.h:29-63.  Elements of `ys` beyond the length of `xs` are not read. -/
noncomputable def pearsonStats (xs ys : List ℝ) (zAdjustment : ℝ := 1) : R (Option (Statistic ℝ)) :=
  let n := xs.length
  if n < 3 then .ok none
  else if ys.length < n then .error .oobIndex
  else
    let xy := xs.zip ys
    let m := xy.foldl (fun (a : ℝ × ℝ) p => (a.1 + p.1, a.2 + p.2)) (0, 0)
    let xMean := m.1 / (n : ℝ)
    let yMean := m.2 / (n : ℝ)
    let s := xy.foldl (fun (a : ℝ × ℝ × ℝ) p =>
      let xDev := p.1 - xMean
      let yDev := p.2 - yMean
      (a.1 + xDev * xDev, a.2.1 + yDev * yDev, a.2.2 + xDev * yDev)) (0, 0, 0)
    if isNearR s.1 0 ∨ isNearR s.2.1 0 then .ok (some ⟨.zScore, 0, 1, (n : ℝ)⟩)
    else
      let r := adjustCorrelation (s.2.2 / (Real.sqrt s.1 * Real.sqrt s.2.1))
      let mean := fishersTransformationSafe r
      let z := mean * Real.sqrt (((n - 3 : Nat) : ℝ) / zAdjustment)
      .ok (some ⟨.zScore, z, normalTwoTailedCdf z, (n : ℝ)⟩)

/-- State of the loops of `kendall_correlation_stats`: n1, n2, is.  Simplification: unbounded integers (the number of pairs of
an addressable vector of doubles fits 64 bits). -/
structure KendallState where
  n1 : Nat
  n2 : Nat
  is : Int

/-- Inner loop body of `kendall_correlation_stats`, correlation.h:83-95. -/
noncomputable def kendallStep (x y : Nat → ℝ) (st : KendallState) (j k : Nat) : KendallState :=
  let diffX := x j - x k
  let diffY := y j - y k
  let xy := diffX * diffY
  if xy ≠ 0 then ⟨st.n1 + 1, st.n2 + 1, if xy > 0 then st.is + 1 else st.is - 1⟩
  else ⟨if diffX ≠ 0 then st.n1 + 1 else st.n1, if diffY ≠ 0 then st.n2 + 1 else st.n2, st.is⟩

/-- `kendall_correlation_stats`, correlation.h:73-107. -/
noncomputable def kendallStats (xs ys : List ℝ) : R (Option (Statistic ℝ)) :=
  let n := xs.length
  if n < 2 then .ok none
  else if ys.length < n then .error .oobIndex
  else
    let x := fun i => xs.getD i 0
    let y := fun i => ys.getD i 0
    let st := (List.range (n - 1)).foldl (fun st j =>
      (List.range' (j + 1) (n - (j + 1))).foldl (fun st k => kendallStep x y st j k) st) ⟨0, 0, 0⟩
    if st.n1 = 0 ∨ st.n2 = 0 then .ok none
    else
      let tau := adjustCorrelation ((st.is : ℝ) / (Real.sqrt st.n1 * Real.sqrt st.n2))
      let var := (4 * (n : ℝ) + 10) / (9 * (n : ℝ) * ((n : ℝ) - 1))
      let z := tau / Real.sqrt var
      .ok (some ⟨.zScore, z, normalTwoTailedCdf z, (n : ℝ)⟩)

/-- `get_ranks(vec, <)`, algo.h:20-27: `std::sort` of the index vector 0, 1, ... by `vec[i] < vec[j]`.  `std::sort` may put
equal elements in any order, so this is a relation: the result is some permutation of the indices along which no later
element is smaller. -/
def GetRanks (vec : List ℝ) (p : List Nat) : Prop :=
  p.Perm (List.range vec.length) ∧ p.Pairwise (fun i j => ¬ vec.getD j 0 < vec.getD i 0)

/-- `rescale_to_01(x, x_min, x_max)`, core/src/util/math.h:28-32. -/
noncomputable def rescaleTo01 (x xMin xMax : ℝ) : ℝ :=
  if isNearR xMin xMax then 1 / 2 else (x - xMin) / (xMax - xMin)

/-- `rescale_to_01(vector)`, algo.h:59-76, for `size_t` elements. -/
noncomputable def rescaleVecTo01 (p : List Nat) : List ℝ :=
  p.map fun (v : Nat) => rescaleTo01 (v : ℝ) (p.min?.getD 0 : Nat) (p.max?.getD 0 : Nat)

/-- `spearman_correlation_stats`, correlation.h:65-71: the possible results. -/
def SpearmanStats (xs ys : List ℝ) (r : R (Option (Statistic ℝ))) : Prop :=
  ∃ p q, GetRanks xs p ∧ GetRanks ys q ∧ r = pearsonStats (rescaleVecTo01 p) (rescaleVecTo01 q) (106 / 100)

end TFR
