import Verif.Model.RealStats
/-
The p-values of chi-square statistics: core/src/statistics/distributions.{h,cpp} (incomplete gamma function) and `log_gamma` of
core/src/util/math.cpp.  Exact arithmetic, with the constants of the code; `std::log`, `std::exp` and `std::sqrt` are taken as
exact.
-/
namespace TFR

/-- `log_gamma`, core/src/util/math.cpp:5-20, with the constants as written (not rounded to binary64). -/
noncomputable def logGamma (z : ℝ) : ℝ :=
  let x : ℝ := 0
  let x := x + 1659470187408462 / 10 ^ 22 / (z + 7)
  let x := x + 9934937113930748 / 10 ^ 21 / (z + 6)
  let x := x - 1385710331296526 / 10 ^ 16 / (z + 5)
  let x := x + 1250734324009056 / 10 ^ 14 / (z + 4)
  let x := x - 1766150291498386 / 10 ^ 13 / (z + 3)
  let x := x + 7713234287757674 / 10 ^ 13 / (z + 2)
  let x := x - 1259139216722289 / 10 ^ 12 / (z + 1)
  let x := x + 6765203681218835 / 10 ^ 13 / z
  let x := x + 9999999999995183 / 10 ^ 16
  Real.log x - 558106146679532777 / 10 ^ 17 - z + (z - 1 / 2) * Real.log (z + 13 / 2)

/-- `KF_GAMMA_EPS`, distributions.cpp:65. -/
noncomputable def kfGammaEps : ℝ := 1 / 10 ^ 14

/-- `KF_TINY`, distributions.cpp:66. -/
noncomputable def kfTiny : ℝ := 1 / 10 ^ 290

/-- `MAX_ITERATIONS`, distributions.cpp:67. -/
def kfMaxIterations : Nat := 10000

/-- The loop of `_kf_gammap`, distributions.cpp:73-76: at most `fuel` more rounds, the next one with index `k`; returns the
value of `k` and `sum` after the loop. -/
noncomputable def gammapLoop (s z : ℝ) : (fuel k : Nat) → (sum x : ℝ) → Nat × ℝ
  | 0, k, sum, _ => (k, sum)
  | fuel + 1, k, sum, x =>
    let x := x * (z / (s + (k : ℝ)))
    let sum := sum + x
    if x / sum < kfGammaEps then (k, sum) else gammapLoop s z fuel (k + 1) sum x

/-- `_kf_gammap`, distributions.cpp:70-78.  For `z = 0` the logarithm is minus infinity and the result zero (`s > 0`). -/
noncomputable def kfGammapSeries (s z : ℝ) : ℝ :=
  let sum := (gammapLoop s z (kfMaxIterations - 1) 1 1 1).2
  if z = 0 then 0
  else Real.exp (s * Real.log z - z - logGamma (s + 1) + Real.log sum)

/-- `C`, `D` and `f` of `_kf_gammaq`. -/
structure Lentz where
  C : ℝ
  D : ℝ
  f : ℝ

open Classical in
/-- Loop body of `_kf_gammaq`, distributions.cpp:90-97: the new state and `d`. -/
noncomputable def lentzStep (s z : ℝ) (j : Nat) (st : Lentz) : Lentz × ℝ :=
  let a := (j : ℝ) * (s - (j : ℝ))
  let b := ((2 * j : Nat) : ℝ) + 1 + z - s
  let D := b + a * st.D
  let D := if D < kfTiny then kfTiny else D
  let C := b + a / st.C
  let C := if C < kfTiny then kfTiny else C
  let D := 1 / D
  let d := C * D
  (⟨C, D, st.f * d⟩, d)

/-- The loop of `_kf_gammaq`, distributions.cpp:89-99: at most `fuel` more rounds, the next one with index `j`; returns the
value of `j` and `f` after the loop. -/
noncomputable def gammaqLoop (s z : ℝ) : (fuel j : Nat) → Lentz → Nat × ℝ
  | 0, j, st => (j, st.f)
  | fuel + 1, j, st =>
    let r := lentzStep s z j st
    if |r.2 - 1| < kfGammaEps then (j, r.1.f) else gammaqLoop s z fuel (j + 1) r.1

/-- `f`, `C`, `D` before the loop of `_kf_gammaq`, distributions.cpp:84-86. -/
noncomputable def lentzStart (s z : ℝ) : Lentz := ⟨1 + z - s, 0, 1 + z - s⟩

/-- `_kf_gammaq`, distributions.cpp:81-101. -/
noncomputable def kfGammaqFraction (s z : ℝ) : ℝ :=
  let f := (gammaqLoop s z (kfMaxIterations - 1) 1 (lentzStart s z)).2
  Real.exp (s * Real.log z - z - logGamma s - Real.log f)

open Classical in
/-- `kf_gammap`, distributions.cpp:103-105. -/
noncomputable def kfGammap (s z : ℝ) : ℝ := if z ≤ 1 ∨ z < s then kfGammapSeries s z else 1 - kfGammaqFraction s z

/-- `gamma_regularized`, distributions.cpp:111-116. -/
noncomputable def gammaRegularized (s z : ℝ) : ℝ := if isNearR s 0 ∧ isNearR z 0 then 0 else 1 - kfGammap s z

/-- `chi2_distribution_normal_approximation_cdf`, distributions.h:31-33. -/
noncomputable def chi2NormalApproximation (chi2 df : ℝ) : ℝ := 1 - normalCdf (Real.sqrt (2 * chi2) - Real.sqrt (2 * df - 1))

open Classical in
/-- `chi2_distribution_cdf`, distributions.h:35-44. -/
noncomputable def chi2DistributionCdf (chi2 df : ℝ) : ℝ :=
  if isNearR df 0 then 0
  else if df ≥ 1100000 then chi2NormalApproximation chi2 df
  else gammaRegularized (1 / 2 * df) (1 / 2 * chi2)

end TFR
