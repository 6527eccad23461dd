import Verif.Model.Gamma
import Verif.Model.Float
import Verif.Model.TestSuite
import Mathlib.Data.EReal.Operations
/-
The rest of core/src/statistics/distributions.{h,cpp} and tests.h: the incomplete beta function and what is built on it, the beta
function, real binomial coefficients, `kolmogorov_smirnov`, and the harmonic numbers of core/src/util/math.h.  Exact arithmetic with
`INFINITY` as `⊤`, except for `betaArgumentsFl`, the recursion of `beta_regularized` in `double`.
-/
namespace TFR

/-- The numerators of the continued fraction, distributions.cpp:31-42. -/
def betaNumerator {K : Type} [Field K] (a b x : K) (i : Nat) : K :=
  let m : Nat := i / 2
  if i = 0 then 1
  else if i % 2 = 0 then ((m : K) * (b - m) * x) / ((a + 2 * m - 1) * (a + 2 * m))
  else -((a + m) * (a + b + m) * x) / ((a + 2 * m) * (a + 2 * m + 1))

/-- The loop of `beta_regularized`, distributions.cpp:30-60, for any ordered field (so that it can be evaluated over the rationals):
`rounds` rounds are left, `i` is the loop variable.  `none` when the rounds are used up without convergence. -/
def betaLentz {K : Type} [Field K] [LinearOrder K] (a b x : K) : (rounds i : Nat) → (f c d : K) → Option K
  | 0, _, _, _, _ => none
  | rounds + 1, i, f, c, d =>
    let numerator := betaNumerator a b x i
    let d := 1 + numerator * d
    let d := if |d| < 1 / 10 ^ 30 then 1 / 10 ^ 30 else d
    let d := 1 / d
    let c := 1 + numerator / c
    let c := if |c| < 1 / 10 ^ 30 then 1 / 10 ^ 30 else c
    let cd := c * d
    let f := f * cd
    if |1 - cd| < 1 / 10 ^ 8 then some f else betaLentz a b x rounds (i + 1) f c d

/-- `front`, distributions.cpp:23-25, for `a > 0` and `x < 1`; for `x = 0` the logarithm is minus infinity and its exponential 0. -/
noncomputable def betaFront (a b x : ℝ) : ℝ :=
  if x = 0 then 0
  else
    let lbetaAb := logGamma a + logGamma b - logGamma (a + b)
    Real.exp (Real.log x * a + Real.log (1 - x) * b - lbetaAb) / a

/-- The part of `beta_regularized` after the recursion, distributions.cpp:22-62. -/
noncomputable def betaFraction (a b x : ℝ) : EReal :=
  match betaLentz a b x 201 0 1 1 0 with
  | some f => ((betaFront a b x * (f - 1) : ℝ) : EReal)
  | none => ⊤

/-- `beta_regularized`, distributions.cpp:10-63; `none` for an evaluation that does not end. -/
noncomputable def betaRegularized (a b x : ℝ) : Option EReal :=
  if x < 0 ∨ 1 < x then some ⊤
  else if (a + 1) / (a + b + 2) < x then do
    let r ← betaRegularized b a (1 - x)
    some (1 - r)
  else some (betaFraction a b x)
partial_fixpoint

/-- The recursion of `beta_regularized` in `double`, distributions.cpp:16-20: the arguments with which the continued fraction is
evaluated, `none` if there are more than `calls` nested calls. -/
def betaArgumentsFl : (calls : Nat) → (a b x : ℚ) → Option (ℚ × ℚ × ℚ)
  | 0, _, _, _ => none
  | calls + 1, a, b, x =>
    if Fl.div (Fl.add a 1) (Fl.add (Fl.add a b) 2) < x then betaArgumentsFl calls b a (Fl.sub 1 x) else some (a, b, x)

/-- `student_t_cdf`, distributions.h:19-23. -/
noncomputable def studentTCdf (t df : ℝ) : Option EReal := betaRegularized (1 / 2 * df) (1 / 2) (df / (df + t * t))

/-- `f_distribution_cdf`, distributions.h:25-29. -/
noncomputable def fDistributionCdf (f d1 d2 : ℝ) : Option EReal := betaRegularized (1 / 2 * d1) (1 / 2 * d2) (d1 * f / (d1 * f + d2))

/-- `t_test`, tests.h:11-18, for a positive pooled variance. -/
noncomputable def tTest (aN aMean aVariance bN bMean bVariance : ℝ) : Option EReal :=
  let df := aN + bN - 2
  let var := ((aN - 1) * aVariance + (bN - 1) * bVariance) / df
  let t := (aMean - bMean) / Real.sqrt (var * (1 / aN + 1 / bN))
  studentTCdf t df

open Classical in
/-- `f_test`, tests.h:38-45, for positive variances. -/
noncomputable def fTest (aN aVariance bN bVariance : ℝ) : Option EReal :=
  let aNom : Bool := decide (aVariance > bVariance)
  let f := if aNom then aVariance / bVariance else bVariance / aVariance
  let df1 := (if aNom then aN else bN) - 1
  let df2 := (if aNom then bN else aN) - 1
  let x := df2 / (df2 + df1 * f)
  (betaRegularized (1 / 2 * df2) (1 / 2 * df1) x).map fun r => 2 * r

/-- `correlation_student_p_value`, correlation.h:24-27. -/
noncomputable def correlationStudentPValue (r n : ℝ) : Option EReal := studentTCdf |r * Real.sqrt ((n - 2) / (1 - r * r))| (n - 2)

/-- `beta`, distributions.h:46-49. -/
noncomputable def betaFunction (a b : ℝ) : ℝ := Real.exp (logGamma a + logGamma b - logGamma (a + b))

/-- `binomial_coefficient_reals`, distributions.h:51-55. -/
noncomputable def binomialCoefficientReals (n k : ℝ) : ℝ := 1 / ((n + 1) * betaFunction (n - k + 1) (k + 1))

/-- `kolmogorov_smirnov`, distributions.h:93-108, with the exact number π. -/
noncomputable def kolmogorovSmirnovLaw (D df : ℝ) : ℝ :=
  let x := Real.sqrt df * D
  let x := x + 1 / (6 * Real.sqrt df) + (x - 1) / (4 * df)
  let cx := Real.pi ^ 2 / 8 / (x * x)
  let sum := (List.range 1000).foldl (fun sum j =>
    let k : Nat := j + 1
    let t : ℝ := ((2 * k - 1 : Nat) : ℝ)
    let t := t * t
    let t := t * cx
    sum + Real.exp (-t)) 0
  sum * (Real.sqrt (2 * Real.pi) / x)

/-- `constants::EulerGamma`, core/src/util/math.h:11, to twenty digits. -/
noncomputable def eulerGamma : ℝ := 57721566490153286061 / 10 ^ 20

/-- `harmonic_asymptotic`, core/src/util/math.h:76-78. -/
noncomputable def harmonicAsymptotic (n : ℝ) : ℝ := Real.log n + eulerGamma + 1 / (2 * n)

/-- `expected_draws_per_coupon`, core/src/statistics/coupon.h:53-59. -/
noncomputable def expectedDrawsPerCoupon (wanted : Nat) : ℝ :=
  if wanted < 1024 then (wanted : ℝ) * ((harmonicQ wanted : ℚ) : ℝ) else (wanted : ℝ) * harmonicAsymptotic wanted

end TFR
