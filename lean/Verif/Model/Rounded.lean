import Verif.Model.Float
import Verif.Model.RealStats
import Verif.Model.TestSuite
/-
Statistics with binary64 rounding of every operation (`Fl`), next to the exact models of Model/RealStats and Model/TestSuite:
chi2.h, basic.h, tests.h, run.h, kolmogorov.h.  Only the value of the statistic (and the degrees of freedom) is computed here, not the
p-value.  `std::sqrt` is a parameter `sqrtD`; IEEE 754 requires it to be correctly rounded, which is more than the theorems ask of it.
-/
namespace TFR

/-- What the theorems ask of `std::sqrt`: a relative error of at most 2^-53 (IEEE 754 guarantees it). -/
def SqrtOk (sqrtD : ℚ → ℚ) : Prop := ∀ x : ℚ, 0 ≤ x → 0 ≤ sqrtD x ∧ |((sqrtD x : ℚ) : ℝ) - Real.sqrt (x : ℝ)| ≤ Real.sqrt (x : ℝ) / 2 ^ 53

/-- Loop body of `chi2_stats`, chi2.h:47-53, on doubles; `observed`, `expected` return doubles. -/
def chi2StepFl (observed expected : Nat → ℚ) (threshold : ℚ) (st : ℚ × ℚ) (i : Nat) : ℚ × ℚ :=
  let e := expected i
  if e ≤ threshold then st
  else
    let diff := Fl.sub (observed i) e
    (Fl.add st.1 (Fl.div (Fl.mul diff diff) e), Fl.add st.2 1)

/-- `chi2_stats`, chi2.h:43-60, on doubles: the value and the degrees of freedom. -/
def chi2StatsFl (n : Nat) (observed expected : Nat → ℚ) (threshold : ℚ) : Option (ℚ × ℚ) :=
  let st := (List.range n).foldl (chi2StepFl observed expected threshold) (0, 0)
  let df := max (Fl.sub st.2 1) 0
  if isNear df 0 (Fl.rnd (1 / 10 ^ 6)) then none else some (st.1, df)

/-- `chi2_uniform_stats`, chi2.h:66-71, on doubles (`uniform_test`, uniform.h:6-12).  The number of bins is that of the exact model. -/
noncomputable def uniformStatsFl {w : Nat} (data : List (BitVec w)) : R (Option (ℚ × ℚ)) := do
  let bins ← binCountPow2 w data.length
  let counts ← binDataForChi2 bins data
  let expected : ℚ := Fl.div (Fl.ofNat data.length) (Fl.ofNat counts.length)
  .ok (chi2StatsFl counts.length (fun i => Fl.ofNat (counts.getD i 0#64).toNat) (fun _ => expected) 0)

/-- `z_test`, tests.h:26-36, on doubles: the z-score. -/
def zTestFl (sqrtD : ℚ → ℚ) (n mean populationMean populationVariance : ℚ) : Option ℚ :=
  if isNear populationVariance 0 (Fl.rnd (1 / 10 ^ 6)) then none
  else if isNear n 0 (Fl.rnd (1 / 10 ^ 6)) then none
  else
    let se := sqrtD (Fl.div populationVariance n)
    some (Fl.div (Fl.sub mean populationMean) se)

/-- `get_mean_rescale_01`, basic.h:30-37, on doubles. -/
def meanRescale01Fl {w : Nat} (data : List (BitVec w)) : ℚ :=
  Fl.div (data.foldl (fun sum v => Fl.add sum (rescaleTypeTo01 v)) 0) (Fl.ofNat data.length)

/-- `mean_test`, basic.h:65-71, on doubles: the z-score. -/
def meanTestFl {w : Nat} (sqrtD : ℚ → ℚ) (n : BitVec 64) (s : Stream (BitVec w)) : Option ℚ :=
  zTestFl sqrtD (Fl.ofNat n.toNat) (meanRescale01Fl (s.take n.toNat)) (1 / 2) (Fl.div 1 12)

/-- `runs_stats`, run.h:41-52, on doubles: the z-score. -/
def runsStatsFl (sqrtD : ℚ → ℚ) (s : RunsData) : Option ℚ :=
  let nPlus := Fl.ofNat s.nPlus.toNat
  let nMinus := Fl.ofNat s.nMinus.toNat
  let n := Fl.add nPlus nMinus
  if isNear n 0 (Fl.rnd (1 / 10 ^ 6)) then none
  else
    let mean := Fl.add (Fl.div (Fl.mul (Fl.mul 2 nPlus) nMinus) n) 1
    let variance := Fl.mul (Fl.sub mean 1) (Fl.sub mean 2)
    zTestFl sqrtD n (Fl.ofNat s.runs.toNat) mean variance

/-- `runs_test`, run.h:54-59, on doubles. -/
def runsTestFl {w : Nat} (sqrtD : ℚ → ℚ) (n : BitVec 64) (s : Stream (BitVec w)) : Option ℚ :=
  runsStatsFl sqrtD (generateRunsData (s.take n.toNat) (BitVec.ofNat w ((2 ^ w - 1) / 2)))

/-- The loop of `kolmogorov_smirnov_stats`, kolmogorov.h:13-20, on sorted doubles. -/
def ksDistanceFl (sorted : List ℚ) : ℚ :=
  let n := Fl.ofNat sorted.length
  (sorted.zipIdx).foldl (fun m (di : ℚ × Nat) =>
    let e0 := Fl.div (Fl.ofNat di.2) n
    let e1 := Fl.div (Fl.ofNat (di.2 + 1)) n
    max (max |Fl.sub e0 di.1| |Fl.sub e1 di.1|) m) 0

end TFR
