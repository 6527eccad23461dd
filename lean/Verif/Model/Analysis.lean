import Verif.Model.Results
import Verif.Model.RealStats
import Mathlib.Analysis.SpecialFunctions.Log.Base
/-
core/src/util/statistic_analysis.h and the decisions of core/src/format_result.h (what is shown, which tests are
listed as failed, the verdict).  p-values are exact reals; NaN is outside the model.  `std::sort` is not stable and may leave
elements that compare equal in any order: it is modelled by the relation "a sorted permutation".
-/
namespace TFR

/-- `get_comparable_p_value`, statistic_analysis.h:28-33. -/
noncomputable def comparableP (s : Statistic ℝ) : ℝ :=
  if s.type = .zScore then s.pValue else min s.pValue (1 - s.pValue)

/-- The loop of `get_worst_result`, statistic_analysis.h:35-42. -/
noncomputable def worstLoop (worst : Option (TestResult ℝ)) : List (TestResult ℝ) → Option (TestResult ℝ)
  | [] => worst
  | tr :: rest =>
    match worst with
    | none => worstLoop (some tr) rest
    | some x => if comparableP tr.stats < comparableP x.stats then worstLoop (some tr) rest else worstLoop (some x) rest

/-- `get_worst_result`, statistic_analysis.h:35-44; dereferencing the empty optional is undefined. -/
noncomputable def getWorstResult (rs : List (TestResult ℝ)) : R (TestResult ℝ) :=
  match worstLoop none rs with
  | some r => .ok r
  | none => .error .emptyDeref

/-- `statistic_analysis::get_failure_strength`, statistic_analysis.h:63-71: the cast to `unsigned int` truncates. -/
noncomputable def failureStrength (s : Statistic ℝ) : Nat :=
  let p := comparableP s
  if p < 1 / 10 ^ 10 then 10 else ⌊|Real.logb 10 p|⌋₊

/-- `has_remark`, `has_suspicion`, `pass`, statistic_analysis.h:51-61. -/
noncomputable def hasRemark (s : Statistic ℝ) : Bool := decide (failureStrength s > 0)
/-- statistic_analysis.h:55-57. -/
noncomputable def hasSuspicion (s : Statistic ℝ) : Bool := decide (failureStrength s > 4)
/-- statistic_analysis.h:59-61. -/
noncomputable def statPass (s : Statistic ℝ) : Bool := decide (failureStrength s < 9)

/-- The strings of `statistic_analysis::to_string`, statistic_analysis.h:74-86. -/
def strengthLabels : List String := ["no remarks", "minor(1)", "minor(2)", "minor(3)", "minor(4)", "suspicious(5)", "suspicious(6)",
  "very suspicious(7)", "very suspicious(8)", "failure(9)", "failure(10)"]

/-- `statistic_analysis::to_string`, statistic_analysis.h:73-88. -/
noncomputable def strengthLabel (s : Statistic ℝ) : R String :=
  match strengthLabels[failureStrength s]? with
  | some l => .ok l
  | none => .error .oobIndex

/-- `result_analysis::type`, statistic_analysis.h:122. -/
inductive AnalysisType where
  | sample | metaOf
  deriving DecidableEq

/-- `struct result_analysis`, statistic_analysis.h:121-128. -/
structure ResultAnalysis where
  type : AnalysisType
  streamName : String
  key : TestKey
  stat : Statistic ℝ
  results : List (TestResult ℝ)

/-- `result_analysis::operator<`, statistic_analysis.h:135-137. -/
def ResultAnalysis.lt (a b : ResultAnalysis) : Prop := comparableP a.stat < comparableP b.stat

/-- `std::sort`: any permutation without a pair that is out of order. -/
def SortOf (input output : List ResultAnalysis) : Prop := output.Perm input ∧ output.Pairwise fun a b => ¬ b.lt a

/-- The entries pushed for one key, statistic_analysis.h:143-148.  The meta analysis dereferences the statistic of
`kolmogorov_smirnov_stats`, which is always present. -/
noncomputable def analysisEntries (e : TestKey × List (TestResult ℝ)) : R (List ResultAnalysis) := do
  let worst ← getWorstResult e.2
  .ok [⟨.sample, worst.streamName, e.1, worst.stats, e.2⟩,
    ⟨.metaOf, "meta analysis over " ++ toString e.2.length ++ " samples", e.1,
      kolmogorovSmirnovStats (e.2.map fun r => r.stats.pValue), e.2⟩]

/-- The loop of `get_analysis`, statistic_analysis.h:142-149. -/
noncomputable def analysisLoop : ResultMap ℝ → List ResultAnalysis → R (List ResultAnalysis)
  | [], ras => .ok ras
  | e :: rest, ras => do analysisLoop rest (ras ++ (← analysisEntries e))

/-- `get_analysis`, statistic_analysis.h:140-152. -/
def GetAnalysis (b : Battery ℝ) (ras : List ResultAnalysis) : Prop :=
  ∃ unsorted, analysisLoop b.results [] = .ok unsorted ∧ SortOf unsorted ras

/-- `get_worst_statistic_analysis`, statistic_analysis.h:154-160. -/
def GetWorstStatistic (b : Battery ℝ) (s : Option (Statistic ℝ)) : Prop :=
  ∃ ras, GetAnalysis b ras ∧ s = ras.head?.map ResultAnalysis.stat

/-! #### format_result.h -/

/-- `per_test[e.test_id.type].push_back(e)`, format_result.h:45-48, on an association list in the order of the map. -/
def typePush (r : ResultAnalysis) : List (TestType × List ResultAnalysis) → List (TestType × List ResultAnalysis)
  | [] => [(r.key.type, [r])]
  | (t, rs) :: rest =>
    if t.val < r.key.type.val then (t, rs) :: typePush r rest
    else if r.key.type.val < t.val then (r.key.type, [r]) :: (t, rs) :: rest
    else (t, rs ++ [r]) :: rest

/-- The loop of `filter_to_show` over the analyses of one test, format_result.h:57-67. -/
noncomputable def showLoop (showing added : Nat) : List ResultAnalysis → List ResultAnalysis
  | [] => []
  | m :: rest =>
    let susp := hasSuspicion m.stat
    let added := if susp then added + 1 else added
    (if susp then [m] else []) ++ if added = showing then [] else showLoop showing added rest

/-- The part of `filter_to_show` for one test, format_result.h:51-68; `ras.front()` of an empty vector is undefined, but the vectors
of the map are never empty. -/
noncomputable def showForTest (ras : List ResultAnalysis) : R (List ResultAnalysis) :=
  match ras with
  | [] => .error .emptyDeref
  | worst :: _ =>
    let suspicious := ras.countP fun r => hasSuspicion r.stat
    let showing := min suspicious 3
    .ok (if hasSuspicion worst.stat then showLoop showing 0 ras else [])

/-- The loop of `filter_to_show` over the map, format_result.h:50-68. -/
noncomputable def showAll : List (TestType × List ResultAnalysis) → R (List ResultAnalysis)
  | [] => .ok []
  | e :: rest => do .ok ((← showForTest e.2) ++ (← showAll rest))

/-- `filter_to_show`, format_result.h:42-72. -/
def FilterToShow (results shown : List ResultAnalysis) : Prop :=
  ∃ sorted toShow, SortOf results sorted ∧ showAll (sorted.foldl (fun m r => typePush r m) []) = .ok toShow ∧ SortOf toShow shown

/-- `std::set<std::string>::insert`. -/
def setInsert (x : String) : List String → List String
  | [] => [x]
  | y :: rest => if strLt y.toList x.toList then y :: setInsert x rest else if strLt x.toList y.toList then x :: y :: rest else y :: rest

/-- `get_failed_tests`, format_result.h:82-109. -/
noncomputable def getFailedTests (ras : List ResultAnalysis) : List String :=
  let names := ras.foldl (fun names ra =>
    if statPass ra.stat then names else if ra.type = .metaOf then names else setInsert ra.key.toStr names) []
  ras.foldl (fun result ra =>
    if statPass ra.stat then result
    else if ra.type ≠ .metaOf then result
    else if ra.key.toStr ∈ names then result
    else result ++ [ra.key.toStr ++ "*"]) names

/-- The last line printed by `print_battery_result`, format_result.h:132-144. -/
inductive Verdict where
  | inconclusive
  | passed (failures suspicious : Int)
  | failed (failures suspicious : Int)
  deriving DecidableEq

/-- `print_battery_result`, format_result.h:111-145, the verdict. -/
noncomputable def verdictOf (b : Battery ℝ) (ras : List ResultAnalysis) : R Verdict :=
  if b.results.isEmpty then .ok .inconclusive
  else
    let failures : Int := ras.countP fun r => !statPass r.stat
    let suspicious : Int := (ras.countP fun r => hasSuspicion r.stat) - failures
    match ras with
    | [] => .error .emptyDeref
    | ra :: _ => .ok (if statPass ra.stat then .passed failures suspicious else .failed failures suspicious)

/-- What `print_battery_result` reports for a battery. -/
def PrintedVerdict (b : Battery ℝ) (v : R Verdict) : Prop := ∃ ras, GetAnalysis b ras ∧ v = verdictOf b ras

end TFR
