import Verif.Model.Analysis
import Verif.Model.Files
import Verif.Model.Text
import Verif.Model.Budget
import Mathlib.Data.Int.Log
/-
What the tool prints: `p_value_to_string` (core/src/util/statistic_analysis.h:103-117), `draw_histogram` and `print_battery_result`
(core/src/format_result.h).  Numbers are written with `std::ostream << double` in its default state, which the standard
defines by `printf("%g")`: six significant digits.
-/
namespace TFR

section
variable {K : Type} [Field K] [LinearOrder K] [FloorRing K]

/-- Rounding a non-negative number to an integer, ties to even, as `printf` does. -/
def roundHalfEven (x : K) : Nat :=
  let f := ⌊x⌋₊
  let r := x - (f : K)
  if r < 1 / 2 then f else if 1 / 2 < r then f + 1 else if f % 2 = 0 then f else f + 1

/-- `%.5e`: the six digits `m` and the exponent `e` of a positive number, which stand for `m * 10^(e-5)`. -/
def scientific (x : K) : Nat × Int :=
  let e := Int.log 10 x
  let m := roundHalfEven (x / 10 ^ (e - 5))
  if m = 1000000 then (100000, e + 1) else (m, e)

end

/-- The six decimal digits of a number below 10^6. -/
def sixDigits (m : Nat) : List Char := [5, 4, 3, 2, 1, 0].map fun i => Nat.digitChar (m / 10 ^ i % 10)

/-- Digits before and after the decimal point; `%g` removes trailing zeros, and the point if nothing is left behind it. -/
def withPoint (whole frac : List Char) : List Char :=
  match (frac.reverse.dropWhile (· = '0')).reverse with
  | [] => whole
  | f => whole ++ '.' :: f

/-- The exponent of style `e`: a sign and at least two digits. -/
def exponentText (e : Int) : List Char :=
  (if e < 0 then '-' else '+') :: (if e.natAbs < 10 then ['0'] else []) ++ Nat.toDigits 10 e.natAbs

/-- `%g` from the digits and the exponent of style `e`: style `f` for exponents from -4 to 5. -/
def generalText (m : Nat) (e : Int) : List Char :=
  let ds := sixDigits m
  if -4 ≤ e ∧ e < 6 then
    if 0 ≤ e then withPoint (ds.take (e.toNat + 1)) (ds.drop (e.toNat + 1))
    else withPoint ['0'] (List.replicate ((-e).toNat - 1) '0' ++ ds)
  else withPoint (ds.take 1) (ds.drop 1) ++ 'e' :: exponentText e

section
variable {K : Type} [Field K] [LinearOrder K] [FloorRing K]

/-- `std::ostream << double` in its default state, for finite values.  (Not modelled: negative zero.) -/
def formatDouble (x : K) : List Char :=
  if x = 0 then ['0']
  else if x < 0 then '-' :: generalText (scientific (-x)).1 (scientific (-x)).2
  else generalText (scientific x).1 (scientific x).2

/-- `p_value_to_string`, statistic_analysis.h:103-117.  `1 - p_value` is exact in binary64 for a p-value from 1/2 to 1, and it is only
used when the first text is "1". -/
def pValueToString (p : K) : List Char :=
  let r := formatDouble p
  if r ≠ ['1'] then r
  else
    let r2 := formatDouble (1 - p)
    if r2 ≠ ['0'] then ['1', ' ', '-', ' '] ++ r2 else r

end

/-! #### print_battery_result -/

/-- `get_tests(battery)`, format_result.h:74-80: the names in the order of the set. -/
def testsInBattery (b : Battery ℝ) : List String := b.results.foldl (fun names e => setInsert (getTestName e.1.type) names) []

/-- The line of equality signs, format_result.h:112, 119. -/
def ruleLine : List Char := List.replicate 90 '=' ++ ['\n']

/-- The headers of the table, format_result.h:122. -/
def reportHeaders : List (List Char) := ["test".toList, "p-value".toList, "remark".toList, "stream/description".toList]

/-- The cells of one row, format_result.h:124-127. -/
noncomputable def reportCells (ra : ResultAnalysis) : R (List (List Char)) := do
  let label ← strengthLabel ra.stat
  .ok [ra.key.toStr.toList, pValueToString ra.stat.pValue, label.toList, ra.streamName.toList]

/-- The rows, format_result.h:123-129. -/
noncomputable def reportRows : List ResultAnalysis → R (List (List (List Char)))
  | [] => .ok []
  | ra :: rest => do
    let cells ← reportCells ra
    let rows ← reportRows rest
    .ok (cells :: rows)

/-- The lines below the table, format_result.h:132-144. -/
def verdictText (power : Int) : Verdict → List Char
  | .inconclusive => "INCONCLUSIVE\n\n".toList
  | .passed failures suspicious => "PASSED".toList ++ " 2^".toList ++ (toString power).toList ++ " with a total of ".toList ++
      (toString failures).toList ++ " failures and ".toList ++ (toString suspicious).toList ++ " suspicious results.\n\n".toList
  | .failed failures suspicious => "***FAILED*** at".toList ++ " 2^".toList ++ (toString power).toList ++ " with a total of ".toList ++
      (toString failures).toList ++ " failures and ".toList ++ (toString suspicious).toList ++ " suspicious results.\n\n".toList

/-- `print_battery_result`, format_result.h:111-145: the text, for given outcomes of the two sorts; `ms` is `passed_milliseconds`. -/
noncomputable def reportText (b : Battery ℝ) (ms : BitVec 64) (ras shown : List ResultAnalysis) : R (List Char) := do
  let power ← powerOfTwo b.n
  let head := ruleLine ++ b.subject.toList ++ " 2^".toList ++ (toString power).toList ++ " with ".toList ++ (toString b.samples).toList ++
    " samples using ".toList ++ (toString b.bits).toList ++ "-bits (".toList ++ (toString (ms / 1000#64).toNat).toList ++ "s)\n".toList ++
    strJoin ((testsInBattery b).map String.toList) [','] ++ ['\n'] ++ ruleLine
  let table ← Table.new reportHeaders
  let rows ← reportRows shown
  let table ← table.run (rows.flatMap fun r => r.flatMap colOps ++ [.row])
  let body ← table.toStr
  let verdict ← verdictOf b ras
  .ok (head ++ body ++ ['\n'] ++ verdictText power verdict)

/-- What `print_battery_result` prints. -/
def PrintedReport (b : Battery ℝ) (ms : BitVec 64) (text : R (List Char)) : Prop :=
  ∃ ras shown, GetAnalysis b ras ∧ FilterToShow ras shown ∧ text = reportText b ms ras shown

/-! #### draw_histogram -/

/-- The index of a value, format_result.h:16, with binary64 rounding. -/
def histogramIndex (r : ℚ) : R Nat := do
  let i ← toU64 (Fl.mul r (Fl.ofNat 30))
  .ok (min i.toNat (30 - 1))

/-- The counting loop of `draw_histogram`, format_result.h:14-19: the bins and the largest count. -/
def histogramBins (data : List ℚ) : R (List (BitVec 64) × BitVec 64) :=
  data.foldlM (fun st r => do
    let i ← histogramIndex r
    let bins ← incrAt st.1 i
    let c := bins.getD i 0#64
    .ok (bins, if st.2 ≤ c then c else st.2)) (List.replicate 30 0#64, 0#64)

/-- `scale`, format_result.h:20: `80. / 0.` is infinity. -/
def histogramScale (maxCount : BitVec 64) : ℚ :=
  if maxCount = 0#64 then 1 else min 1 (Fl.div 80 (Fl.ofNat maxCount.toNat))

/-- One bar, format_result.h:22-25: a star for every `i >= 0` below `scale * b`. -/
def histogramBar (scale : ℚ) (b : BitVec 64) : List Char :=
  List.replicate ⌈Fl.mul scale (Fl.ofNat b.toNat)⌉₊ '*' ++ ['\n']

/-- `draw_histogram`, format_result.h:10-28: the text. -/
def drawHistogram (data : List ℚ) : R (List Char) := do
  let (bins, maxCount) ← histogramBins data
  .ok (bins.flatMap (histogramBar (histogramScale maxCount)) ++ ['\n'])

end TFR
