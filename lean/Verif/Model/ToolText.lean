import Verif.Model.ToolRun
import Verif.Model.Console
/-
What the commands of the tool print: `main` (tool/src/main.cpp), `-test` (test_command.h), `-exhaust` (exhaust_command.h), `-inspect-test`
(inspect_test_command.h).  The reports themselves are in Model/Console, the text of `-search` in Model/SearchText.  `-ppm` prints nothing.
-/
namespace TFR
variable {w : Nat}

/-! #### -test -/

/-- The reports printed by `test_command<T>()`, test_command.h:68-92, in order (the batteries passed to `print_battery_result`); the callback
is `create_result_callback(true, on_done)`. -/
noncomputable def testCommandPrinted (debug : Bool) (analyse : Battery ℝ → List ResultAnalysis) (runs : List (EvalRun w)) : R (List (Battery ℝ)) :=
  runs.foldlM (fun (printed : List (Battery ℝ)) run => do
    let r ← evaluateMultiPass run.2 (resultCallback (worstPass analyse) true (!debug)) emptyBattery run.1.startPower run.1.stopPower ⟨[], []⟩
    .ok (printed ++ r.2.printed)) []

/-! #### -exhaust -/

/-- The loop over `c3`, exhaust_command.h:31-38: the text, the results and the sum so far. -/
def exhaustTextC3 (score : Nat × Nat × Nat → R Int) (c1 c2 : Nat) (st : List Char × List Int × Int) : R (List Char × List Int × Int) :=
  (List.range' 9 11).foldlM (fun (st : List Char × List Int × Int) c3 => do
    let p ← score (c1, c2, c3)
    .ok (st.1 ++ (toString p).toList ++ [';'], st.2.1 ++ [p], st.2.2 + p)) st

/-- The loop over `c2`, exhaust_command.h:30-40. -/
def exhaustTextC2 (score : Nat × Nat × Nat → R Int) (c1 : Nat) (st : List Char × List Int × Int) : R (List Char × List Int × Int) :=
  (List.range' 9 12).foldlM (fun (st : List Char × List Int × Int) c2 => do
    let st ← exhaustTextC3 score c1 c2 st
    .ok (st.1 ++ ['\n'], st.2.1, st.2.2)) st

/-- The loop over `c1`, exhaust_command.h:27-43: the text, the results and the total. -/
def exhaustTextC1 (score : Nat × Nat × Nat → R Int) : R (List Char × List Int × Int) :=
  (List.range' 9 12).foldlM (fun (st : List Char × List Int × Int) c1 => do
    let r ← exhaustTextC2 score c1 (st.1 ++ (toString c1).toList ++ "-\n".toList, st.2.1, 0)
    .ok (r.1 ++ "sum: ".toList ++ (toString r.2.2).toList ++ "\n\n".toList, r.2.1, st.2.2 + r.2.2)) ([], [], 0)

/-- `exhaust_command()`, exhaust_command.h:10-55: the text, for the powers as `std::sort` leaves them (the order of equal powers does not
show). -/
def ExhaustText (score : Nat × Nat × Nat → R Int) (text : R (List Char)) : Prop :=
  match exhaustTextC1 score with
  | .error f => text = .error f
  | .ok r => ∃ sorted : List Int, sorted.Perm r.2.1 ∧ sorted.Pairwise (fun a b => ¬ b > a) ∧
      text = .ok (r.1 ++ "total: ".toList ++ (toString r.2.2).toList ++ "\n\n".toList ++
        (exhaustPrint sorted 0).flatMap fun p => (toString p).toList ++ ['\n'])

/-! #### -inspect-test -/

/-- The text of a line, inspect_test_command.h:117, 121. -/
def InspectLine.text : InspectLine → List Char
  | .pass test => "PASS: ".toList ++ test.toList ++ ['\n']
  | .fail test source => "FAIL: ".toList ++ test.toList ++ ": ".toList ++ source.toList ++ ['\n']

/-- `create_pass_sources`, inspect_test_command.h:33-45, for the data read from the two files: the sources and what is printed.  (Reading from an
empty file would be a division by zero.) -/
def createPassSources (trng drng : Option (List (BitVec w))) : List (Stream (BitVec w)) × List Char :=
  let sources := match trng with
    | some data => [definedStream (dataStream "trng" data 0)]
    | none => []
  let sources := match drng with
    | some data => sources ++ [definedStream (dataStream "drng" data 0)]
    | none => sources
  (sources, if sources.isEmpty then "Warning: No passable trng/drng sources was found\n".toList else [])

/-- The three lines before a part, inspect_test_command.h:129-131, 134-136. -/
def inspectHeading (title : String) (bits : Nat) : List Char :=
  List.replicate 46 '=' ++ ['\n'] ++ title.toList ++ ", ".toList ++ (toString bits).toList ++ " bits\n".toList ++ List.replicate 46 '=' ++ ['\n']

/-- `inspect_test_command<T>()`, inspect_test_command.h:127-138: the text.  `fails` and `passes` are the batteries of the evaluations. -/
noncomputable def inspectCommandText (t : WT) (analyse : Battery ℝ → List ResultAnalysis) (trng drng : Option (List (BitVec t.bits)))
    (fails passes : TestRow → Stream (BitVec t.bits) → BitVec 64 → Battery ℝ) : R (List Char) :=
  let text := inspectHeading "Fail sources" t.bits
  match createFailSources t with
  | .error f => .error f
  | .ok sources => do
    let lines ← inspectTests t analyse fails sources false
    let text := text ++ lines.flatMap InspectLine.text
    let text := text ++ inspectHeading "Pass sources" t.bits
    let text := text ++ (createPassSources trng drng).2
    let lines ← inspectTests t analyse passes (createPassSources trng drng).1 true
    .ok (text ++ lines.flatMap InspectLine.text)

/-- `create_per_test_callback` without intermediate results, inspect_test_command.h:142-161: which reports it prints. -/
noncomputable def perTestPrint (analyse : Battery ℝ → List ResultAnalysis) (printed : List (Battery ℝ)) (br : Battery ℝ) (isLast : Bool) :
    Bool × List (Battery ℝ) :=
  let proceed := !isLast
  let proceed := if proceed then (match worstPass analyse br with | some analysis => analysis | none => proceed) else proceed
  (proceed, if false || !proceed then printed ++ [br] else printed)

/-- The reports printed during one test of `inspect_per_test_command<T>()` and of `inspect_test_speed_command<T>()`,
inspect_test_command.h:214-236, 255-257. -/
noncomputable def perTestPrinted (analyse : Battery ℝ → List ResultAnalysis) (runs : List (EvalRun w)) : R (List (Battery ℝ)) :=
  runs.foldlM (fun (printed : List (Battery ℝ)) run => do
    let r ← evaluateMultiPass run.2 (perTestPrint analyse) emptyBattery run.1.startPower run.1.stopPower []
    .ok (printed ++ r.2)) []

/-- The heading of a test, inspect_test_command.h:210-212. -/
def perTestHeading (name : String) : List Char :=
  List.replicate 24 '=' ++ ['\n'] ++ name.toList ++ ['\n'] ++ List.replicate 24 '=' ++ ['\n']

/-! #### main -/

/-- `main`, tool/src/main.cpp:39-91, with its text and the exit code; `exec` runs a call and returns the state, what it printed, and the message of
the `std::runtime_error` that ended it, if any. -/
def toolConsole {W : Type} (exec : Config → ToolCall → W → W × List Char × Option String) (args : List String) (s : W) : W × List Char × Int :=
  match args with
  | [_, root, command] =>
    let text := "Executing command ".toList ++ command.toList ++ ['\n']
    match commandCalls command with
    | none => (s, text ++ "Unknown command\n".toList, 1)
    | some calls => run root calls s text
  | _ => (s, "Usage: tfr-tool.exe root-path command\n".toList, 1)
where
  run (root : String) : List ToolCall → W → List Char → W × List Char × Int
    | [], s, text => (s, text, 0)
    | call :: rest, s, text =>
      match exec ⟨root⟩ call s with
      | (s, printed, none) => run root rest s (text ++ printed)
      | (s, printed, some e) => (s, text ++ printed ++ "ERROR: ".toList ++ e.toList ++ ['\n'], 0)

end TFR
