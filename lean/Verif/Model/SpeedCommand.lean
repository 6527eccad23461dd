import Verif.Model.Commands
/-
The last part of `-inspect-test`: `inspect_test_speed_command`, tool/src/command/inspect_test_command.h:246-260.
-/
namespace TFR
variable {w : Nat}

/-- The setup of one test in `inspect_test_speed_command`, inspect_test_command.h:255-257, for the default mixer `m`. -/
def speedSetup (t : WT) (maxThreads : Nat) (m : Mixer t.bits) (type : TestType) : TestSetup t.bits :=
  ((createMixerTestSetup t maxThreads m).range 10 25).setTests [type]

/-- `extract_time`, inspect_test_command.h:249-251.  The model's batteries do not carry `passed_milliseconds` (evaluate.h:120, a `uint64_t`);
`ms n` is the time the evaluation with `n` values took. -/
def extractTime (ms : BitVec 64 → BitVec 64) (s : Unit) (br : Battery ℝ) : R (String × Unit) :=
  .ok (toString (ms br.n).toNat, s)

/-- `inspect_test_speed_command<T>()`, inspect_test_command.h:246-260: for each test the run of its setup and the times; the file is
written after every test. -/
noncomputable def inspectTestSpeedCommand (analyse : Battery ℝ → List ResultAnalysis) (path : String)
    (tests : List (TestRow × EvalRun w × (BitVec 64 → BitVec 64))) (fs : TextFiles) : R (PerTestResult × TextFiles) :=
  tests.foldlM (fun (st : PerTestResult × TextFiles) e => do
    let r ← evaluateMultiPass e.2.1.2 (perTestCallback (worstPass analyse) (extractTime e.2.2)) emptyBattery
      e.2.1.1.startPower e.2.1.1.stopPower (.ok (st.1, ()))
    let r ← r.2
    .ok (r.1, writeText st.2 path (perTestText r.1) false)) ([], fs)

end TFR
