import Verif.Model.TestSetups
import Verif.Model.Construct
import Verif.Model.Analysis
import Verif.Model.Budget
import Verif.Model.Text
/-
The commands of the tool: tool/src/command/test_command.h, inspect_test_command.h, exhaust_command.h, tool/src/main.cpp,
with core/src/config.h and the text files of core/src/util/fileutil.cpp:6-19.  What is printed on the console is modelled
only where a definition says so.
-/
namespace TFR
variable {w : Nat}

/-! #### Files and paths -/

/-- The text files; `none` where there is no file.  Simplification: every open and write succeeds. -/
abbrev TextFiles := String → Option String

/-- `write(filename, data, append)`, fileutil.cpp:6-11. -/
def writeText (fs : TextFiles) (filename data : String) (append : Bool) : TextFiles :=
  fun p => if p = filename then some (if append then (fs filename).getD "" ++ data else data) else fs p

/-- `struct config`, config.h:8-36. -/
structure Config where
  rootPath : String

namespace Config
/-- `data_dir`, config.h:11-13. -/
def dataDir (c : Config) : String := c.rootPath ++ "data/"
/-- `result_dir`, config.h:15-17. -/
def resultDir (c : Config) : String := c.rootPath
/-- `test_result_file_path<T>`, config.h:19-22. -/
def testResultFilePath (c : Config) (t : WT) : String := c.resultDir ++ "result_" ++ toString t.bits ++ ".md"
/-- `trng_file_path`, config.h:29-31. -/
def trngFilePath (c : Config) : String := c.dataDir ++ "trng.bin"
/-- `drng_file_path`, config.h:33-35. -/
def drngFilePath (c : Config) : String := c.dataDir ++ "drng.bin"
/-- The file `write<T>(name, result)` writes, inspect_test_command.h:187. -/
def perTestFilePath (c : Config) (t : WT) (name : String) : String := c.resultDir ++ name ++ "_per_test" ++ toString t.bits ++ ".md"
end Config

/-! #### Setups -/

/-- `default_max_threads`, types.h:237-239; `hw` is `std::thread::hardware_concurrency()`, an `unsigned int`: the difference wraps around. -/
def defaultMaxThreads (hw : BitVec 32) : Nat := max (hw - 4).toNat 2

/-- A stream whose reads do not fault, as the tests see it (reads that would fault are replaced by zero; only used for
streams over data that is not empty, which never fault). -/
def definedStream (s : Stream (R (BitVec w))) : Stream (BitVec w) where
  σ := s.σ
  name := s.name
  state := s.state
  step st := ((match (s.step st).1 with | .ok v => v | .error _ => 0), (s.step st).2)

/-- `create_data_test_setup`, test_setups.h:49-56.  The first value read from empty data is a division by zero. -/
def createDataTestSetup (maxThreads : Nat) (name : String) (data : List (BitVec w)) (sampleCount : Nat := 128) : R (TestSetup w) :=
  if data = [] then .error .divByZero
  else do
    let sources ← createEvenlySeededStream name data sampleCount
    .ok (defaultSetup maxThreads name (sources.map definedStream) defaultTestTypes none)

/-- `create_combiner_test_setup`, test_setups.h:58-65. -/
def createCombinerTestSetup (t : WT) (maxThreads : Nat) (c : Combiner t.bits) : R (TestSetup t.bits) := do
  .ok (defaultSetup maxThreads c.name (← createCombinerSources t c) defaultTestTypes none)

/-- `create_mixer_test_setup`, test_setups.h:67-75. -/
def createMixerTestSetup (t : WT) (maxThreads : Nat) (m : Mixer t.bits) : TestSetup t.bits :=
  defaultSetup maxThreads m.name (createSources t) defaultTestTypes (some m)

/-- `create_prng_test_setup`, test_setups.h:77-108; `none` if the seeds are not complete after `fuel` rounds. -/
def createPrngTestSetup (t : WT) (maxThreads : Nat) (createPrng : SeedData → Stream (BitVec t.bits)) (fuel : Nat) :
    Option (R (TestSetup t.bits)) :=
  (createPrngSources t createPrng fuel).map fun r => do
    .ok (defaultSetup maxThreads (createPrng ⟨0, 0, 0, 0⟩).name (← r) defaultTestTypes none)

/-- `test_setup::range`, evaluate.h:27-33 (the assertions only print). -/
def TestSetup.range (s : TestSetup w) (start stop : Int) : TestSetup w := { s with startPower := start, stopPower := stop }

/-- `test_setup::set_tests`, evaluate.h:22-25. -/
def TestSetup.setTests (s : TestSetup w) (tests : List TestType) : TestSetup w := { s with tests := tests }

/-! #### test_command -/

/-- What `test_command<T>` is given: the two optional files and the catalogues `get_mixers<T>()`, `get_prngs<T>()`,
`get_combiners<T>()`. -/
structure Subjects (t : WT) : Type 1 where
  trng : Option (List (BitVec t.bits))
  drng : Option (List (BitVec t.bits))
  mixers : List (Mixer t.bits)
  prngs : List (SeedData → Stream (BitVec t.bits))
  combiners : List (Combiner t.bits)

/-- The setup for one of the two data files, if it exists, test_command.h:69-77. -/
def optionalData (maxThreads : Nat) (data : Option (List (BitVec w))) (name : String) (start stop : Int) : R (List (TestSetup w)) :=
  match data with
  | some data => do .ok [(← createDataTestSetup maxThreads name data).range start stop]
  | none => .ok []

/-- The setups `test_command<T>` evaluates, in order, test_command.h:68-92; `none` if the seeds of a generator are not complete after
`fuel` rounds. -/
def testCommandSetups (t : WT) (maxThreads : Nat) (s : Subjects t) (fuel : Nat) : Option (R (List (TestSetup t.bits))) :=
  let maxPower : Int := 25
  let fileNs := "file" ++ toString t.bits ++ "::"
  let trng := optionalData maxThreads s.trng (fileNs ++ "trng") 10 (min maxPower 22)
  let drng := optionalData maxThreads s.drng (fileNs ++ "drng") 10 (min maxPower 27)
  let mixers := s.mixers.map fun m => (createMixerTestSetup t maxThreads m).range 10 maxPower
  let combiners : R (List (TestSetup t.bits)) :=
    s.combiners.mapM fun c => do .ok ((← createCombinerTestSetup t maxThreads c).range 10 maxPower)
  match s.prngs.mapM (fun p => createPrngTestSetup t maxThreads p fuel) with
  | none => none
  | some rs => some (do
    let prngs ← rs.mapM fun r => do .ok ((← r).range 10 maxPower)
    .ok ((← trng) ++ (← drng) ++ mixers ++ prngs ++ (← combiners)))

/-- `create_result_callback`, test_command.h:22-43, with an `on_done` that changes a state.  `worst br` is
`get_worst_statistic_analysis(br)`, reduced to `pass()`. -/
def resultCallbackDo {S Res : Type} (worst : Res → Option Bool) (onDone : Option (S → Res → Bool → S))
    (s : S) (br : Res) (isLast : Bool) : Bool × S :=
  let proceed := !isLast
  let pass := true
  let (proceed, pass) :=
    match worst br with
    | some analysis => (if !isLast then analysis else proceed, analysis)
    | none => (proceed, pass)
  let s := if !proceed then (match onDone with | some f => f s br pass | none => s) else s
  (proceed, s)

/-- `get_worst_statistic_analysis(br)` reduced to `pass()`, statistic_analysis.h:154-160, for a given result of `get_analysis`
(`std::sort` is deterministic, so `get_analysis` is a function of the battery, but which one is not specified). -/
noncomputable def worstPass (analyse : Battery ℝ → List ResultAnalysis) (b : Battery ℝ) : Option Bool :=
  (analyse b).head?.map fun ra => statPass ra.stat

/-- The text written before the tests, test_command.h:52-56. -/
def reportHeader (bits : Nat) : String :=
  "# " ++ toString bits ++ "-bit results\n" ++
  "_While TFR is new you should take the results with a grain of salt._\n\n" ++
  "Tests stop when 2^" ++ toString 25 ++ " stream elements have been tested. A failed test with '*' suffix indicates the meta analysis failed (non uniform p-values).\n\n" ++
  "Source|TFR|Failures|\n-|-|-|\n"

/-- `on_done` of `test_command`, test_command.h:58-64. -/
noncomputable def reportOnDone (analyse : Battery ℝ → List ResultAnalysis) (path : String)
    (fs : R TextFiles) (br : Battery ℝ) (pass : Bool) : R TextFiles := do
  let fs ← fs
  let power ← powerOfTwo br.n
  let line := String.ofList (escapeForMd br.subject.toList) ++ "|" ++ (if pass then ">" else "") ++ toString power ++ "|" ++
    String.ofList (strJoin ((getFailedTests (analyse br)).map String.toList) ", ".toList) ++ "\n"
  .ok (writeText fs path line true)

/-- A call of `evaluate_multi_pass` in a command: the setup, and the battery each call of `evaluate` in it produced. -/
abbrev EvalRun (w : Nat) := TestSetup w × (BitVec 64 → Battery ℝ)

/-- The battery `evaluate_multi_pass` starts from, evaluate.h:127. -/
def emptyBattery : Battery ℝ := ⟨"", 0, 0, 0, []⟩

/-- `test_command<T>()`, test_command.h:45-93, on the text files, for given runs of the setups of `testCommandSetups`. -/
noncomputable def testCommand (debug : Bool) (path : String) (analyse : Battery ℝ → List ResultAnalysis) (runs : List (EvalRun w))
    (fs : TextFiles) : R TextFiles :=
  let fs := if !debug then writeText fs path (reportHeader w) false else fs
  let onDone := if !debug then some (reportOnDone analyse path) else none
  runs.foldlM (fun fs run => do
    let r ← evaluateMultiPass run.2 (resultCallbackDo (worstPass analyse) onDone) emptyBattery run.1.startPower run.1.stopPower (.ok fs)
    r.2) fs

/-! #### inspect_test_command -/

/-- `create_fail_sources`, inspect_test_command.h:15-30. -/
def createFailSources (t : WT) : R (List (Stream (BitVec t.bits))) :=
  match defaultMix t (BitVec.ofNat t.bits 123) with
  | .error f => .error f
  | .ok c => .ok [constantStream (BitVec.ofNat t.bits 0), constantStream (BitVec.ofNat t.bits 1), constantStream c,
      counterStream t.bits 1 0]

/-- `create_test_inspect_callback`, inspect_test_command.h:47-54. -/
def inspectCallback {Res : Type} (worst : Res → Option Bool) (s : Unit) (br : Res) (_isLast : Bool) : Bool × Unit :=
  match worst br with
  | some analysis => (analysis, s)
  | none => (true, s)

/-- The setup of one source in `inspect_test`, inspect_test_command.h:66-75. -/
def inspectSetup (maxThreads : Nat) (test : TestRow) (source : Stream (BitVec w)) : TestSetup w :=
  defaultSetup maxThreads test.name [source] [test.type] (some ⟨"identity", fun x => x⟩)

/-- `inspect_test`, inspect_test_command.h:62-86: the sources that passed and those that failed.  `eval source` are the batteries of the
runs of that source's setup. -/
noncomputable def inspectTest (analyse : Battery ℝ → List ResultAnalysis) (eval : Stream (BitVec w) → BitVec 64 → Battery ℝ)
    (sources : List (Stream (BitVec w))) : R (List (Stream (BitVec w)) × List (Stream (BitVec w))) :=
  sources.foldlM (fun (result : List (Stream (BitVec w)) × List (Stream (BitVec w))) source => do
    match evaluateMultiPass (eval source) (inspectCallback (worstPass analyse)) emptyBattery 10 25 () with
    | .error f => .error f
    | .ok br =>
      match worstPass analyse br.1 with
      | some true => .ok (result.1 ++ [source], result.2)
      | some false => .ok (result.1, result.2 ++ [source])
      | none => .ok result) ([], [])

/-- A line printed by `inspect_tests`, inspect_test_command.h:116-123. -/
inductive InspectLine where
  | pass (test : String)
  | fail (test source : String)
  deriving DecidableEq

/-- `is_ok`, inspect_test_command.h:98-108. -/
def inspectIsOk (test : TestRow) (failSources : Nat) (allShouldPass : Bool) : Bool :=
  if failSources = 0 then true
  else if test.type = .runs ∧ allShouldPass = false then decide (failSources = 4)
  else false

/-- `inspect_tests`, inspect_test_command.h:88-125: the lines printed.  `eval test` are the batteries of the runs for that test. -/
noncomputable def inspectTests (t : WT) (analyse : Battery ℝ → List ResultAnalysis)
    (eval : TestRow → Stream (BitVec t.bits) → BitVec 64 → Battery ℝ) (sources : List (Stream (BitVec t.bits))) (allShouldPass : Bool) :
    R (List InspectLine) :=
  getTests.foldlM (fun lines test =>
    if allShouldPass ∧ test.hasMixer then .ok lines
    else
      let testSources := if test.type = .mean then sources else createRrcSources t sources
      match inspectTest analyse (eval test) testSources with
      | .error f => .error f
      | .ok result =>
        let failSources := if allShouldPass then result.2 else result.1
        if inspectIsOk test failSources.length allShouldPass then .ok (lines ++ [.pass test.name])
        else .ok (lines ++ failSources.map fun s => .fail test.name s.name)) []

/-! #### the per test tables -/

/-- `std::map<std::string, V>::operator[]` with an assignment: the map is the list of its entries in order. -/
def strMapUpdate {V : Type} (k : String) (f : Option V → V) : List (String × V) → List (String × V)
  | [] => [(k, f none)]
  | (k', v) :: rest =>
    if strLt k'.toList k.toList then (k', v) :: strMapUpdate k f rest
    else if strLt k.toList k'.toList then (k, f none) :: (k', v) :: rest
    else (k', f (some v)) :: rest

/-- `std::map<std::string, V>::find`. -/
def strMapFind {V : Type} (k : String) : List (String × V) → Option V
  | [] => none
  | (k', v) :: rest =>
    if strLt k'.toList k.toList then strMapFind k rest
    else if strLt k.toList k'.toList then none
    else some v

/-- `per_test_result`, inspect_test_command.h:140. -/
abbrev PerTestResult := List (String × List (String × String))

/-- `result[subject][test] = value`, inspect_test_command.h:157, 239-240. -/
def PerTestResult.assign (r : PerTestResult) (subject test value : String) : PerTestResult :=
  strMapUpdate subject (fun row => strMapUpdate test (fun _ => value) (row.getD [])) r

/-- `write<T>(name, result)`, inspect_test_command.h:163-188: the text.  (`get_tests<T>()` gives the same names for every `T`.) -/
def perTestText (result : PerTestResult) : String :=
  let ss := "name|"
  let ss := getTests.foldl (fun ss test => ss ++ test.name ++ "|") ss
  let ss := ss ++ "\n"
  let ss := getTests.foldl (fun ss _ => ss ++ "-|") ss
  let ss := ss ++ "-\n"
  result.foldl (fun ss e =>
    let ss := ss ++ e.1 ++ "|"
    let ss := getTests.foldl (fun ss test =>
      let ss := match strMapFind test.name e.2 with
        | some v => ss ++ v
        | none => ss
      ss ++ "|") ss
    ss ++ "\n") ss

/-- `create_per_test_callback`, inspect_test_command.h:142-161, on the table and the state of `extract_property`. -/
def perTestCallback {S : Type} (worst : Battery ℝ → Option Bool) (extract : S → Battery ℝ → R (String × S))
    (s : R (PerTestResult × S)) (br : Battery ℝ) (isLast : Bool) : Bool × R (PerTestResult × S) :=
  let proceed := !isLast
  let proceed := if proceed then (match worst br with | some analysis => analysis | none => proceed) else proceed
  let s := if !proceed then
      (match br.results with
       | [] => s
       | e :: _ => do
         let st ← s
         let r ← extract st.2 br
         .ok (st.1.assign br.subject (getTestName e.1.type) r.1, r.2))
    else s
  (proceed, s)

/-- `extract_power_of_two`, inspect_test_command.h:197-206; the score is a `uint64_t` and `1 + max_power_of_two - power` an `int`. -/
noncomputable def extractPowerOfTwo (analyse : Battery ℝ → List ResultAnalysis) (score : BitVec 64) (br : Battery ℝ) :
    R (String × BitVec 64) :=
  match analyse br with
  | [] => .ok ("NA", score)
  | ra :: _ => do
    let power ← powerOfTwo br.n
    let score := score + BitVec.ofInt 64 (if statPass ra.stat then 0 else 1 + 25 - power)
    .ok ((if statPass ra.stat then ">" else "") ++ toString power, score)

/-- The evaluations of one test in `inspect_per_test_command`, inspect_test_command.h:209-237: the table and the score. -/
noncomputable def perTestRuns (analyse : Battery ℝ → List ResultAnalysis) (runs : List (EvalRun w)) (st : PerTestResult × BitVec 64) :
    R (PerTestResult × BitVec 64) :=
  runs.foldlM (fun st run => do
    let r ← evaluateMultiPass run.2 (perTestCallback (worstPass analyse) (extractPowerOfTwo analyse)) emptyBattery
      run.1.startPower run.1.stopPower (.ok st)
    r.2) st

/-- `inspect_per_test_command<T>()`, inspect_test_command.h:191-244: for each test its runs and the time it took (`std::to_string` of the
seconds); the score starts at zero for every test. -/
noncomputable def inspectPerTestCommand (analyse : Battery ℝ → List ResultAnalysis) (path : String)
    (tests : List (TestRow × List (EvalRun w) × String)) (fs : TextFiles) : R (PerTestResult × TextFiles) :=
  tests.foldlM (fun st e => do
    let r ← perTestRuns analyse e.2.1 (st.1, 0)
    let result := r.1.assign "!score" e.1.name (toString r.2.toNat)
    let result := result.assign "!time" e.1.name (e.2.2 ++ "s")
    .ok (result, writeText st.2 path (perTestText result) false)) ([], fs)

/-! #### exhaust_command -/

/-- The constants tried by `exhaust_command`, exhaust_command.h:27-32, in order. -/
def exhaustConstants : List (Nat × Nat × Nat) :=
  (List.range' 9 12).flatMap fun c1 => (List.range' 9 12).flatMap fun c2 => (List.range' 9 11).map fun c3 => (c1, c2, c3)

/-- The callback of `exhaust_command`, exhaust_command.h:12-18. -/
def exhaustCallback {Res : Type} (worst : Res → Option Bool) (s : Unit) (br : Res) (_isLast : Bool) : Bool × Unit :=
  match worst br with
  | none => (true, s)
  | some analysis => (analysis, s)

/-- The constants of the mixer for one triple, exhaust_command.h:32-33. -/
def exhaustXm2x (c : Nat × Nat × Nat) : Xm2x 32 := ⟨BitVec.ofNat 32 c.1, BitVec.ofNat 32 c.2.1, BitVec.ofNat 32 c.2.2, 2471660141#32⟩

/-- The power reached by one triple, exhaust_command.h:34-36; `eval` are the batteries of its evaluation. -/
noncomputable def exhaustScore (analyse : Battery ℝ → List ResultAnalysis) (eval : BitVec 64 → Battery ℝ) : R Int :=
  match evaluateMultiPass eval (exhaustCallback (worstPass analyse)) emptyBattery 10 27 () with
  | .error f => .error f
  | .ok br => powerOfTwo br.1.n

/-- The loops over `c2` and `c3` for one `c1`, exhaust_command.h:28-41: the powers reached and their sum. -/
def exhaustRound (score : Nat × Nat × Nat → R Int) (c1 : Nat) : R (List Int × Int) :=
  ((List.range' 9 12).flatMap fun c2 => (List.range' 9 11).map fun c3 => (c1, c2, c3)).foldlM (fun st c => do
    let p ← score c
    .ok (st.1 ++ [p], st.2 + p)) ([], 0)

/-- The outer loop, exhaust_command.h:25-44: the powers in order, and the total.  (All sums are far below `INT_MAX`: C99.) -/
def exhaustLoop (score : Nat × Nat × Nat → R Int) : R (List Int × Int) :=
  (List.range' 9 12).foldlM (fun st c1 => do
    let r ← exhaustRound score c1
    .ok (st.1 ++ r.1, st.2 + r.2)) ([], 0)

/-- The last loop, exhaust_command.h:50-54: what is printed of the sorted powers; `i` counts the lines already printed. -/
def exhaustPrint : List Int → Nat → List Int
  | [], _ => []
  | p :: rest, i => p :: (if i + 1 > 20 then [] else exhaustPrint rest (i + 1))

/-! #### main -/

/-- The calls `main` makes. -/
inductive ToolCall where
  | test (t : WT) | search (t : WT) | inspectTest (t : WT) | inspectPerTest (t : WT) | inspectSpeed (t : WT) | ppm (t : WT) | exhaust
  deriving DecidableEq

/-- The call of a command, tool/src/main.cpp:51-82. -/
def commandCalls (command : String) : Option (List ToolCall) :=
  if command = "-test" then some [.test .u8, .test .u16, .test .u32, .test .u64]
  else if command = "-search" then some [.search .u32]
  else if command = "-inspect-test" then
    some [.inspectTest .u8, .inspectTest .u16, .inspectTest .u32, .inspectTest .u64, .inspectPerTest .u32, .inspectPerTest .u64,
      .inspectSpeed .u32, .inspectSpeed .u64]
  else if command = "-ppm" then some [.ppm .u32]
  else if command = "-exhaust" then some [.exhaust]
  else none

/-- A sequence of calls that stops at the first `std::runtime_error`: the state then, and whether all calls returned. -/
def runCalls {W : Type} (exec : Config → ToolCall → W → W × Bool) (c : Config) : List ToolCall → W → W × Bool
  | [], s => (s, true)
  | call :: rest, s =>
    match exec c call s with
    | (s, true) => runCalls exec c rest s
    | (s, false) => (s, false)

/-- `main`, tool/src/main.cpp:39-91: the state afterwards and the exit code.  `args` includes the name of the program; `exec` runs a command, its
second component is false if it left by a `std::runtime_error`. -/
def toolMain {W : Type} (exec : Config → ToolCall → W → W × Bool) (args : List String) (s : W) : W × Int :=
  match args with
  | [_, root, command] =>
    match commandCalls command with
    | some calls => ((runCalls exec ⟨root⟩ calls s).1, 0)
    | none => (s, 1)
  | _ => (s, 1)

end TFR
