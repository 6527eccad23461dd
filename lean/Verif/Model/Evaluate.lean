import Verif.Model.Jobs
import Verif.Model.Results
/-
core/src/evaluate.h and tool/src/command/test_command.h:22-43.
-/
namespace TFR
variable {w : Nat} {K : Type}

/-- `stream_test<T>`, types.h:133-134. -/
abbrev StreamTest (w : Nat) (K : Type) := BitVec 64 → Stream (BitVec w) → List (SubTest K)
/-- `mixer_test<T>`, types.h:130-131. -/
abbrev MixerTest (w : Nat) (K : Type) := BitVec 64 → Stream (BitVec w) → Mixer w → List (SubTest K)

/-- `test_definition<T>`, test_definitions.h:17-23 (an empty `std::function` is `none`). -/
structure TestDef (w : Nat) (K : Type) where
  type : TestType
  testStream : Option (StreamTest w K)
  testMixer : Option (MixerTest w K)

/-- `test_setup<T>`, evaluate.h:12-34. -/
structure TestSetup (w : Nat) where
  subject : String
  sources : List (Stream (BitVec w))
  tests : List TestType
  mix : Option (Mixer w)
  maxThreads : Nat
  startPower : Int
  stopPower : Int

/-- `create_stream`, evaluate.h:42-45. -/
def createStream (mix : Option (Mixer w)) (source : Stream (BitVec w)) : Stream (BitVec w) :=
  match mix with
  | some m => mixerStream source m
  | none => source

/-- The loop over sub-tests of the two job lambdas, evaluate.h:55-61 and 67-72: results without statistic are skipped. -/
def collectSubTests (streamName name : String) (n : BitVec 64) (type : TestType) :
    List (SubTest K) → List (TestResult K)
  | [] => []
  | s :: rest =>
    match s.stats with
    | some stat => ⟨streamName, name, n, ⟨type, s.name⟩, stat⟩ :: collectSubTests streamName name n type rest
    | none => collectSubTests streamName name n type rest

/-- `test_job`, evaluate.h:38-40: a closure without arguments. -/
abbrev TestJob (K : Type) := Unit → List (TestResult K)

/-- `create_mixer_job`, evaluate.h:47-63. -/
def createMixerJob (n : BitVec 64) (name : String) (mix : Mixer w) (type : TestType) (test : MixerTest w K)
    (source : Stream (BitVec w)) : TestJob K :=
  fun _ => collectSubTests source.name name n type (test n source mix)

/-- `create_stream_job`, evaluate.h:65-76. -/
def createStreamJob (n : BitVec 64) (name : String) (type : TestType) (test : StreamTest w K)
    (source : Stream (BitVec w)) : TestJob K :=
  fun _ => collectSubTests source.name name n type (test n source)

/-- The loop body of `create_test_jobs` for one test and one source, evaluate.h:86-95. -/
def jobsFor (n : BitVec 64) (setup : TestSetup w) (d : TestDef w K) (source : Stream (BitVec w)) : List (TestJob K) :=
  (match d.testMixer, setup.mix with
   | some t, some m => [createMixerJob n setup.subject m d.type t source]
   | _, _ => []) ++
  (match d.testStream with
   | some t => [createStreamJob n setup.subject d.type t (createStream setup.mix source)]
   | none => [])

/-- `create_test_jobs`, evaluate.h:78-98. `defs` is `get_test_definition<T>`. -/
def createTestJobs (defs : TestType → TestDef w K) (n : BitVec 64) (setup : TestSetup w) : List (TestJob K) :=
  setup.tests.foldl (fun jobs test =>
    setup.sources.foldl (fun jobs source => jobs ++ jobsFor n setup (defs test) source) jobs) []

/-- A possible outcome of `evaluate`, evaluate.h:113-122: some schedule of `run_jobs` with the collector of
evaluate.h:100-110 filing the results in the order in which they were collected. -/
def EvaluateOutcome (defs : TestType → TestDef w K) (n : BitVec 64) (setup : TestSetup w) (result : Battery K) : Prop :=
  let jobs := createTestJobs defs n setup
  let T := Jobs.threadCount jobs setup.maxThreads
  ∃ k c, Jobs.Reach (fun j : TestJob K => j ()) T (Jobs.init jobs) k c ∧ Jobs.Returned T c ∧
    result = c.collected.foldl Battery.add ⟨setup.subject, n, setup.sources.length, w, []⟩

/-! #### evaluate_multi_pass -/

/-- `evaluate_multi_pass`, evaluate.h:126-140. The callback may change its own state `S`; `eval n` is the battery the
call of `evaluate` produced; `1ull << power` is undefined outside 0..63. -/
def multiPassLoop {S Res : Type} (eval : BitVec 64 → Res) (callback : S → Res → Bool → Bool × S) (stop : Int) :
    Nat → Int → Res → S → R (Res × S)
  | 0, _, result, s => .ok (result, s)
  | fuel + 1, power, result, s =>
    if power ≤ stop then
      if 0 ≤ power ∧ power < 64 then
        let result := eval (1#64 <<< power.toNat)
        let r := callback s result (power == stop)
        if !r.1 then .ok (result, r.2)
        else multiPassLoop eval callback stop fuel (power + 1) result r.2
      else .error .shiftTooLarge
    else .ok (result, s)

/-- The number of loop iterations is at most `stop - start + 1`. -/
def evaluateMultiPass {S Res : Type} (eval : BitVec 64 → Res) (callback : S → Res → Bool → Bool × S) (empty : Res)
    (start stop : Int) (s : S) : R (Res × S) :=
  multiPassLoop eval callback stop (stop - start + 1).toNat start empty s

/-- What the callback of test_command.h writes: printed batteries and calls of `on_done`. -/
structure CallbackLog (Res : Type) where
  printed : List Res
  done : List (Res × Bool)

/-- `create_result_callback`, test_command.h:22-43. `worst br` is `get_worst_statistic_analysis(br)`, reduced to
`pass()`. -/
def resultCallback {Res : Type} (worst : Res → Option Bool) (printIntermediate hasDone : Bool)
    (s : CallbackLog Res) (br : Res) (isLast : Bool) : Bool × CallbackLog Res :=
  let proceed := !isLast
  let pass := true
  let (proceed, pass) :=
    match worst br with
    | some analysis => (if !isLast then analysis else proceed, analysis)
    | none => (proceed, pass)
  let s := if printIntermediate || !proceed then { s with printed := s.printed ++ [br] } else s
  let s := if !proceed then (if hasDone then { s with done := s.done ++ [(br, pass)] } else s) else s
  (proceed, s)

end TFR
