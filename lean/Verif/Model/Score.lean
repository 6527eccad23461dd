import Verif.Model.Commands
import Verif.Model.Sffs
import Verif.Model.Construct
/-
The score of the mixer search: tool/src/util/sffsutils.h and the driver tool/src/search/search_command.h.  Doubles are exact.
Not modelled: what is printed.
-/
namespace TFR
variable {w : Nat}

/-- `get_score`, sffsutils.h:27-43.  `analyse` is `get_analysis`. -/
noncomputable def getScore (analyse : Battery ℝ → List ResultAnalysis) (result : Battery ℝ) (maxPowerOfTwo : Int) : R ℝ := do
  let power ← powerOfTwo result.n
  let s1 : ℝ := ((maxPowerOfTwo - power : Int) : ℝ)
  let allPValues := result.results.foldl (fun (ps : List ℝ) tr => ps ++ tr.2.map fun r => r.stats.pValue) []
  let s2 := (kolmogorovSmirnovStats allPValues).value
  let s3 := match analyse result with
    | [] => 0
    | analysis :: _ => (kolmogorovSmirnovStats (analysis.results.map fun r => r.stats.pValue)).value
  .ok (s1 + s2 + s3)

/-- The callback of `sffs_fitness_test`, sffsutils.h:47-53. -/
def fitnessCallback {Res : Type} (worst : Res → Option Bool) (s : Unit) (br : Res) (_isLast : Bool) : Bool × Unit :=
  match worst br with
  | none => (true, s)
  | some pass => (pass, s)

/-- `sffs_fitness_test(test_setup)`, sffsutils.h:45-57, for a run of the setup. -/
noncomputable def sffsFitnessTest (analyse : Battery ℝ → List ResultAnalysis) (run : EvalRun w) : R ℝ := do
  let r ← evaluateMultiPass run.2 (fitnessCallback (worstPass analyse)) emptyBattery run.1.startPower run.1.stopPower ()
  getScore analyse r.1 run.1.stopPower

/-- The setup of `sffs_fitness_test(mixer)`, sffsutils.h:59-62. -/
def mixerFitnessSetup (t : WT) (maxThreads : Nat) (m : Mixer t.bits) : TestSetup t.bits :=
  (createMixerTestSetup t maxThreads m).range 10 25

open Classical in
/-- `create_xm2x_mixer(bits)`, mixer_constructions.h:60-77.  Simplification: a mixer that has undefined behaviour for some input (16-bit
words with a large multiplier) is a fault as a whole. -/
noncomputable def createXm2xMixer (t : WT) (bits : BitVector) : R (Mixer t.bits) := do
  let c ← toXm2x t bits
  if h : ∃ f : BitVec t.bits → BitVec t.bits, ∀ x, xm2xMix c x = .ok (f x) then .ok ⟨"xm2x", h.choose⟩ else .error .signedOverflow

/-- The fitness function of `get_xm2x_config`, search_configs.h:57-60; `eval m` are the batteries of the evaluation of mixer `m`. -/
noncomputable def xm2xFitness (t : WT) (maxThreads : Nat) (analyse : Battery ℝ → List ResultAnalysis)
    (eval : Mixer t.bits → BitVec 64 → Battery ℝ) (bits : BitVector) : R ℝ := do
  let m ← createXm2xMixer t bits
  sffsFitnessTest analyse (mixerFitnessSetup t maxThreads m, eval m)

/-- `get_xm2x_config`, search_configs.h:37-66, with the default `min` and `max` of sffs_types.h:16-17.  The search model wants a total
fitness: a faulting evaluation counts as 0. -/
noncomputable def xm2xConfig (t : WT) (maxThreads : Nat) (analyse : Battery ℝ → List ResultAnalysis)
    (eval : Mixer t.bits → BitVec 64 → Battery ℝ) : Sffs.Config ℝ :=
  ⟨xm2xConfigBits t, fun bits => match xm2xFitness t maxThreads analyse eval bits with | .ok s => s | .error _ => 0, none, 0, 1000⟩

/-- `std::numeric_limits<double>::max()`. -/
noncomputable def doubleMax : ℝ := (2 - 1 / 2 ^ 52) * 2 ^ 1023

/-- `start_search`, search_command.h:34-57: a seed of the wrong size is refused (an empty state is returned), otherwise `run_sffs` runs;
`r` is a possible result. -/
def StartSearch (threads : Nat) (cfg : Sffs.Config ℝ) (r : Sffs.SffsState ℝ) : Prop :=
  if (cfg.seed.any fun s => s.size != cfg.bits) then r = Sffs.blank doubleMax
  else ∃ c₀ n c, Sffs.start doubleMax cfg = .ok c₀ ∧ Sffs.Reach threads doubleMax cfg c₀ n c ∧ c.pc = .returned r

/-- `search_command`, search_command.h:59-76, up to the last evaluation: `tries` are the 100 vectors drawn by `find_seed`, `r` a possible
result of the search. -/
def SearchCommand (t : WT) (threads : Nat) (analyse : Battery ℝ → List ResultAnalysis) (eval : Mixer t.bits → BitVec 64 → Battery ℝ)
    (tries : List BitVector) (r : Sffs.SffsState ℝ) : Prop :=
  let cfg := xm2xConfig t threads analyse eval
  StartSearch threads { cfg with seed := some (Sffs.findSeed doubleMax cfg.bits cfg.fitness tries) } r

/-- The end of `search_command`, search_command.h:74-75: the batteries printed for the mixer found, when `eval m` are the batteries of this
evaluation of mixer `m`.  The callback has no `on_done`. -/
noncomputable def searchLastEvaluation (t : WT) (maxThreads : Nat) (analyse : Battery ℝ → List ResultAnalysis)
    (eval : Mixer t.bits → BitVec 64 → Battery ℝ) (result : Sffs.SffsState ℝ) : R (List (Battery ℝ)) := do
  let mixer ← createXm2xMixer t result.data
  let setup := createMixerTestSetup t maxThreads mixer
  let r ← evaluateMultiPass (eval mixer) (resultCallback (worstPass analyse) false false) emptyBattery setup.startPower setup.stopPower ⟨[], []⟩
  .ok r.2.printed

end TFR
