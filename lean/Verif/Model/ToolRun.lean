import Verif.Model.Files
import Verif.Model.Commands
import Verif.Model.Catalogue
/-
Whole runs of the tool: `ppm_command` (tool/src/command/ppm_command.h), the four calls behind `-test` (tool/src/main.cpp:52-57), and the two
helpers of main.cpp that build data files (`build_trng`, `export_rdrand`, main.cpp:13-35).
-/
namespace TFR

/-- `write_ppm(path, data, width, height, 255)`, ppm.h:9-20, on the file system: nothing is written if the file cannot be opened (for
writing, which truncates it).  Which paths can be opened does not change during a run. -/
def writePpm (canOpen : String → Bool) (fs : FileSystem) (path : String) (width height : Nat) (data : List Byte) : FileSystem :=
  if canOpen path then fun p => if p = path then some (ppmFile width height data) else fs p else fs

/-- The directory, ppm_command.h:9. -/
def Config.ppmDir (c : Config) (t : WT) : String := c.rootPath ++ "ppm" ++ toString t.bits ++ "/"

/-- `write_ppm(filename, source)`, ppm.h:39-49 with `source` reading `data` (not empty) in a circle: 512 x 512 calls.  `none` if a loop
has not ended after `fuel` iterations. -/
def writeStreamPpm {w : Nat} (canOpen : String → Bool) (fs : FileSystem) (path : String) (source : Stream (BitVec w)) (fuel : Nat) :
    Option FileSystem :=
  (ppmData (fun s _ _ => source.step s) source.state 512 512 fuel).map fun st => writePpm canOpen fs path 512 512 st.2

/-- The body of the loop over the mixers, ppm_command.h:14-20. -/
def writeMixerPpm {w : Nat} (canOpen : String → Bool) (fs : FileSystem) (path : String) (m : Mixer w) (fuel : Nat) : Option FileSystem :=
  (ppmData (fun _ x y => (m.mix (y * 512#w + x), ())) () 512 512 fuel).map fun st => writePpm canOpen fs path 512 512 st.2

/-- `ppm_command<T>()`, ppm_command.h:8-22, for a catalogue `mixers`.  The first value read from an empty data file is a division by
zero. -/
def ppmCommand (t : WT) (c : Config) (canOpen : String → Bool) (mixers : List (Mixer t.bits)) (fuel : Nat) (fs : FileSystem) :
    R (Option FileSystem) := do
  let trng ← getFileData t.bits fs c.trngFilePath
  let fs ← match trng with
    | none => (.ok (some fs) : R (Option FileSystem))
    | some [] => .error .divByZero
    | some data =>
      let source := definedStream (dataStream "trng" data 0)
      .ok (writeStreamPpm canOpen fs (c.ppmDir t ++ source.name ++ ".ppm") source fuel)
  .ok (fs.bind fun fs => mixers.foldlM (fun fs m => writeMixerPpm canOpen fs (c.ppmDir t ++ m.name ++ ".ppm") m fuel) fs)

/-- `export_rdrand(power_of_two)`, main.cpp:23-35, for the values `rdrand` `rdrand_64` returns; an undefined shift for a power
outside `0..63`, and `reserve` throws if so many words are never possible. -/
def exportRdrand (c : Config) (power : Int) (rdrand : Nat → BitVec 64) (fs : FileSystem) : R FileSystem :=
  if power < 0 ∨ 64 ≤ power then .error .shiftTooLarge
  else if vectorMaxSize 64 < 2 ^ power.toNat then .error .thrown
  else .ok (writeBinary fs c.drngFilePath ((List.range (2 ^ power.toNat)).map rdrand) true)

/-- `build_trng()`, main.cpp:13-21: `files` are the paths of the regular files with the extension `.bin` below the directory, in the order of
the directory iterator. -/
def buildTrng (files : List String) (target : String) (fs : FileSystem) : R FileSystem := do
  let data ← files.foldlM (fun (data : List Byte) path => do .ok (data ++ (← readBinary 8 fs path))) []
  .ok (writeBinary fs target data false)

/-- The command `-test` as `main` runs it, main.cpp:52-57: `runs t` are the evaluations of `test_command<T>`.  A fault ends the run of the
model; test_command throws no `std::runtime_error`. -/
noncomputable def testExec (analyse : Battery ℝ → List ResultAnalysis) (runs : (t : WT) → List (EvalRun t.bits)) (c : Config) (call : ToolCall)
    (fs : R TextFiles) : R TextFiles × Bool :=
  match call with
  | .test t => (do testCommand false (c.testResultFilePath t) analyse (runs t) (← fs), true)
  | _ => (fs, true)

end TFR
