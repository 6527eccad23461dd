import Verif.Model.Files
import Verif.Model.Commands
import Verif.Model.HardwarePrngs
/-
The functions that make the data files, tool/src/main.cpp:13-36 (no command calls them), and the enumeration of files,
core/src/util/fileutil.cpp:21-43.  Finer than `exportRdrand` and `buildTrng` (Model/ToolRun): the loops, the instruction, the enumeration of
the directory and the text.
-/
namespace TFR

/-- `rdrand_64`, impl/src/external/rdrand/rdrand.cpp:22-33, as a source: the state is the number of executions of the instruction so far. -/
def rdrand64 (hw : Nat → Option (BitVec 64)) (start : Nat) : Stream (BitVec 64) where
  σ := Nat
  name := "rdrand_64"
  state := start
  step i := rdrandLoop hw 10 i

/-- The loop of `export_rdrand`, main.cpp:28-33: the data and the dots printed.  (What a failing `rdrand_64` prints is left out.) -/
def exportLoop (hw : Nat → Option (BitVec 64)) : Nat → Nat → Nat → List (BitVec 64) → List Char → List (BitVec 64) × List Char
  | 0, _, _, data, text => (data, text)
  | fuel + 1, i, st, data, text =>
    let r := rdrandLoop hw 10 st
    exportLoop hw fuel (i + 1) r.2 (data ++ [r.1]) (if i % 10000000 = 0 then text ++ ['.'] else text)

/-- `export_rdrand(power_of_two)`, main.cpp:23-36, with `start` executions of the instruction before it: the files and the text.
`reserve` throws if the vector can not hold that many elements. -/
def exportRdrandText (hw : Nat → Option (BitVec 64)) (start : Nat) (cfg : Config) (powerOfTwo : Int) (fs : FileSystem) : R (FileSystem × List Char) :=
  if 0 ≤ powerOfTwo ∧ powerOfTwo < 64 then
    let n := 2 ^ powerOfTwo.toNat
    if n > vectorMaxSize 64 then .error .thrown
    else
      let r := exportLoop hw n 0 start [] []
      .ok (writeBinary fs cfg.drngFilePath r.1 true, r.2)
  else .error .shiftTooLarge

/-- `std::filesystem::path::filename` for paths with `/` as separator. -/
def pathFilename (p : List Char) : List Char := (p.reverse.takeWhile (· ≠ '/')).reverse

/-- `std::filesystem::path::extension`: the file name from its last dot on; empty without a dot, if the only dot is the first character, and
for `.` and `..`. -/
def pathExtension (p : List Char) : List Char :=
  let f := pathFilename p
  if f = ['.', '.'] then []
  else
    let e := (f.reverse.takeWhile (· ≠ '.')).reverse
    if e.length = f.length then []
    else if e.length + 1 = f.length then []
    else '.' :: e

/-- What a directory iterator yields: a path and whether it is a regular file. -/
abbrev DirEntry := String × Bool

/-- `for_each_file` and `for_each_file_recursively`, fileutil.cpp:21-43, for the entries the iterator yields, in its order. -/
def forEachFile {S : Type} (entries : List DirEntry) (ext : String) (cb : S → String → R S) (s : S) : R S :=
  entries.foldlM (fun s e =>
    if !e.2 then .ok s
    else if pathExtension e.1.toList ≠ ext.toList then .ok s
    else cb s e.1) s

/-- `build_trng`, main.cpp:13-21, for the entries found: the files and the text. -/
def buildTrngText (entries : List DirEntry) (fs : FileSystem) : R (FileSystem × List Char) := do
  let r ← forEachFile entries ".bin" (fun (st : List Byte × List Char) path => do
    let r ← readBinary 8 fs path
    .ok (st.1 ++ r, st.2 ++ path.toList ++ ['\n'])) ([], [])
  .ok (writeBinary fs "C:\\tmp\\random.org\\trng.bin" r.1 false, r.2)

end TFR
