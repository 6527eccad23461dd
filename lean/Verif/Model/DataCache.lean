import Verif.Model.Files
import Verif.Model.Commands
/-
The random data files as the running tool sees them: core/src/config.cpp (the configuration), core/src/trng_data.h with its caches, which
`getFileData` (Model/Files) leaves out.
-/
namespace TFR

/-- Which of the two data files. -/
inductive DataFile where
  | trng
  | drng
  deriving DecidableEq, Repr

/-- `trng_file_path` and `drng_file_path`, config.h:29-35. -/
def DataFile.path (c : Config) : DataFile → String
  | .trng => c.trngFilePath
  | .drng => c.drngFilePath

/-- What the functions depend on: the files, `g_config` (config.cpp:7), the two function-local statics (trng_data.h:18, 23; `none` while
they are not initialised) and what has been printed. -/
structure DataState where
  fs : FileSystem
  config : Option Config
  trng : Option (List Byte)
  drng : Option (List Byte)
  console : String

/-- The static of one file. -/
def DataState.cache (s : DataState) : DataFile → Option (List Byte)
  | .trng => s.trng
  | .drng => s.drng

/-- Initialisation of the static of one file. -/
def DataState.setCache (s : DataState) (k : DataFile) (data : List Byte) : DataState :=
  match k with
  | .trng => { s with trng := some data }
  | .drng => { s with drng := some data }

/-- `get_config`, config.cpp:9-11: dereferencing the empty optional is undefined. -/
def DataState.getConfig (s : DataState) : R Config :=
  match s.config with
  | some c => .ok c
  | none => .error .emptyDeref

/-- `set_config`, config.cpp:12-14. -/
def DataState.setConfig (s : DataState) (c : Config) : DataState := { s with config := some c }

/-- `detail::read_binary_data`, trng_data.h:10-15.  (When the read throws, the state is not modelled any further.) -/
def DataState.readBinaryData (s : DataState) (path : String) : R (List Byte × DataState) := do
  let s := { s with console := s.console ++ "Reading entire '" ++ path ++ "' from disk..." }
  let data ← readBinary 8 s.fs path
  .ok (data, { s with console := s.console ++ " done!\n" })

/-- `detail::get_or_read_trng_data` and `detail::get_or_read_drng_data`, trng_data.h:17-25: the static is initialised by the first call. -/
def DataState.getOrRead (s : DataState) (k : DataFile) : R (List Byte × DataState) :=
  match s.cache k with
  | some data => .ok (data, s)
  | none => do
    let c ← s.getConfig
    let r ← s.readBinaryData (k.path c)
    .ok (r.1, r.2.setCache k r.1)

/-- `get_trng_data<T>` and `get_drng_data<T>`, trng_data.h:28-48: the existence of the file is checked at every call; the bytes are
reinterpreted as words of `w` bits (little endian). -/
def DataState.getData (s : DataState) (w : Nat) (k : DataFile) : R (Option (List (BitVec w)) × DataState) := do
  let c ← s.getConfig
  match s.fs (k.path c) with
  | none => .ok (none, s)
  | some _ =>
    let r ← s.getOrRead k
    .ok (some (leWords w (r.1.length / (w / 8)) r.1), r.2)

/-- What can happen between two calls: `set_config`, other processes changing files, and calls of `get_trng_data`/`get_drng_data`. -/
inductive DataEvent where
  | setConfig (c : Config)
  | files (fs : FileSystem)
  | get (t : WT) (k : DataFile)

/-- The state after one event. -/
def DataState.event (s : DataState) : DataEvent → R DataState
  | .setConfig c => .ok (s.setConfig c)
  | .files fs => .ok { s with fs := fs }
  | .get t k => do
    let r ← s.getData t.bits k
    .ok r.2

/-- The state after a history. -/
def DataState.after (s : DataState) (events : List DataEvent) : R DataState := events.foldlM DataState.event s

/-- The state at the start of the program. -/
def DataState.initial (fs : FileSystem) : DataState := ⟨fs, none, none, none, ""⟩

end TFR
