import Verif.Model.Streams
/-
core/src/util/fileutil.h, core/src/util/fileutil.cpp:6-19, core/src/trng_data.h (files), core/src/util/ppm.h (images),
core/src/util/table.h (tables).
-/
namespace TFR

abbrev Byte := BitVec 8

/-- The object representation of an unsigned word of `w = 8 * sizeof(T)` bits on a little-endian machine (x86, ARM). -/
def leBytes (w : Nat) (v : BitVec w) : List Byte := (List.range (w / 8)).map fun i => v.extractLsb' (8 * i) 8

/-- The word with a given little-endian object representation. -/
def leWord (w : Nat) (bs : List Byte) : BitVec w := BitVec.ofNat w (bs.foldr (fun b acc => b.toNat + 256 * acc) 0)

/-- `n` consecutive words at the start of a byte sequence. -/
def leWords (w : Nat) : Nat → List Byte → List (BitVec w)
  | 0, _ => []
  | n + 1, bs => leWord w (bs.take (w / 8)) :: leWords w n (bs.drop (w / 8))

/-- The files; `none` where there is no file.  Simplification: every open, write and read of an existing file succeeds. -/
abbrev FileSystem := String → Option (List Byte)

/-- `write_binary`, fileutil.h:41-47. -/
def writeBinary {w : Nat} (fs : FileSystem) (filename : String) (data : List (BitVec w)) (append : Bool) : FileSystem :=
  let bytes := data.flatMap (leBytes w)
  fun p => if p = filename then some (if append then (fs filename).getD [] ++ bytes else bytes) else fs p

/-- The largest number of elements of a `std::vector<T>` (libstdc++): `PTRDIFF_MAX / sizeof(T)`. -/
def vectorMaxSize (w : Nat) : Nat := (2 ^ 63 - 1) / (w / 8)

/-- `read_binary_must_exist_skip_remainder`, fileutil.h:19-39.  If the file does not exist, the assertion does not stop the function:
`tellg` of the failed stream is -1, so `size` is 2^64 - 1, and `read` leaves the zero-initialised vector as it is. -/
def readBinary (w : Nat) (fs : FileSystem) (path : String) (maxElements : BitVec 64 := BitVec.allOnes 64) : R (List (BitVec w)) :=
  let sizeT := w / 8
  let size := match fs path with
    | some bytes => bytes.length
    | none => 2 ^ 64 - 1
  let remainder := size % sizeT
  let size := size - remainder
  let size := if size / sizeT > maxElements.toNat then maxElements.toNat * sizeT else size
  let sizeWithT := size / sizeT
  if sizeWithT > vectorMaxSize w then .error .thrown
  else match fs path with
    | some bytes => .ok (leWords w sizeWithT bytes)
    | none => .ok (List.replicate sizeWithT 0#w)

/-- `get_trng_data<T>` and `get_drng_data<T>`, trng_data.h:28-48: the file is read as bytes (once; the cache is not modelled) and
reinterpreted. -/
def getFileData (w : Nat) (fs : FileSystem) (path : String) : R (Option (List (BitVec w))) :=
  match fs path with
  | none => .ok none
  | some _ => do
    let data ← readBinary 8 fs path
    .ok (some (leWords w (data.length / (w / 8)) data))

/-! #### ppm.h -/

/-- The innermost loop of `write_ppm`, ppm.h:28-33: each byte of the word becomes one grey pixel (three equal bytes). -/
def ppmPixels (w : Nat) (p : BitVec w) : List Byte :=
  (List.range (w / 8)).flatMap fun byte =>
    let grey : Byte := ((p >>> (8 * byte)) &&& 0xff#w).setWidth 8
    [grey, grey, grey]

/-- The loop over `x`, ppm.h:26-34.  `T x` wraps around at `2^w`; the comparison `x < width` is on mathematical values (for `T` of
less than 32 bits both sides are `int`; for wider ones a positive `width` is converted unchanged).  At most `fuel` iterations are
performed; `none` if the loop has not ended by then. -/
def ppmRow {S : Type} {w : Nat} (func : S → BitVec w → BitVec w → BitVec w × S) (width : Nat) (y : BitVec w) :
    Nat → BitVec w → S × List Byte → Option (S × List Byte)
  | 0, x, st => if x.toNat < width then none else some st
  | fuel + 1, x, st =>
    if x.toNat < width then
      let (p, s) := func st.1 x y
      ppmRow func width y fuel (x + 1#w) (s, st.2 ++ ppmPixels w p)
    else some st

/-- The loop over `y`, ppm.h:25-35, with `fuel` iterations for this loop and for each inner one. -/
def ppmRows {S : Type} {w : Nat} (func : S → BitVec w → BitVec w → BitVec w × S) (width height inner : Nat) :
    Nat → BitVec w → S × List Byte → Option (S × List Byte)
  | 0, y, st => if y.toNat < height then none else some st
  | fuel + 1, y, st =>
    if y.toNat < height then
      match ppmRow func width y inner 0#w st with
      | none => none
      | some st => ppmRows func width height inner fuel (y + 1#w) st
    else some st

/-- The pixel data of `write_ppm(filename, width, height, func)`, ppm.h:22-37, if it is complete after `fuel` iterations of each loop. -/
def ppmData {S : Type} {w : Nat} (func : S → BitVec w → BitVec w → BitVec w × S) (s : S) (width height fuel : Nat) :
    Option (S × List Byte) :=
  ppmRows func width height fuel fuel 0#w (s, [])

/-- The file written, ppm.h:9-20 with `max = 255`: the header and the data. -/
def ppmFile (width height : Nat) (data : List Byte) : List Byte :=
  (s!"P6\n{width} {height}\n255\n".toList.map fun c => BitVec.ofNat 8 c.toNat) ++ data

/-! #### table.h -/

/-- The members of `class table`, table.h:125-131. -/
structure Table where
  columns : Nat
  spaces : List Nat
  index : Nat
  current : List Char
  rows : List (List (List Char))

/-- `app`, table.h:21-24. -/
def Table.app (t : Table) (text : List Char) : Table := { t with current := t.current ++ text }

/-- `col()`, table.h:84-90. -/
def Table.col (t : Table) : R Table :=
  match t.spaces[t.index]? with
  | none => .error .oobIndex
  | some sp =>
    match t.rows.getLast? with
    | none => .error .oobIndex
    | some r => .ok { t with
        spaces := t.spaces.set t.index (max sp (t.current.length + 2))
        rows := t.rows.dropLast ++ [r ++ [t.current]]
        index := t.index + 1
        current := [] }

/-- `row()`, table.h:92-100.  `_columns - 1` wraps around for a table without columns, and then differs from every index. -/
def Table.row (t : Table) : R Table := do
  let t ← if t.columns ≠ 0 ∧ t.index = t.columns - 1 then t.col else .ok t
  .ok { t with rows := t.rows ++ [[]], index := 0 }

/-- One call. -/
inductive TableOp where
  | app (text : List Char) | col | row

/-- Effect of one call. -/
def Table.step (t : Table) : TableOp → R Table
  | .app s => .ok (t.app s)
  | .col => t.col
  | .row => t.row

/-- A sequence of calls. -/
def Table.run (t : Table) : List TableOp → R Table
  | [] => .ok t
  | op :: ops => do (← t.step op).run ops

/-- `col(x)`, table.h:52-56. -/
def colOps (text : List Char) : List TableOp := [.app text, .col]

/-- The constructor, table.h:8-15. -/
def Table.new (headers : List (List Char)) : R Table := do
  let t ← (⟨headers.length, List.replicate headers.length 0, 0, [], []⟩ : Table).row
  let t ← t.run (headers.flatMap colOps)
  t.row

/-- The inner loop of `to_string`, table.h:106-113: `_spaces[i] - col.size()` is a 64-bit difference, and that many blanks follow. -/
def Table.renderCells (spaces : List Nat) : Nat → List (List Char) → R (List Char)
  | _, [] => .ok []
  | i, c :: rest =>
    match spaces[i]? with
    | none => .error .oobIndex
    | some sp => do
      let pad := (BitVec.ofNat 64 sp - BitVec.ofNat 64 c.length).toNat
      .ok (c ++ List.replicate pad ' ' ++ (← renderCells spaces (i + 1) rest))

/-- The loop over the rows of `to_string`, table.h:104-117. -/
def Table.renderRows (spaces : List Nat) : List (List (List Char)) → R (List Char)
  | [] => .ok []
  | r :: rest => do
    .ok ((← renderCells spaces 0 r) ++ (if r.isEmpty then [] else ['\n']) ++ (← renderRows spaces rest))

/-- `to_string`, table.h:102-119. -/
def Table.toStr (t : Table) : R (List Char) := Table.renderRows t.spaces t.rows

end TFR
