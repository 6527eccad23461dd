import Verif.Model.Windows
import Verif.Model.Streams
import Verif.Model.Hist
import Mathlib.Analysis.SpecialFunctions.Pow.Real
/-
core/src/types.h:241-273 (binary_square_matrix) and core/src/statistics/binary_rank.h.
-/
namespace TFR

/-- `binary_square_matrix`, types.h:241-273: row-major bytes. -/
structure BinMatrix where
  data : List (BitVec 8)
  size : Nat
  deriving DecidableEq

namespace BinMatrix

/-- Constructor, types.h:243-244. (`size * size` is assumed not to overflow `size_t`.) -/
def new (size : Nat) : BinMatrix := ⟨List.replicate (size * size) 0#8, size⟩

/-- `empty`, types.h:246-248. -/
def empty (m : BinMatrix) : Bool := m.size == 0

/-- `get`, types.h:254-260. -/
def get (m : BinMatrix) (row col : Nat) : R (BitVec 8) :=
  match m.data[row * m.size + col]? with
  | some v => .ok v
  | none => .error .oobIndex

/-- Assignment through the reference returned by `get`, types.h:254-256. -/
def put (m : BinMatrix) (row col : Nat) (v : BitVec 8) : R BinMatrix :=
  if row * m.size + col < m.data.length then .ok { m with data := m.data.set (row * m.size + col) v }
  else .error .oobIndex

/-- `set`, types.h:262-264. -/
def set (m : BinMatrix) (row col : Nat) (value : Bool) : R BinMatrix := m.put row col (if value then 1#8 else 0#8)

/-- `operator==`, types.h:266-268: only the data is compared. -/
def eq (a b : BinMatrix) : Bool := a.data == b.data

end BinMatrix

/-- `while (col < size && m.get(row, col) == 0) col++`, binary_rank.h:18-20; `fuel` counts the columns left. -/
def findPivot (m : BinMatrix) (row : Nat) : Nat → Nat → R Nat
  | 0, col => .ok col
  | fuel + 1, col =>
    if col < m.size then do
      let v ← m.get row col
      if v = 0#8 then findPivot m row fuel (col + 1) else .ok col
    else .ok col

/-- The innermost loop, binary_rank.h:27-29, over the columns `col .. size-1`. -/
def xorRow (m : BinMatrix) (row r col : Nat) : R BinMatrix :=
  (List.range' col (m.size - col)).foldlM (fun (m : BinMatrix) c => do
    let a ← m.get r c
    let b ← m.get row c
    m.put r c (a ^^^ b)) m

/-- The elimination loop, binary_rank.h:25-31, over the rows `row+1 .. size-1`. -/
def eliminateBelow (m : BinMatrix) (row col : Nat) : R BinMatrix :=
  (List.range' (row + 1) (m.size - (row + 1))).foldlM (fun (m : BinMatrix) r => do
    let v ← m.get r col
    if v = 1#8 then xorRow m row r col else .ok m) m

/-- One iteration of the outer loop, binary_rank.h:16-33. -/
def reduceStep (st : Nat × BinMatrix) (row : Nat) : R (Nat × BinMatrix) := do
  let (rank, m) := st
  let col ← findPivot m row m.size 0
  if col < m.size then do
    let m ← eliminateBelow m row col
    .ok (rank + 1, m)
  else .ok (rank, m)

/-- `row_reduce_and_rank`, binary_rank.h:11-36: the rank and the matrix afterwards (passed by reference). -/
def rowReduceAndRank (m : BinMatrix) : R (Nat × BinMatrix) :=
  if m.empty then .ok (0, m) else (List.range m.size).foldlM reduceStep (0, m)

/-- The lambda of `for_each_matrix`, binary_rank.h:42-52; captured `c`, `r` and the scratch matrix. The callback gets
the scratch matrix by reference and may change it. -/
def matrixStep {σ : Type} (size : Nat) (cb : σ → BinMatrix → R (σ × BinMatrix))
    (st : Nat × Nat × BinMatrix × σ) (bit : Bool) : R (Nat × Nat × BinMatrix × σ) := do
  let (c, r, tmp, s) := st
  let tmp ← tmp.set r c bit
  let c := c + 1
  let (c, r) := if c = size then (0, r + 1) else (c, r)
  if c = 0 ∧ r = size then do
    let (s, tmp) ← cb s tmp
    .ok (c, 0, tmp, s)
  else .ok (c, r, tmp, s)

/-- `for_each_matrix`, binary_rank.h:38-53. -/
def forEachMatrix {w : Nat} {σ : Type} (data : List (BitVec w)) (size : Nat)
    (cb : σ → BinMatrix → R (σ × BinMatrix)) (s : σ) : R σ := do
  let st ← forEachBit data (matrixStep size cb) (0, 0, BinMatrix.new size, s)
  .ok st.2.2.2

/-- `get_rank_probability`, binary_rank.h:55-67, in exact real arithmetic. -/
noncomputable def getRankProbability (matrixSize rank : Nat) : ℝ :=
  let n : ℤ := matrixSize
  let r : ℤ := rank
  let c : ℝ := (2 : ℝ) ^ (-(n - r) * (n - r))
  c * (List.range rank).foldl (fun p (i : Nat) =>
    let numerator : ℝ := 1 - (2 : ℝ) ^ ((i : ℤ) - n)
    let numerator := numerator * numerator
    p * (numerator / (1 - (2 : ℝ) ^ ((i : ℤ) - r)))) 1

/-- `get_rank_probabilities`, binary_rank.h:69-81: each probability is pushed to the front. -/
noncomputable def getRankProbabilities (matrixSize : Nat) : List ℝ :=
  (List.range (matrixSize + 1)).foldl (fun ps rank => getRankProbability matrixSize rank :: ps) []

/-- The callback of `binary_rank_stats`, binary_rank.h:89-94. (`matrix_size - r` cannot wrap: `r ≤ matrix_size`.) -/
def rankCallback (matrixSize : Nat) (st : List (BitVec 64) × BitVec 64) (m : BinMatrix) :
    R ((List (BitVec 64) × BitVec 64) × BinMatrix) := do
  let (r, m) ← rowReduceAndRank m
  let counts ← incrAt st.1 (matrixSize - r)
  .ok ((counts, st.2 + 1), m)

/-- The counting part of `binary_rank_stats`, binary_rank.h:84-94: the rank counts and the number of blocks for the first
`n` values of the stream. -/
def binaryRankCounts {w : Nat} (data : List (BitVec w)) (matrixSize : Nat) : R (List (BitVec 64) × BitVec 64) :=
  forEachMatrix data matrixSize (rankCallback matrixSize) (List.replicate (matrixSize + 1) 0#64, 0#64)

/-- Filling one matrix in `binary_rank_isolated_bit_stats`, binary_rank.h:105-110, from a source with the given step
function and state. -/
def fillIsolated {w : Nat} {σ : Type} (step : σ → BitVec w × σ) (size : Nat) (bit : Int) (st : σ) : R (BinMatrix × σ) :=
  (List.range size).foldlM (fun acc r => (List.range size).foldlM (fun (acc : BinMatrix × σ) c => do
    let (v, st) := step acc.2
    let b ← isBitSet v bit
    let m ← acc.1.set r c b
    .ok (m, st)) acc) (BinMatrix.new size, st)

/-- The block loop of `binary_rank_isolated_bit_stats`, binary_rank.h:104-114. -/
def isolatedBlocks {w : Nat} {σ : Type} (step : σ → BitVec w × σ) (size : Nat) (bit : Int) :
    Nat → List (BitVec 64) → σ → R (List (BitVec 64) × σ)
  | 0, counts, st => .ok (counts, st)
  | k + 1, counts, st => do
    let (m, st) ← fillIsolated step size bit st
    let (r, _) ← rowReduceAndRank m
    let counts ← incrAt counts (size - r)
    isolatedBlocks step size bit k counts st

/-- The counting part of `binary_rank_isolated_bit_stats`, binary_rank.h:99-114: counts, number of blocks and the source's
state afterwards. (`bit_sizeof<T>() * n` and `matrix_size * matrix_size` wrap in 64 bits.) -/
def isolatedRankCounts {w : Nat} (n : BitVec 64) (s : Stream (BitVec w)) (size : BitVec 64) (bit : Int) :
    R (List (BitVec 64) × BitVec 64 × s.σ) := do
  if size * size = 0#64 then .error .divByZero
  else
    let blocks := (BitVec.ofNat 64 w * n) / (size * size)
    let (counts, st) ← isolatedBlocks s.step size.toNat bit blocks.toNat (List.replicate (size.toNat + 1) 0#64) s.state
    .ok (counts, blocks, st)

/-- `get_matrix_size`, binary_rank.h:120-124, in exact real arithmetic (`bit_floor` of `⌊√(n·w/wanted)⌋`). -/
noncomputable def getMatrixSize (w : Nat) (n : BitVec 64) : R (BitVec 64) :=
  let wantedMatrices : ℝ := 5 / 0.0052387863054258942636
  let multiplier : ℝ := w / wantedMatrices
  bitFloor (BitVec.ofNat 64 ⌊Real.sqrt (n.toNat * multiplier)⌋₊)

end TFR
