import Verif.Model.Bits
import Verif.Model.Streams
import Verif.Model.Hist
import Mathlib.Analysis.SpecialFunctions.Pow.Real
/-
core/src/statistics/linear_complexity.h.
-/
namespace TFR

/-- `v[i]` for an `int` index. -/
def atInt (v : List Bool) (i : Int) : R Bool :=
  if i < 0 then .error .oobIndex
  else match v[i.toNat]? with
    | some b => .ok b
    | none => .error .oobIndex

/-- `v[i] ^= x`. -/
def xorAt (v : List Bool) (i : Int) (x : Bool) : R (List Bool) := do
  let old ← atInt v i
  .ok (v.set i.toNat (old ^^ x))

/-- The local variables of `berlekamp_massey`, linear_complexity.h:24-31. Simplification: the `int` vectors hold only
0 and 1 (as the input does) and are modelled as booleans, `&` and `^` as the boolean operations. -/
structure BM where
  b : List Bool
  c : List Bool
  bTmp : List Bool
  l : Int
  m : Int

/-- The discrepancy loop, linear_complexity.h:34-37, `count` iterations from `j`. -/
def bmDisc (u c : List Bool) (n : Int) : Nat → Int → Bool → R Bool
  | 0, _, s => .ok s
  | count + 1, j, s => do
    let cj ← atInt c j
    let uj ← atInt u (n - j - 1)
    bmDisc u c n count (j + 1) (s ^^ (cj && uj))

/-- The update loop, linear_complexity.h:48-50, `count` iterations from `j`. -/
def bmUpdate (bTmp : List Bool) (from' : Int) : Nat → Int → List Bool → R (List Bool)
  | 0, _, c => .ok c
  | count + 1, j, c => do
    let x ← atInt bTmp (j - from')
    let c ← xorAt c j x
    bmUpdate bTmp from' count (j + 1) c

/-- One iteration of the main loop, linear_complexity.h:33-52. -/
def bmStep (u : List Bool) (st : BM) (n : Int) : R BM := do
  let len : Int := u.length
  let s ← atInt u (n - 1)
  let s ← bmDisc u st.c n st.l.toNat 1 s
  if s then
    let from' := n - st.m
    let stop := min len (from' + st.l + 1)
    -- std::copy(cbegin(b), cbegin(b) + l + 1, begin(b_tmp))
    if st.l + 1 ≤ st.b.length ∧ st.l + 1 ≤ st.bTmp.length then
      let bTmp := st.b.take (st.l + 1).toNat ++ st.bTmp.drop (st.l + 1).toNat
      let (l, m, b) := if 2 * st.l ≤ n then (n - st.l, n, st.c) else (st.l, st.m, st.b)
      let c ← bmUpdate bTmp from' (stop - from').toNat from' st.c
      .ok ⟨b, c, bTmp, l, m⟩
    else .error .oobIndex
  else .ok st

/-- `berlekamp_massey`, linear_complexity.h:23-54. -/
def berlekampMassey (u : List Bool) : R Int := do
  let len := u.length
  if len = 0 then .error .oobIndex  -- b[0] of an empty vector
  else
    let one := (List.replicate len false).set 0 true
    let st ← (List.range len).foldlM (fun st (i : Nat) => bmStep u st (i + 1)) ⟨one, one, List.replicate len false, 0, 0⟩
    .ok st.l

/-- `lfsr_log2_probability`, linear_complexity.h:10-20: unsigned 64-bit arithmetic, converted to `int64_t`. -/
def lfsrLog2Probability (blockSize lfsrLength : BitVec 64) : Int :=
  if lfsrLength = 0#64 then (-blockSize).toInt
  else if lfsrLength ≤ blockSize / 2#64 then (2#64 * lfsrLength - blockSize - 1#64).toInt
  else (blockSize - 2#64 * lfsrLength).toInt

/-- `get_expected_probabilities`, linear_complexity.h:56-64 (exact powers of two). -/
noncomputable def lfsrProbabilities (blockSize : BitVec 64) : List ℝ :=
  (List.range (blockSize.toNat + 1)).map fun l => (2 : ℝ) ^ lfsrLog2Probability blockSize (BitVec.ofNat 64 l)

/-- Drawing one block of bits, linear_complexity.h:73-76. -/
def drawBits {w : Nat} {σ : Type} (step : σ → BitVec w × σ) (bit : Int) : Nat → σ → R (List Bool × σ)
  | 0, st => .ok ([], st)
  | k + 1, st => do
    let (v, st) := step st
    let b ← isBitSet v bit
    let (rest, st) ← drawBits step bit k st
    .ok (b :: rest, st)

/-- The block loop, linear_complexity.h:72-79. -/
def complexityBlocks {w : Nat} {σ : Type} (step : σ → BitVec w × σ) (blockSize : Nat) (bit : Int) :
    Nat → List (BitVec 64) → σ → R (List (BitVec 64) × σ)
  | 0, counts, st => .ok (counts, st)
  | k + 1, counts, st => do
    let (bits, st) ← drawBits step bit blockSize st
    let l ← berlekampMassey bits
    if l < 0 then .error .oobIndex
    else
      let counts ← incrAt counts l.toNat
      complexityBlocks step blockSize bit k counts st

/-- The counting part of `linear_complexity_stats`, linear_complexity.h:67-79: counts, number of blocks and the source's
state afterwards. -/
def linearComplexityCounts {w : Nat} (n : BitVec 64) (s : Stream (BitVec w)) (blockSize : BitVec 64) (bit : Int) :
    R (List (BitVec 64) × BitVec 64 × s.σ) := do
  if blockSize = 0#64 then .error .divByZero
  else
    let blocks := n / blockSize
    let (counts, st) ← complexityBlocks s.step blockSize.toNat bit blocks.toNat
      (List.replicate (blockSize.toNat + 1) 0#64) s.state
    .ok (counts, blocks, st)

end TFR
