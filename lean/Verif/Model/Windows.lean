import Verif.Model.Bits
/-
core/src/util/bitwise.h:125-164, iteration over bits, blocks and windows.
A callback is a function on an arbitrary state `σ` (its captured variables) that may fault.
-/
namespace TFR
variable {w : Nat} {σ : Type}

/-- `for_each_bit`, bitwise.h:125-133. -/
def forEachBit (data : List (BitVec w)) (cb : σ → Bool → R σ) (s : σ) : R σ :=
  data.foldlM (fun s v => (List.range w).foldlM (fun s (b : Nat) => do
    let bit ← isBitSet v b
    cb s bit) s) s

/-- The lambda of `for_each_bit_block`, bitwise.h:138-144: captured `i` and `block` (a
`std::vector<int>` holding only 0/1; modelled as booleans), plus the state of the user callback. -/
def blockStep (cb : σ → List Bool → R σ) (st : Nat × List Bool × σ) (bit : Bool) : R (Nat × List Bool × σ) :=
  let (i, block, s) := st
  if i < block.length then
    let block := block.set i bit
    let i := i + 1
    if i = block.length then do
      let s ← cb s block
      .ok (0, block, s)
    else .ok (i, block, s)
  else .error .oobIndex

/-- `for_each_bit_block`, bitwise.h:135-145. -/
def forEachBitBlock (data : List (BitVec w)) (blockSize : Nat) (cb : σ → List Bool → R σ) (s : σ) : R σ := do
  let st ← forEachBit data (blockStep cb) (0, List.replicate blockSize false, s)
  .ok st.2.2

/-- The lambda `acc` of `sliding_bit_window`, bitwise.h:153-161: captured `c` and `v`. -/
def windowStep (windowSize : Int) (cb : σ → BitVec 64 → R σ) (st : Nat × BitVec 64 × σ) (isSet : Bool) :
    R (Nat × BitVec 64 × σ) :=
  let (c, v, s) := st
  if c < 64 then
    let v := v ||| ((if isSet then 1#64 else 0#64) <<< c)
    let c := c + 1
    if (c : Int) = windowSize then do
      let s ← cb s v
      .ok (0, 0#64, s)
    else .ok (c, v, s)
  else .error .shiftTooLarge

/-- `sliding_bit_window`, bitwise.h:147-164.  (The assertion on the window size only prints.) -/
def slidingBitWindow (data : List (BitVec w)) (windowSize : Int) (cb : σ → BitVec 64 → R σ) (s : σ) : R σ := do
  let st ← forEachBit data (windowStep windowSize cb) (0, 0#64, s)
  .ok st.2.2

end TFR
