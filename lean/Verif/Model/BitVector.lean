import Verif.Model.Bits
/-
core/src/util/bitvector.h
Simplification: sizes and positions are natural numbers below 2^31 (the code uses `int`); negative
arguments and sizes at which `int` overflows are outside the model.
-/
namespace TFR

/-- `struct bit_vector`, bitvector.h:11-72: `bits` and `data`. -/
structure BitVector where
  bits : Nat
  data : List (BitVec 8)
  deriving DecidableEq, Repr

namespace BitVector

/-- `std::vector::resize` (value-initialised growth). -/
def resize (data : List (BitVec 8)) (n : Nat) : List (BitVec 8) :=
  if n ≤ data.length then data.take n else data ++ List.replicate (n - data.length) 0#8

/-- Default constructor, bitvector.h:12. -/
def empty : BitVector := ⟨0, []⟩

/-- `bit_vector(int bits)`, bitvector.h:14-16.  `std::ceil(bits / 8.)` is exact for `int` values. -/
def ofSize (bits : Nat) : BitVector := ⟨bits, resize [] ((bits + 7) / 8)⟩

/-- `get_bit`, bitvector.h:18-23. (The assertion only prints.) -/
def getBit (v : BitVector) (bit : Nat) : R Bool :=
  let index := bit / 8
  let shift := bit - 8 * index
  match v.data[index]? with
  | none => .error .oobIndex
  | some byte => .ok ((byte >>> shift) &&& 1#8 == 1#8)

/-- `set_bit`, bitvector.h:25-35. -/
def setBit (v : BitVector) (bit : Nat) (value : Bool) : R BitVector :=
  let index := bit / 8
  let shift := bit - 8 * index
  match v.data[index]? with
  | none => .error .oobIndex
  | some byte =>
    let byte := if value then byte ||| ((if value then 1#8 else 0#8) <<< shift)
                else byte &&& ~~~(1#8 <<< shift)
    .ok { v with data := v.data.set index byte }

/-- `size`, bitvector.h:37. -/
def size (v : BitVector) : Nat := v.bits

/-- `count`, bitvector.h:39-45. -/
def count (v : BitVector) : R Nat :=
  (List.range v.bits).foldlM (fun sum i => do
    if ← v.getBit i then .ok (sum + 1) else .ok sum) 0

/-- `get<T>`, bitvector.h:47-58; `w` is the width of `T`. -/
def get (w : Nat) (v : BitVector) (fromBit count : Nat) : R (BitVec w) :=
  (List.range count).foldlM (fun (acc : BitVec w) s => do
    if ← v.getBit (fromBit + s) then
      let one ← shlOne w s
      .ok (acc ||| one)
    else .ok acc) 0#w

/-- `add`, bitvector.h:60-67. `v >> i` is undefined for `i ≥ 64`. -/
def add (bv : BitVector) (v : BitVec 64) (count : Nat) : R BitVector :=
  let oldBits := bv.bits
  let bits := bv.bits + count
  let bv : BitVector := ⟨bits, resize bv.data ((bits + 7) / 8)⟩
  (List.range count).foldlM (fun bv i =>
    if i < 64 then bv.setBit (oldBits + i) ((v >>> i) &&& 1#64 == 1#64)
    else .error .shiftTooLarge) bv

/-- `to_string`, bitvector.h:75-81; the string as list of characters. -/
def toStr (v : BitVector) : R (List Char) :=
  (List.range v.bits).foldlM (fun s i => do
    if ← v.getBit i then .ok (s ++ ['1']) else .ok (s ++ ['0'])) []

/-- The public operations of a bit vector. -/
inductive Op where
  | add (v : BitVec 64) (count : Nat)
  | setBit (i : Nat) (b : Bool)
  | getBit (i : Nat)
  | get (w : WT) (fromBit count : Nat)
  | count
  | size
  | toStr
  deriving DecidableEq, Repr

/-- What an operation returns. -/
inductive Out where
  | unit
  | bit (b : Bool)
  | num (n : Nat)
  | str (s : List Char)
  deriving DecidableEq, Repr

def step (v : BitVector) : Op → R (BitVector × Out)
  | .add x n => do return (← v.add x n, .unit)
  | .setBit i b => do return (← v.setBit i b, .unit)
  | .getBit i => do return (v, .bit (← v.getBit i))
  | .get t f n => do return (v, .num (← v.get t.bits f n).toNat)
  | .count => do return (v, .num (← v.count))
  | .size => .ok (v, .num v.size)
  | .toStr => do return (v, .str (← v.toStr))

/-- A history of operations; all outputs in order. -/
def run (v : BitVector) : List Op → R (BitVector × List Out)
  | [] => .ok (v, [])
  | op :: ops => do
    let (v, o) ← step v op
    let (v, os) ← run v ops
    return (v, o :: os)

end BitVector
end TFR
