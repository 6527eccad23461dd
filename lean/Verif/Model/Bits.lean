import Verif.Model.Basic
/-
core/src/util/bitwise.h
-/
namespace TFR

/-- Left rotation by `0 < n < w`, as in the C++20 wording of `std::rotl`. -/
def rotlPos {w : Nat} (x : BitVec w) (n : Nat) : BitVec w := (x <<< n) ||| (x >>> (w - n))
/-- Right rotation by `0 < n < w`, as in the C++20 wording of `std::rotr`. -/
def rotrPos {w : Nat} (x : BitVec w) (n : Nat) : BitVec w := (x >>> n) ||| (x <<< (w - n))

/-- `rol`, bitwise.h:30-34.  The assertion there only prints; `std::rotl` is defined for every `int`
(remainder `r % N` with the sign of `r`, [bit.rotate]). -/
def rol {w : Nat} (v : BitVec w) (r : Int) : BitVec w :=
  let m := r.tmod w
  if m = 0 then v else if 0 < m then rotlPos v m.toNat else rotrPos v (-m).toNat

/-- `ror`, bitwise.h:36-40, see `rol`. -/
def ror {w : Nat} (v : BitVec w) (r : Int) : BitVec w :=
  let m := r.tmod w
  if m = 0 then v else if 0 < m then rotrPos v m.toNat else rotlPos v (-m).toNat

/-- `flip_bit`, bitwise.h:42-46: `v ^ (1ull << bit)` computed in 64 bits, then converted back to T.
The shift is undefined for `bit < 0` or `bit >= 64`.  (w ≤ 64) -/
def flipBit {w : Nat} (v : BitVec w) (bit : Int) : R (BitVec w) :=
  if 0 ≤ bit ∧ bit < 64 then
    .ok (((v.setWidth 64) ^^^ ((1#64) <<< bit.toNat)).setWidth w)
  else .error .shiftTooLarge

/-- Width of the type in which a `T` operand of a shift is evaluated: 8/16-bit operands are promoted to
`int` (32 bit). -/
def promotedWidth (w : Nat) : Nat := max w 32

/-- `is_bit_set`, bitwise.h:48-52: `(v >> bit) & 1`. -/
def isBitSet {w : Nat} (v : BitVec w) (bit : Int) : R Bool :=
  if 0 ≤ bit ∧ bit < promotedWidth w then
    .ok (((v.setWidth (promotedWidth w)) >>> bit.toNat) &&& 1#_ != 0#_)
  else .error .shiftTooLarge

/-- `bit_count`, bitwise.h:54-57, by Kernighan-free definition: add up the bits. -/
def bitCount {w : Nat} (x : BitVec w) : Nat :=
  (List.range w).foldl (fun acc i => acc + (if x.getLsbD i then 1 else 0)) 0

/-- `byte_swap`, bitwise.h:59-68. -/
def byteSwap64 (val : BitVec 64) : BitVec 64 :=
  ((val &&& 0xff00000000000000#64) >>> 56) |||
  ((val &&& 0x00ff000000000000#64) >>> 40) |||
  ((val &&& 0x0000ff0000000000#64) >>> 24) |||
  ((val &&& 0x000000ff00000000#64) >>> 8) |||
  ((val &&& 0x00000000ff000000#64) <<< 8) |||
  ((val &&& 0x0000000000ff0000#64) <<< 24) |||
  ((val &&& 0x000000000000ff00#64) <<< 40) |||
  ((val &&& 0x00000000000000ff#64) <<< 56)

/-- The table in bitwise.h:74. -/
def nibbleLookup : List (BitVec 8) :=
  [0x0, 0x8, 0x4, 0xc, 0x2, 0xa, 0x6, 0xe, 0x1, 0x9, 0x5, 0xd, 0x3, 0xb, 0x7, 0xf]

/-- `reverse_bits<uint8_t>`, bitwise.h:72-76. The table indices are below 16, hence the default of
the look-up is never used (`reverseBits8_in_bounds`). -/
def reverseBits8 (x : BitVec 8) : BitVec 8 :=
  (nibbleLookup.getD (x &&& 0b1111#8).toNat 0 <<< 4) ||| nibbleLookup.getD (x >>> 4).toNat 0

theorem reverseBits8_in_bounds (x : BitVec 8) :
    (x &&& 0b1111#8).toNat < nibbleLookup.length ∧ (x >>> 4).toNat < nibbleLookup.length := by
  refine ⟨?_, ?_⟩
  · simp only [BitVec.toNat_and, nibbleLookup, List.length]
    have : x.toNat &&& 15 ≤ 15 := Nat.and_le_right
    simpa using Nat.lt_succ_of_le this
  · have := x.isLt
    simp only [BitVec.toNat_ushiftRight, nibbleLookup, List.length, Nat.shiftRight_eq_div_pow]
    omega

/-- `reverse_bits<uint16_t>`, bitwise.h:78-84. (The `int` intermediates stay below 2^24, so computing
modulo 2^16 gives the value stored in `x`.) -/
def reverseBits16 (x : BitVec 16) : BitVec 16 :=
  let x := ((x >>> 1) &&& 0x5555#16) ||| ((x &&& 0x5555#16) <<< 1)
  let x := ((x >>> 2) &&& 0x3333#16) ||| ((x &&& 0x3333#16) <<< 2)
  let x := ((x >>> 4) &&& 0x0F0F#16) ||| ((x &&& 0x0F0F#16) <<< 4)
  (x >>> 8) ||| (x <<< 8)

/-- `reverse_bits<uint32_t>`, bitwise.h:86-93. -/
def reverseBits32 (x : BitVec 32) : BitVec 32 :=
  let x := ((x >>> 1) &&& 0x55555555#32) ||| ((x &&& 0x55555555#32) <<< 1)
  let x := ((x >>> 2) &&& 0x33333333#32) ||| ((x &&& 0x33333333#32) <<< 2)
  let x := ((x >>> 4) &&& 0x0F0F0F0F#32) ||| ((x &&& 0x0F0F0F0F#32) <<< 4)
  let x := ((x >>> 8) &&& 0x00FF00FF#32) ||| ((x &&& 0x00FF00FF#32) <<< 8)
  (x >>> 16) ||| (x <<< 16)

/-- `reverse_bits<uint64_t>`, bitwise.h:95-103. -/
def reverseBits64 (x : BitVec 64) : BitVec 64 :=
  let x := (x &&& 0xaaaaaaaaaaaaaaaa#64) >>> 1 ||| (x &&& 0x5555555555555555#64) <<< 1
  let x := (x &&& 0xcccccccccccccccc#64) >>> 2 ||| (x &&& 0x3333333333333333#64) <<< 2
  let x := (x &&& 0xf0f0f0f0f0f0f0f0#64) >>> 4 ||| (x &&& 0x0f0f0f0f0f0f0f0f#64) <<< 4
  let x := (x &&& 0xff00ff00ff00ff00#64) >>> 8 ||| (x &&& 0x00ff00ff00ff00ff#64) <<< 8
  let x := (x &&& 0xffff0000ffff0000#64) >>> 16 ||| (x &&& 0x0000ffff0000ffff#64) <<< 16
  x >>> 32 ||| x <<< 32

/-- `reverse_bits<T>`, bitwise.h:70-103. -/
def reverseBits : (t : WT) → BitVec t.bits → BitVec t.bits
  | .u8 => reverseBits8 | .u16 => reverseBits16 | .u32 => reverseBits32 | .u64 => reverseBits64

/-- `std::countl_zero`: number of consecutive 0 bits from the most significant bit. -/
def countlZero {w : Nat} (x : BitVec w) : Nat :=
  go w
where
  go : Nat → Nat
    | 0 => 0
    | i + 1 => if x.getLsbD i then 0 else go i + 1

/-- `bit_width`, bitwise.h:105-108. -/
def bitWidth {w : Nat} (x : BitVec w) : Nat := w - countlZero x

/-- `T{1} << s` converted to T: a shift in the promoted type, then truncation to T.  Undefined when
`s` reaches the promoted width. (For promoted 8/16-bit operands the `int` shift `1 << s` with `s ≤ 30`
has no overflow; `s` is at most 16 here.) -/
def shlOne (w : Nat) (s : Nat) : R (BitVec w) :=
  if s < promotedWidth w then .ok (((1#(promotedWidth w)) <<< s).setWidth w) else .error .shiftTooLarge

/-- `bit_floor`, bitwise.h:110-115. -/
def bitFloor {w : Nat} (x : BitVec w) : R (BitVec w) :=
  if x ≠ 0#w then shlOne w (bitWidth x - 1) else .ok 0#w

/-- `bit_ceil`, bitwise.h:117-123. -/
def bitCeil {w : Nat} (x : BitVec w) : R (BitVec w) :=
  if x ≠ 0#w then shlOne w (bitWidth (x - 1#w)) else .ok 0#w

/-- Object representation of a word with `n` bytes, lowest byte first.  (On a big-endian host the
list is reversed; `byteswap` is the same function.) -/
def toBytes (n : Nat) (x : BitVec (8 * n)) : List (BitVec 8) :=
  (List.range n).map fun i => x.extractLsb' (8 * i) 8

/-- Value of an object representation, lowest byte first. -/
def fromBytes (n : Nat) (l : List (BitVec 8)) : BitVec (8 * n) :=
  BitVec.ofNat (8 * n) (l.foldr (fun b acc => b.toNat + 256 * acc) 0)

/-- `byteswap`, bitwise.h:181-187: bit_cast to bytes, std::reverse, bit_cast back. -/
def byteswap (n : Nat) (x : BitVec (8 * n)) : BitVec (8 * n) :=
  fromBytes n (toBytes n x).reverse

end TFR
