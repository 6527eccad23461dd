import Verif.Model.Prngs
/-
impl/src/external/aes/aes.cpp and impl/src/external/rdrand/rdrand.cpp, and the generators of impl/src/prngs32.h that use them
(`rng32::aes`, `rng32::aes_128`, `rng32::rdrand`).  The intrinsics are modelled after Intel's description: `_mm_aesenc_si128` is one round of
AES (FIPS 197), `_rdrandNN_step` either fails or delivers a word.
-/
namespace TFR

/-- `__m128i` as its 16 bytes in memory order. -/
abbrev M128 := Fin 16 → BitVec 8

/-- Byte `i` of a word. -/
def byteOf (x : BitVec 32) (i : Nat) : BitVec 8 := x.extractLsb' (8 * i) 8

/-- The word with the given bytes, lowest first. -/
def wordOf (b0 b1 b2 b3 : BitVec 8) : BitVec 32 := b3 ++ b2 ++ b1 ++ b0

/-- `_mm_setr_epi32`. -/
def mmSetr (a b c d : BitVec 32) : M128 := fun i =>
  byteOf (if i.val < 4 then a else if i.val < 8 then b else if i.val < 12 then c else d) (i.val % 4)

/-- `_mm_set1_epi32`. -/
def mmSet1 (x : BitVec 32) : M128 := mmSetr x x x x

/-- The word in lane `j` (`_mm_extract_epi32`, `_mm_storeu_si128`). -/
def mmLane (s : M128) (j : Fin 4) : BitVec 32 :=
  wordOf (s ⟨4 * j.val, by omega⟩) (s ⟨4 * j.val + 1, by omega⟩) (s ⟨4 * j.val + 2, by omega⟩) (s ⟨4 * j.val + 3, by omega⟩)

/-- `_mm_add_epi64`: two additions modulo `2^64`. -/
def mmAdd64 (s t : M128) : M128 :=
  let lo : BitVec 64 := (mmLane s 1 ++ mmLane s 0) + (mmLane t 1 ++ mmLane t 0)
  let hi : BitVec 64 := (mmLane s 3 ++ mmLane s 2) + (mmLane t 3 ++ mmLane t 2)
  mmSetr (lo.setWidth 32) ((lo >>> 32).setWidth 32) (hi.setWidth 32) ((hi >>> 32).setWidth 32)

/-- Multiplication by `x` in GF(2^8) (FIPS 197, xtime). -/
def aesXtime (b : BitVec 8) : BitVec 8 := (b <<< 1) ^^^ (if b.getLsbD 7 then 0x1b#8 else 0#8)

/-- Multiplication in GF(2^8): the bits `k-1, ..., 0` of the second factor, highest first. -/
def aesMulLoop (a b : BitVec 8) : Nat → BitVec 8 → BitVec 8
  | 0, acc => acc
  | k + 1, acc => aesMulLoop a b k (aesXtime acc ^^^ (if b.getLsbD k then a else 0#8))
def aesMul (a b : BitVec 8) : BitVec 8 := aesMulLoop a b 8 0#8

/-- The inverse in GF(2^8), 0 for 0: the 254-th power. -/
def aesInv (a : BitVec 8) : BitVec 8 :=
  let a2 := aesMul a a
  let a3 := aesMul a2 a
  let a6 := aesMul a3 a3
  let a12 := aesMul a6 a6
  let a15 := aesMul a12 a3
  let a30 := aesMul a15 a15
  let a60 := aesMul a30 a30
  let a120 := aesMul a60 a60
  let a126 := aesMul a120 a6
  let a127 := aesMul a126 a
  aesMul a127 a127

/-- The S-box (FIPS 197, 5.1.1): inverse and affine transformation. -/
def aesSbox (a : BitVec 8) : BitVec 8 :=
  let b := aesInv a
  b ^^^ rol b 1 ^^^ rol b 2 ^^^ rol b 3 ^^^ rol b 4 ^^^ 0x63#8

/-- ShiftRows: byte `r + 4c` is taken from column `c + r`. -/
def aesShiftRows (s : M128) : M128 := fun i => s ⟨i.val % 4 + 4 * ((i.val / 4 + i.val % 4) % 4), by omega⟩

/-- One column of MixColumns. -/
def aesMixColumn (a0 a1 a2 a3 : BitVec 8) : BitVec 8 × BitVec 8 × BitVec 8 × BitVec 8 :=
  (aesXtime a0 ^^^ (aesXtime a1 ^^^ a1) ^^^ a2 ^^^ a3,
   a0 ^^^ aesXtime a1 ^^^ (aesXtime a2 ^^^ a2) ^^^ a3,
   a0 ^^^ a1 ^^^ aesXtime a2 ^^^ (aesXtime a3 ^^^ a3),
   (aesXtime a0 ^^^ a0) ^^^ a1 ^^^ a2 ^^^ aesXtime a3)

/-- MixColumns. -/
def aesMixColumns (s : M128) : M128 := fun i =>
  let c := i.val / 4
  let m := aesMixColumn (s ⟨4 * c, by omega⟩) (s ⟨4 * c + 1, by omega⟩) (s ⟨4 * c + 2, by omega⟩) (s ⟨4 * c + 3, by omega⟩)
  if i.val % 4 = 0 then m.1 else if i.val % 4 = 1 then m.2.1 else if i.val % 4 = 2 then m.2.2.1 else m.2.2.2

/-- `_mm_aesenc_si128`: ShiftRows, SubBytes, MixColumns, and exclusive or with the round key. -/
def mmAesenc (a key : M128) : M128 :=
  let t := aesShiftRows a
  let t : M128 := fun i => aesSbox (t i)
  let t := aesMixColumns t
  fun i => t i ^^^ key i

/-- `aes_mix`, aes.cpp:8-15. -/
def aesMix (x : BitVec 32) : BitVec 32 :=
  let key := mmSet1 2471660141#32
  let a := mmSet1 x
  let r := mmAesenc a key
  mmLane r 0

/-- The constant `increment`, aes.cpp:19-20 (`_mm_set_epi8` takes the highest byte first). -/
def aesIncrement : M128 := fun i =>
  [0x01#8, 0x02#8, 0x03#8, 0x05#8, 0x07#8, 0x0B#8, 0x0D#8, 0x11#8, 0x13#8, 0x17#8, 0x1d#8, 0x1f#8, 0x25#8, 0x29#8, 0x2b#8, 0x2f#8].getD i.val 0#8

/-- `aes_prng128`, aes.cpp:17-27: the result and the new state. -/
def aesPrng128 (state : X128) : BitVec 32 × X128 :=
  let s := mmSetr state.1 state.2.1 state.2.2.1 state.2.2.2
  let s := mmAdd64 s aesIncrement
  let s := mmAesenc s aesIncrement
  (mmLane s 0, (mmLane s 0, mmLane s 1, mmLane s 2, mmLane s 3))

/-- `rng32::aes`, prngs32.h:171-180. -/
def rng32_aes (seed : SeedData) : Stream (BitVec 32) where
  σ := BitVec 32
  name := "rng32::aes"
  state := seed.s32
  step state := let state := aesMix state; (state, state)

/-- `rng32::aes_128`, prngs32.h:182-188, from a given state. -/
def aes128Stream (s : X128) : Stream (BitVec 32) where
  σ := X128
  name := "rng32::aes_128"
  state := s
  step s := aesPrng128 s

/-- `rng32::aes_128`, prngs32.h:182-188. -/
def rng32_aes_128 (seed : SeedData) : Stream (BitVec 32) := aes128Stream seed.s128_32

/-- The retry loop of `rdrand_32` and `rdrand_64`, rdrand.cpp:11-20 and 22-33: `hw i` is the outcome of the `i`-th execution of the
instruction, `none` for a failure; `tries` tries are left, `i` executions have been made.  The word and the number of executions. -/
def rdrandLoop {w : Nat} (hw : Nat → Option (BitVec w)) : (tries i : Nat) → BitVec w × Nat
  | 0, i => (0#w, i)
  | tries + 1, i =>
    match hw i with
    | some x => (x, i + 1)
    | none => rdrandLoop hw tries (i + 1)

/-- `rng32::rdrand`, prngs32.h:163-169: the state is the number of executions of the instruction so far. -/
def rng32_rdrand (hw : Nat → Option (BitVec 32)) : Stream (BitVec 32) where
  σ := Nat
  name := "rng32::rdrand"
  state := 0
  step i := rdrandLoop hw 10 i

end TFR
