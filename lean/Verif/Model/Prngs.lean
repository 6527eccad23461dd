import Verif.Model.Mixers
import Mathlib.Logic.Function.Iterate
/-
impl/src/prngs8.h, prngs16.h, prngs32.h, prngs64.h, core/src/prng.h, and the parts of
impl/src/external/pcg/pcg_random.hpp and impl/src/external/sfc/sfc64.h they instantiate.
std::mt19937 is in Model/Twister, the rdrand and aes generators are in Model/HardwarePrngs.
-/
namespace TFR

/-- `struct seed_data`, core/src/prng.h:7-18. -/
structure SeedData where
  d0 : BitVec 64
  d1 : BitVec 64
  d2 : BitVec 64
  d3 : BitVec 64
  deriving DecidableEq

/-- `s64()`, prng.h:11. -/
def SeedData.s64 (s : SeedData) : BitVec 64 := s.d0
/-- `s32()`, prng.h:10. -/
def SeedData.s32 (s : SeedData) : BitVec 32 := s.d0.setWidth 32
/-- `s16()`, prng.h:9. -/
def SeedData.s16 (s : SeedData) : BitVec 16 := s.d0.setWidth 16
/-- `s128_64()`, prng.h:14. -/
def SeedData.s128_64 (s : SeedData) : BitVec 64 × BitVec 64 := (s.d0, s.d1)
/-- `s128_32()`, prng.h:13. -/
def SeedData.s128_32 (s : SeedData) : BitVec 32 × BitVec 32 × BitVec 32 × BitVec 32 :=
  (s.d0.setWidth 32, s.d1.setWidth 32, s.d2.setWidth 32, s.d3.setWidth 32)

/-- `rng64::mx1`, prngs64.h:13-20. -/
def rng64_mx1 (seed : SeedData) : Stream (BitVec 64) where
  σ := BitVec 64
  name := "rng64::mx1"
  state := seed.s64
  step state := let state := state + 0xe9846af9b1a615d#64; (mix64_mx1 state, state)

/-- `rng64::mx2`, prngs64.h:22-29. -/
def rng64_mx2 (seed : SeedData) : Stream (BitVec 64) where
  σ := BitVec 64
  name := "rng64::mx2"
  state := seed.s64
  step state := let state := state + 0x7574708ca19c768b#64; (mix64_mx2 state, state)

/-- `rng64::mx3`, prngs64.h:31-38. -/
def rng64_mx3 (seed : SeedData) : Stream (BitVec 64) where
  σ := BitVec 64
  name := "rng64::mx3"
  state := seed.s64
  step state := let state := state + 0xbea225f9eb34556d#64; (mix64_mx3 state, state)

/-- `rng64::splitmix`, prngs64.h:40-54. -/
def rng64_splitmix (seed : SeedData) : Stream (BitVec 64) where
  σ := BitVec 64
  name := "rng64::splitmix"
  state := seed.s64
  step state :=
    let state := state + 0x9E3779B97F4A7C15#64
    let x := state
    let x := x ^^^ (x >>> 30)
    let x := x * 0xBF58476D1CE4E5B9#64
    let x := x ^^^ (x >>> 27)
    let x := x * 0x94D049BB133111EB#64
    let x := x ^^^ (x >>> 31)
    (x, state)

/-! #### PCG -/

/-- `engine` with `specific_stream`, `default_multiplier`, `output_previous = true`
(pcg_random.hpp:287-325, 340-480, 727-732): state and increment. -/
structure Pcg where
  state : BitVec 64
  inc : BitVec 64
  deriving DecidableEq

/-- `default_multiplier<uint64_t>`, pcg_random.hpp:146. -/
def pcgMult : BitVec 64 := 6364136223846793005#64
/-- `default_increment<uint64_t>`, pcg_random.hpp:147. -/
def pcgDefaultInc : BitVec 64 := 1442695040888963407#64

/-- `bump`, pcg_random.hpp:387-390. -/
def pcgBump (inc state : BitVec 64) : BitVec 64 := state * pcgMult + inc

/-- One-argument constructor, pcg_random.hpp:459-464 (default stream). -/
def pcgSeed (s : BitVec 64) : Pcg := ⟨pcgBump pcgDefaultInc (s + pcgDefaultInc), pcgDefaultInc⟩

/-- Two-argument constructor with a stream, pcg_random.hpp:469-477 and 319-324. -/
def pcgSeedStream (s stream : BitVec 64) : Pcg :=
  let inc := (stream <<< 1) ||| 1#64
  ⟨pcgBump inc (s + inc), inc⟩

/-- `base_generate0`: the old state, and the advanced engine, pcg_random.hpp:397-402. -/
def pcgNext (e : Pcg) : BitVec 64 × Pcg := (e.state, { e with state := pcgBump e.inc e.state })

/-- `rxs_m_xs_mixin<uint64_t, uint64_t>::output`, pcg_random.hpp:895-915
(opbits = 5, mask = 31, shift = 0, last shift (2*64+2)/3 = 43). -/
def pcgRxsMXs (internal : BitVec 64) : BitVec 64 :=
  let rshift := (internal >>> 59).toNat &&& 31
  let internal := internal ^^^ (internal >>> (5 + rshift))
  let internal := internal * 12605985483714917081#64
  let result := internal >>> 0
  let result := result ^^^ (result >>> 43)
  result

/-- `xsh_rr_mixin<uint32_t, uint64_t>::output`, pcg_random.hpp:794-822
(sparebits = 32, opbits = 5, amplifier = 0, bottomspare = 27, xshift = 18). -/
def pcgXshRr (internal : BitVec 64) : BitVec 32 :=
  let rot := (internal >>> 59).toNat &&& 31
  let amprot := (rot <<< 0) &&& 31
  let internal := internal ^^^ (internal >>> 18)
  let result := (internal >>> 27).setWidth 32
  result.rotateRight amprot

/-- `pcg64_once_insecure` from any engine state. -/
def pcg64Stream (e : Pcg) : Stream (BitVec 64) where
  σ := Pcg
  name := "rng64::pcg"
  state := e
  step e := let r := pcgNext e; (pcgRxsMXs r.1, r.2)

/-- `pcg32` from any engine state. -/
def pcg32Stream (e : Pcg) : Stream (BitVec 32) where
  σ := Pcg
  name := "rng32::pcg_64"
  state := e
  step e := let r := pcgNext e; (pcgXshRr r.1, r.2)

/-- `rng64::pcg`, prngs64.h:56-63. -/
def rng64_pcg (seed : SeedData) : Stream (BitVec 64) := pcg64Stream (pcgSeed seed.s64)

/-! #### linear generators -/

/-- `rng64::xorshift`, prngs64.h:65-74: the state update. -/
def xorshift64Step (x : BitVec 64) : BitVec 64 :=
  let x := x ^^^ (x <<< 13)
  let x := x ^^^ (x >>> 7)
  let x := x ^^^ (x <<< 17)
  x

def rng64_xorshift (seed : SeedData) : Stream (BitVec 64) where
  σ := BitVec 64
  name := "rng64::xorshift"
  state := seed.s64
  step x := let x := xorshift64Step x; (x, x)

/-- `rng64::xorshift128plus_128`, prngs64.h:76-89: the state update. -/
def xorshift128Step (s : BitVec 64 × BitVec 64) : BitVec 64 × BitVec 64 :=
  let s1 := s.1
  let s0 := s.2
  let n0 := s0
  let s1 := s1 ^^^ (s1 <<< 23)
  let n1 := s1 ^^^ s0 ^^^ (s1 >>> 18) ^^^ (s0 >>> 5)
  (n0, n1)

def rng64_xorshift128plus (seed : SeedData) : Stream (BitVec 64) where
  σ := BitVec 64 × BitVec 64
  name := "rng64::xorshift128+_128"
  state := seed.s128_64
  step s := (s.2 + s.1, xorshift128Step s)

/-- `rng64::xoroshiro128plus_128`, prngs64.h:91-105: the state update. -/
def xoroshiro128Step (s : BitVec 64 × BitVec 64) : BitVec 64 × BitVec 64 :=
  let s0 := s.1
  let s1 := s.2
  let s1 := s1 ^^^ s0
  let n0 := rol s0 55 ^^^ s1 ^^^ (s1 <<< 14)
  let n1 := rol s1 36
  (n0, n1)

def rng64_xoroshiro128plus (seed : SeedData) : Stream (BitVec 64) where
  σ := BitVec 64 × BitVec 64
  name := "rng64::xoroshiro128+_128"
  state := seed.s128_64
  step s := (s.1 + s.2, xoroshiro128Step s)

/-! #### sfc -/

/-- `sfc<itype, itype, p, q, r>`, sfc64.h:38-42: `a_, b_, c_, d_`. -/
structure Sfc (w : Nat) where
  a : BitVec w
  b : BitVec w
  c : BitVec w
  d : BitVec w
  deriving DecidableEq

/-- `operator()`, sfc64.h:77-84.  (For the 16-bit version the arithmetic is done in `int`, where nothing can
overflow, and truncated on assignment: the same as 16-bit modular arithmetic.  `rotate` with constant
`0 < k < w` is a left rotation.) -/
def sfcNext (p q r : Nat) {w : Nat} (s : Sfc w) : BitVec w × Sfc w :=
  let tmp := s.a + s.b + s.d
  let d := s.d + 1#w
  let a := s.b ^^^ (s.b >>> q)
  let b := s.c + (s.c <<< r)
  let c := ((s.c <<< p) ||| (s.c >>> (w - p))) + tmp
  (tmp, ⟨a, b, c, d⟩)

/-- Constructors, sfc64.h:59-70: all three seeds equal, counter 1, then 12 rounds. -/
def sfcSeed (p q r : Nat) {w : Nat} (seed : BitVec w) : Sfc w :=
  (fun s => (sfcNext p q r s).2)^[12] ⟨seed, seed, seed, 1#w⟩

def sfcStream (name : String) (p q r : Nat) {w : Nat} (s : Sfc w) : Stream (BitVec w) where
  σ := Sfc w
  name := name
  state := s
  step s := sfcNext p q r s

/-- `rng64::sfc_256`, prngs64.h:107-113; sfc64.h:114,117. -/
def rng64_sfc (seed : SeedData) : Stream (BitVec 64) := sfcStream "rng64::sfc_256" 24 11 3 (sfcSeed 24 11 3 seed.s64)
/-- `rng32::sfc_128`, prngs32.h:190-196; sfc64.h:121,125. -/
def rng32_sfc (seed : SeedData) : Stream (BitVec 32) := sfcStream "rng32::sfc_128" 21 9 3 (sfcSeed 21 9 3 seed.s32)
/-- `rng16::sfc_64`, prngs16.h:24-30; sfc64.h:134,138. -/
def rng16_sfc (seed : SeedData) : Stream (BitVec 16) := sfcStream "rng16::sfc_64" 6 5 3 (sfcSeed 6 5 3 seed.s16)

/-! #### 32 bit -/

/-- `rng32::mx1`, prngs32.h:20-27. -/
def rng32_mx1 (seed : SeedData) : Stream (BitVec 32) where
  σ := BitVec 32
  name := "rng32::mx1"
  state := seed.s32
  step state := let state := state + 2471660141#32; (mix32_mx1 state, state)

/-- `rng32::mx2`, prngs32.h:29-36. -/
def rng32_mx2 (seed : SeedData) : Stream (BitVec 32) where
  σ := BitVec 32
  name := "rng32::mx2"
  state := seed.s32
  step state := let state := state + 1159349557#32; (mix32_mx2 state, state)

/-- `rng32::mx3`, prngs32.h:38-45. -/
def rng32_mx3 (seed : SeedData) : Stream (BitVec 32) where
  σ := BitVec 32
  name := "rng32::mx3"
  state := seed.s32
  step state := let state := state + 1159349557#32; (mix32_mx3 state, state)

/-- `rng32::mx1_64`, prngs32.h:47-53. -/
def rng32_mx1_64 (seed : SeedData) : Stream (BitVec 32) :=
  (rng64_mx1 seed).mapS "rng32::mx1_64" (fun x => x.setWidth 32)
/-- `rng32::mx2_64`, prngs32.h:55-61. -/
def rng32_mx2_64 (seed : SeedData) : Stream (BitVec 32) :=
  (rng64_mx2 seed).mapS "rng32::mx2_64" (fun x => x.setWidth 32)
/-- `rng32::mx3_64`, prngs32.h:63-69. -/
def rng32_mx3_64 (seed : SeedData) : Stream (BitVec 32) :=
  (rng64_mx3 seed).mapS "rng32::mx3_64" (fun x => x.setWidth 32)
/-- `rng32::splitmix_64`, prngs32.h:71-77. -/
def rng32_splitmix_64 (seed : SeedData) : Stream (BitVec 32) :=
  (rng64_splitmix seed).mapS "rng32::splitmix_64" (fun x => x.setWidth 32)
/-- `rng32::pcg_64`, prngs32.h:79-85. -/
def rng32_pcg_64 (seed : SeedData) : Stream (BitVec 32) := pcg32Stream (pcgSeed seed.s64)

/-- Words of a 128-bit xoshiro state. -/
abbrev X128 := BitVec 32 × BitVec 32 × BitVec 32 × BitVec 32

/-- `rng32::xoshiro128plus_128` and `xoshiro128plusplus_128`, prngs32.h:92-98 and 109-118: the state update. -/
def xoshiro128Step (s : X128) : X128 :=
  let (s0, s1, s2, s3) := s
  let t := s1 <<< 9
  let s2 := s2 ^^^ s0
  let s3 := s3 ^^^ s1
  let s1 := s1 ^^^ s2
  let s0 := s0 ^^^ s3
  let s2 := s2 ^^^ t
  let s3 := rol s3 11
  (s0, s1, s2, s3)

/-- `rng32::xoshiro128plus_128`, prngs32.h:87-102. -/
def rng32_xoshiro128plus (seed : SeedData) : Stream (BitVec 32) where
  σ := X128
  name := "rng32::xoshiro128+_128"
  state := seed.s128_32
  step s := (s.1 + s.2.2.2, xoshiro128Step s)

/-- `rng32::xoshiro128plusplus_128`, prngs32.h:104-123. -/
def rng32_xoshiro128plusplus (seed : SeedData) : Stream (BitVec 32) where
  σ := X128
  name := "rng32::xoshiro128++_128"
  state := seed.s128_32
  step s := (rol (s.1 + s.2.2.2) 7 + s.1, xoshiro128Step s)

/-- `rng32::xorshift`, prngs32.h:125-135: the state update. -/
def xorshift32Step (x : BitVec 32) : BitVec 32 :=
  let x := x ^^^ (x <<< 13)
  let x := x ^^^ (x >>> 17)
  let x := x ^^^ (x <<< 5)
  x

def rng32_xorshift (seed : SeedData) : Stream (BitVec 32) where
  σ := BitVec 32
  name := "rng32::xorshift"
  state := seed.s32
  step x := let x := xorshift32Step x; (x, x)

/-- `rng32::xorshift_64`, prngs32.h:137-143. -/
def rng32_xorshift_64 (seed : SeedData) : Stream (BitVec 32) :=
  (rng64_xorshift seed).mapS "rng32::xorshift_64" (fun x : BitVec 64 => (x >>> 32).setWidth 32)

/-- `std::minstd_rand` (`linear_congruential_engine<uint_fast32_t, 48271, 0, 2147483647>`) as specified by the
C++ standard: a seed divisible by the modulus becomes 1. Used by `rng32::minstd_rand`, prngs32.h:154-161. -/
def minstdSeed (seed : BitVec 32) : Nat :=
  let s := seed.toNat % 2147483647
  if s = 0 then 1 else s
def minstdStep (x : Nat) : Nat := 48271 * x % 2147483647
def rng32_minstd (seed : SeedData) : Stream (BitVec 32) where
  σ := Nat
  name := "rng32::minstd_rand"
  state := minstdSeed seed.s32
  step x := let x := minstdStep x; (BitVec.ofNat 32 x, x)

/-! #### 16 and 8 bit -/

/-- `rng16::splitmix_64`, prngs16.h:8-14. -/
def rng16_splitmix_64 (seed : SeedData) : Stream (BitVec 16) :=
  (rng64_splitmix seed).mapS "rng16::splitmix_64" (fun x : BitVec 64 => (x >>> 48).setWidth 16)
/-- `rng16::pcg_64`, prngs16.h:16-22. -/
def rng16_pcg_64 (seed : SeedData) : Stream (BitVec 16) :=
  (rng64_pcg seed).mapS "rng16::pcg_64" (fun x => x.setWidth 16)
/-- `rng8::splitmix_64`, prngs8.h:8-14. -/
def rng8_splitmix_64 (seed : SeedData) : Stream (BitVec 8) :=
  (rng64_splitmix seed).mapS "rng8::splitmix_64" (fun x : BitVec 64 => (x >>> 56).setWidth 8)
/-- `rng8::pcg_64`, prngs8.h:16-22. -/
def rng8_pcg_64 (seed : SeedData) : Stream (BitVec 8) :=
  (rng64_pcg seed).mapS "rng8::pcg_64" (fun x => x.setWidth 8)

end TFR
