import Verif.Model.Commands
import Verif.Model.Mixers
import Verif.Model.Prngs
import Verif.Model.Twister
/-
The catalogues of subjects: impl/src/mixers8.h .. mixers64.h, prngs8.h .. prngs64.h, combiners8.h .. combiners64.h.
(`getMixers32`, `getMixers64` and `getCombiners32` are in Model/Mixers.lean.)
-/
namespace TFR

/-- `get_mixers<uint8_t>`, mixers8.h:31-36, with `mix8::xm3x`, mixers8.h:11-23.  `mix8_xm3x` can fault in the model (signed overflow of promoted
operands) but never does (C12): the default value is not used. -/
def getMixers8 : List (Mixer 8) := [⟨"mix8::xm3x", fun x => (mix8_xm3x x).toOption.getD 0⟩]

/-- `get_mixers<uint16_t>`, mixers16.h:31-36, with `mix16::xm3x`, mixers16.h:11-23; see `getMixers8` for the default value. -/
def getMixers16 : List (Mixer 16) := [⟨"mix16::xm3x", fun x => (mix16_xm3x x).toOption.getD 0⟩]

/-- `get_mixers<T>`, the specialisations of mixers8.h, mixers16.h, mixers32.h and mixers64.h. -/
def getMixers : (t : WT) → List (Mixer t.bits)
  | .u8 => getMixers8
  | .u16 => getMixers16
  | .u32 => getMixers32
  | .u64 => getMixers64

/-- `get_prngs<uint8_t>`, prngs8.h:26-32. -/
def getPrngs8 : List (SeedData → Stream (BitVec 8)) := [rng8_splitmix_64, rng8_pcg_64]

/-- `get_prngs<uint16_t>`, prngs16.h:34-41. -/
def getPrngs16 : List (SeedData → Stream (BitVec 16)) := [rng16_splitmix_64, rng16_pcg_64, rng16_sfc]

/-- `get_prngs<uint32_t>`, prngs32.h:200-219. -/
def getPrngs32 : List (SeedData → Stream (BitVec 32)) :=
  [rng32_mx1, rng32_mx2, rng32_mx3, rng32_mx1_64, rng32_mx2_64, rng32_mx3_64, rng32_splitmix_64, rng32_pcg_64,
   rng32_xoshiro128plus, rng32_xoshiro128plusplus, rng32_sfc, rng32_mt19937, rng32_xorshift, rng32_xorshift_64, rng32_minstd]

/-- `get_prngs<uint64_t>`, prngs64.h:117-130. -/
def getPrngs64 : List (SeedData → Stream (BitVec 64)) :=
  [rng64_mx1, rng64_mx2, rng64_mx3, rng64_splitmix, rng64_pcg, rng64_xorshift, rng64_xorshift128plus, rng64_xoroshiro128plus, rng64_sfc]

/-- `get_prngs<T>`, the specialisations of prngs8.h, prngs16.h, prngs32.h and prngs64.h. -/
def getPrngs : (t : WT) → List (SeedData → Stream (BitVec t.bits))
  | .u8 => getPrngs8
  | .u16 => getPrngs16
  | .u32 => getPrngs32
  | .u64 => getPrngs64

/-- `get_combiners<T>`, combiners8.h:11-14, combiners16.h:11-14, combiners32.h:76-84, combiners64.h:14-17. -/
def getCombiners : (t : WT) → List (Combiner t.bits)
  | .u8 => []
  | .u16 => []
  | .u32 => getCombiners32
  | .u64 => []

/-- What `test_command<T>` is given, test_command.h:68-92: the two data files, if they exist, and the catalogues. -/
def shipped (t : WT) (trng drng : Option (List (BitVec t.bits))) : Subjects t := ⟨trng, drng, getMixers t, getPrngs t, getCombiners t⟩

end TFR
