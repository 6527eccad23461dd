import Verif.Model.Streams
/-
impl/src/mixers8.h, mixers16.h, mixers32.h, mixers64.h, combiners32.h
Each `x ^= e; x *= c; ...` statement is one `let`.
-/
namespace TFR

/-- `x *= c` for an unsigned type of `w` bits: types narrower than `int` are multiplied in (signed,
32-bit) `int`, where a product of `2^31` or more is undefined, then converted back. -/
def mulAssign {w : Nat} (x c : BitVec w) : R (BitVec w) :=
  if w < 32 then
    if x.toNat * c.toNat < 2 ^ 31 then .ok (BitVec.ofNat w (x.toNat * c.toNat)) else .error .signedOverflow
  else .ok (x * c)


/-- `mix8::xm3x`, impl/src/mixers8.h:10-22. -/
def mix8_xm3x (x : BitVec 8) : R (BitVec 8) := do
  let C := 119#8
  let x := x ^^^ (x >>> 4)
  let x ← mulAssign x C
  let x := x ^^^ (x >>> 3)
  let x ← mulAssign x C
  let x := x ^^^ (x >>> 4)
  let x ← mulAssign x C
  let x := x ^^^ (x >>> 3)
  return x

/-- `mix16::xm3x`, impl/src/mixers16.h:10-22. -/
def mix16_xm3x (x : BitVec 16) : R (BitVec 16) := do
  let C := 13487#16
  let x := x ^^^ (x >>> 8)
  let x ← mulAssign x C
  let x := x ^^^ (x >>> 7)
  let x ← mulAssign x C
  let x := x ^^^ (x >>> 8)
  let x ← mulAssign x C
  let x := x ^^^ (x >>> 7)
  return x

/-- `mix32::mx1`, impl/src/mixers32.h:10-18. -/
def mix32_mx1 (x : BitVec 32) : BitVec 32 :=
  let C := 2471660141#32
  let x := x ^^^ (x >>> 16)
  let x := x * C
  let x := x ^^^ (x >>> 14)
  x

/-- `mix32::mx2`, impl/src/mixers32.h:20-30. -/
def mix32_mx2 (x : BitVec 32) : BitVec 32 :=
  let C := 1159349557#32
  let x := x ^^^ (x >>> 16)
  let x := x * C
  let x := x ^^^ (x >>> 14)
  let x := x * C
  let x := x ^^^ (x >>> 13)
  x

/-- `mix32::mx3`, impl/src/mixers32.h:32-44. -/
def mix32_mx3 (x : BitVec 32) : BitVec 32 :=
  let C := 1159349557#32
  let x := x ^^^ (x >>> 16)
  let x := x * C
  let x := x ^^^ (x >>> 14)
  let x := x * C
  let x := x ^^^ (x >>> 16)
  let x := x * C
  let x := x ^^^ (x >>> 14)
  x

/-- `mix32::prospector`, impl/src/mixers32.h:46-55. -/
def mix32_prospector (x : BitVec 32) : BitVec 32 :=
  let x := x ^^^ (x >>> 15)
  let x := x * 0x2c1b3c6d#32
  let x := x ^^^ (x >>> 12)
  let x := x * 0x297a2d39#32
  let x := x ^^^ (x >>> 15)
  x

/-- `mix32::prospector_boost`, impl/src/mixers32.h:57-66. -/
def mix32_prospector_boost (x : BitVec 32) : BitVec 32 :=
  let x := x ^^^ (x >>> 16)
  let x := x * 0x21f0aaad#32
  let x := x ^^^ (x >>> 15)
  let x := x * 0x735a2d97#32
  let x := x ^^^ (x >>> 15)
  x

/-- `mix32::h2_sql`, impl/src/mixers32.h:68-76. -/
def mix32_h2_sql (x : BitVec 32) : BitVec 32 :=
  let x := ((x >>> 16) ^^^ x) * 0x45d9f3b#32
  let x := ((x >>> 16) ^^^ x) * 0x45d9f3b#32
  let x := (x >>> 16) ^^^ x
  x

/-- `mix32::murmur`, impl/src/mixers32.h:78-87. -/
def mix32_murmur (x : BitVec 32) : BitVec 32 :=
  let x := x ^^^ (x >>> 16)
  let x := x * 0x85ebca6b#32
  let x := x ^^^ (x >>> 13)
  let x := x * 0xc2b2ae35#32
  let x := x ^^^ (x >>> 16)
  x

/-- `mix32::wang_1`, impl/src/mixers32.h:89-98. -/
def mix32_wang_1 (x : BitVec 32) : BitVec 32 :=
  let x := (x ^^^ 61#32) ^^^ (x >>> 16)
  let x := x * 9#32
  let x := x ^^^ (x >>> 4)
  let x := x * 0x27d4eb2d#32
  let x := x ^^^ (x >>> 15)
  x

/-- `mix32::jenkins`, impl/src/mixers32.h:100-110. -/
def mix32_jenkins (x : BitVec 32) : BitVec 32 :=
  let x := (x + 0x7ed55d16#32) + (x <<< 12)
  let x := (x ^^^ 0xc761c23c#32) ^^^ (x >>> 19)
  let x := (x + 0x165667b1#32) + (x <<< 5)
  let x := (x + 0xd3a2646c#32) ^^^ (x <<< 9)
  let x := (x + 0xfd7046c5#32) + (x <<< 3)
  let x := (x ^^^ 0xb55a4f09#32) ^^^ (x >>> 16)
  x

/-- `mix64::mx1`, impl/src/mixers64.h:19-27. -/
def mix64_mx1 (x : BitVec 64) : BitVec 64 :=
  let C := 0xe9846af9b1a615d#64
  let x := x ^^^ (x >>> 32)
  let x := x * C
  let x := x ^^^ (x >>> 29)
  x

/-- `mix64::mx2`, impl/src/mixers64.h:29-39. -/
def mix64_mx2 (x : BitVec 64) : BitVec 64 :=
  let C := 0x7574708ca19c768b#64
  let x := x ^^^ (x >>> 32)
  let x := x * C
  let x := x ^^^ (x >>> 29)
  let x := x * C
  let x := x ^^^ (x >>> 28)
  x

/-- `mix64::mx3`, impl/src/mixers64.h:41-53. -/
def mix64_mx3 (x : BitVec 64) : BitVec 64 :=
  let C := 0xbea225f9eb34556d#64
  let x := x ^^^ (x >>> 32)
  let x := x * C
  let x := x ^^^ (x >>> 29)
  let x := x * C
  let x := x ^^^ (x >>> 32)
  let x := x * C
  let x := x ^^^ (x >>> 29)
  x

/-- `mix64::nasam`, impl/src/mixers64.h:55-64. -/
def mix64_nasam (x : BitVec 64) : BitVec 64 :=
  let x := x ^^^ ((ror x 25) ^^^ (ror x 47))
  let x := x * 0x9E6C63D0676A9A99#64
  let x := x ^^^ ((x >>> 23) ^^^ (x >>> 51))
  let x := x * 0x9E6D62D06F6A9A9B#64
  let x := x ^^^ ((x >>> 23) ^^^ (x >>> 51))
  x

/-- `mix64::moremur`, impl/src/mixers64.h:66-75. -/
def mix64_moremur (x : BitVec 64) : BitVec 64 :=
  let x := x ^^^ (x >>> 27)
  let x := x * 0x3C79AC492BA7B653#64
  let x := x ^^^ (x >>> 33)
  let x := x * 0x1C69B3F74AC4AE35#64
  let x := x ^^^ (x >>> 27)
  x

/-- `mix64::lea64`, impl/src/mixers64.h:77-86. -/
def mix64_lea64 (x : BitVec 64) : BitVec 64 :=
  let x := x ^^^ (x >>> 32)
  let x := x * 0xdaba0b6eb09322e3#64
  let x := x ^^^ (x >>> 32)
  let x := x * 0xdaba0b6eb09322e3#64
  let x := x ^^^ (x >>> 32)
  x

/-- `mix64::degski64`, impl/src/mixers64.h:88-97. -/
def mix64_degski64 (x : BitVec 64) : BitVec 64 :=
  let x := x ^^^ (x >>> 32)
  let x := x * 0xd6e8feb86659fd93#64
  let x := x ^^^ (x >>> 32)
  let x := x * 0xd6e8feb86659fd93#64
  let x := x ^^^ (x >>> 32)
  x

/-- `mix64::split_mix_v13`, impl/src/mixers64.h:99-108. -/
def mix64_split_mix_v13 (x : BitVec 64) : BitVec 64 :=
  let x := x ^^^ (x >>> 30)
  let x := x * 0xbf58476d1ce4e5b9#64
  let x := x ^^^ (x >>> 27)
  let x := x * 0x94d049bb133111eb#64
  let x := x ^^^ (x >>> 31)
  x

/-- `mix64::split_mix`, impl/src/mixers64.h:110-119. -/
def mix64_split_mix (x : BitVec 64) : BitVec 64 :=
  let x := x ^^^ (x >>> 30)
  let x := x * 0xbf58476d1ce4e5b9#64
  let x := x ^^^ (x >>> 27)
  let x := x * 0x94d049bb133111eb#64
  let x := x ^^^ (x >>> 31)
  x

/-- `mix64::murmur3`, impl/src/mixers64.h:121-130. -/
def mix64_murmur3 (x : BitVec 64) : BitVec 64 :=
  let x := x ^^^ (x >>> 33)
  let x := x * 0xff51afd7ed558ccd#64
  let x := x ^^^ (x >>> 33)
  let x := x * 0xc4ceb9fe1a85ec53#64
  let x := x ^^^ (x >>> 33)
  x

/-- `mix64::xxh3`, impl/src/mixers64.h:132-139. -/
def mix64_xxh3 (x : BitVec 64) : BitVec 64 :=
  let x := x ^^^ (x >>> 37)
  let x := x * 0x165667919E3779F9#64
  let x := x ^^^ (x >>> 32)
  x

/-- `mix64::fast_hash`, impl/src/mixers64.h:141-148. -/
def mix64_fast_hash (x : BitVec 64) : BitVec 64 :=
  let x := x ^^^ (x >>> 23)
  let x := x * 0x2127599bf4325c37#64
  let x := x ^^^ (x >>> 47)
  x

/-- `combine32::mx1`, impl/src/combiners32.h:10-22. -/
def combine32_mx1 (x y : BitVec 32) : BitVec 32 :=
  let C := 2471660141#32
  let y := y ^^^ (y >>> 16)
  let y := y * C
  let x := x ^^^ y
  let x := x + C
  let x := x ^^^ (x >>> 14)
  let x := x * C
  let x := x ^^^ (x >>> 13)
  x

/-- `combine32::mx2`, impl/src/combiners32.h:24-38. -/
def combine32_mx2 (x y : BitVec 32) : BitVec 32 :=
  let C := 1159349557#32
  let y := y ^^^ (y >>> 16)
  let y := y * C
  let x := x ^^^ y
  let x := x + C
  let x := x ^^^ (x >>> 14)
  let x := x * C
  let x := x ^^^ (x >>> 13)
  let x := x * C
  let x := x ^^^ (x >>> 16)
  x

/-- `combine32::mx3`, impl/src/combiners32.h:40-56. -/
def combine32_mx3 (x y : BitVec 32) : BitVec 32 :=
  let C := 1159349557#32
  let y := y ^^^ (y >>> 16)
  let y := y * C
  let x := x ^^^ y
  let x := x + C
  let x := x ^^^ (x >>> 14)
  let x := x * C
  let x := x ^^^ (x >>> 13)
  let x := x * C
  let x := x ^^^ (x >>> 16)
  let x := x * C
  let x := x ^^^ (x >>> 14)
  x

/-- `boost_hash` inside `combine32::boost`, impl/src/combiners32.h:60-67. -/
def boost_hash (x : BitVec 32) : BitVec 32 :=
  let x := x ^^^ (x >>> 16)
  let x := x * 0x21f0aaad#32
  let x := x ^^^ (x >>> 15)
  let x := x * 0x735a2d97#32
  let x := x ^^^ (x >>> 15)
  x

/-- `combine32::boost`, impl/src/combiners32.h:58-72. -/
def combine32_boost (x y : BitVec 32) : BitVec 32 :=
  let x := x ^^^ (boost_hash y + 0x9e3779b9#32 + (x <<< 6) + (x >>> 2))
  x

/-- `get_mixers<uint32_t>`, impl/src/mixers32.h:119-132. -/
def getMixers32 : List (Mixer 32) :=
  [⟨"mix32::mx1", mix32_mx1⟩, ⟨"mix32::mx2", mix32_mx2⟩, ⟨"mix32::mx3", mix32_mx3⟩,
   ⟨"mix32::prospector", mix32_prospector⟩, ⟨"mix32::prospector_boost", mix32_prospector_boost⟩,
   ⟨"mix32::murmur", mix32_murmur⟩, ⟨"mix32::h2sql", mix32_h2_sql⟩, ⟨"mix32::wang_1", mix32_wang_1⟩,
   ⟨"mix32::jenkins", mix32_jenkins⟩]

/-- `get_mixers<uint64_t>`, impl/src/mixers64.h:156-172. -/
def getMixers64 : List (Mixer 64) :=
  [⟨"mix64::mx1", mix64_mx1⟩, ⟨"mix64::mx2", mix64_mx2⟩, ⟨"mix64::mx3", mix64_mx3⟩,
   ⟨"mix64::nasam", mix64_nasam⟩, ⟨"mix64::moremur", mix64_moremur⟩, ⟨"mix64::lea64", mix64_lea64⟩,
   ⟨"mix64::degski64", mix64_degski64⟩, ⟨"mix64::splitmix_v13", mix64_split_mix_v13⟩,
   ⟨"mix64::splitmix", mix64_split_mix⟩, ⟨"mix64::murmur3", mix64_murmur3⟩,
   ⟨"mix64::xxh3", mix64_xxh3⟩, ⟨"mix64::fast_hash", mix64_fast_hash⟩]

/-- `get_combiners<uint32_t>`, impl/src/combiners32.h:76-84. -/
def getCombiners32 : List (Combiner 32) :=
  [⟨"combine32::mx1", combine32_mx1⟩, ⟨"combine32::mx2", combine32_mx2⟩, ⟨"combine32::mx3", combine32_mx3⟩,
   ⟨"combine32::boost", combine32_boost⟩]

end TFR
