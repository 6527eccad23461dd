import Verif.Model.Mixers
import Verif.Model.BitVector
/-
tool/src/search/mixer_constructions.h, tool/src/search/search_configs.h (bit counts)
-/
namespace TFR

/-- `x >> c` for an unsigned `T` of `w` bits: defined iff `c` is below the width of the promoted operand. -/
def shrT {w : Nat} (x c : BitVec w) : R (BitVec w) :=
  if c.toNat < promotedWidth w then .ok (x >>> c.toNat) else .error .shiftTooLarge

/-- `xmx_constants<T>`, mixer_constructions.h:10-15. -/
structure Xmx (w : Nat) where
  c1 : BitVec w
  c2 : BitVec w
  m1 : BitVec w
  deriving DecidableEq

/-- `to_xmx_constants`, mixer_constructions.h:17-22. -/
def toXmx (t : WT) (bits : BitVector) : R (Xmx t.bits) := do
  let s := t.shiftBits
  let m := t.bits
  let c1 ← bits.get t.bits (0 * s) s
  let c2 ← bits.get t.bits (1 * s) s
  let m1 ← bits.get t.bits (2 * s) m
  return ⟨c1, c2, m1⟩

/-- The lambda of `create_xmx_mixer`, mixer_constructions.h:24-34. -/
def xmxMix {w : Nat} (c : Xmx w) (x : BitVec w) : R (BitVec w) := do
  let x := x ^^^ (← shrT x c.c1)
  let x ← mulAssign x c.m1
  let x := x ^^^ (← shrT x c.c2)
  return x

/-- `xm2x_constants<T>`, mixer_constructions.h:44-50. -/
structure Xm2x (w : Nat) where
  c1 : BitVec w
  c2 : BitVec w
  c3 : BitVec w
  m1 : BitVec w
  deriving DecidableEq

/-- `to_xm2x_constants`, mixer_constructions.h:52-58. -/
def toXm2x (t : WT) (bits : BitVector) : R (Xm2x t.bits) := do
  let s := t.shiftBits
  let m := t.bits
  let c1 ← bits.get t.bits (0 * s) s
  let c2 ← bits.get t.bits (1 * s) s
  let c3 ← bits.get t.bits (2 * s) s
  let m1 ← bits.get t.bits (3 * s) m
  return ⟨c1, c2, c3, m1⟩

/-- The lambda of `create_xm2x_mixer`, mixer_constructions.h:60-72. -/
def xm2xMix {w : Nat} (c : Xm2x w) (x : BitVec w) : R (BitVec w) := do
  let x := x ^^^ (← shrT x c.c1)
  let x ← mulAssign x c.m1
  let x := x ^^^ (← shrT x c.c2)
  let x ← mulAssign x c.m1
  let x := x ^^^ (← shrT x c.c3)
  return x

/-- `xm3x_constants<T>`, mixer_constructions.h:82-89. -/
structure Xm3x (w : Nat) where
  c1 : BitVec w
  c2 : BitVec w
  c3 : BitVec w
  c4 : BitVec w
  m1 : BitVec w
  deriving DecidableEq

/-- `to_xm3x_constants`, mixer_constructions.h:91-96. -/
def toXm3x (t : WT) (bits : BitVector) : R (Xm3x t.bits) := do
  let s := t.shiftBits
  let m := t.bits
  let c1 ← bits.get t.bits (0 * s) s
  let c2 ← bits.get t.bits (1 * s) s
  let c3 ← bits.get t.bits (2 * s) s
  let c4 ← bits.get t.bits (3 * s) s
  let m1 ← bits.get t.bits (4 * s) m
  return ⟨c1, c2, c3, c4, m1⟩

/-- The lambda of `create_xm3x_mixer`, mixer_constructions.h:98-112. -/
def xm3xMix {w : Nat} (c : Xm3x w) (x : BitVec w) : R (BitVec w) := do
  let x := x ^^^ (← shrT x c.c1)
  let x ← mulAssign x c.m1
  let x := x ^^^ (← shrT x c.c2)
  let x ← mulAssign x c.m1
  let x := x ^^^ (← shrT x c.c3)
  let x ← mulAssign x c.m1
  let x := x ^^^ (← shrT x c.c4)
  return x

/-- `bits` of `get_xmx_config`, search_configs.h:31-33. -/
def xmxConfigBits (t : WT) : Nat := 2 * t.shiftBits + t.bits
/-- `bits` of `get_xm2x_config`, search_configs.h:62-64. -/
def xm2xConfigBits (t : WT) : Nat := 3 * t.shiftBits + t.bits
/-- `bits` of `get_xm3x_config`, search_configs.h:96-98. -/
def xm3xConfigBits (t : WT) : Nat := 4 * t.shiftBits + t.bits

end TFR
