import Verif.Model.Prngs
/-
`rng32::mt19937`, impl/src/prngs32.h:145-152.  It is `std::mt19937`, modelled after the C++ standard's definition of
`mersenne_twister_engine<uint_fast32_t, 32, 624, 397, 31, 0x9908b0df, 11, 0xffffffff, 7, 0x9d2c5680, 15, 0xefc60000, 18, 1812433253>`.
-/
namespace TFR

/-- The state of the engine: the last 624 words `X_{i-624}, ..., X_{i-1}`, oldest first. -/
abbrev MtState := Fin 624 → BitVec 32

/-- The matrix of the recurrence applied to `Y`: `(Y >> 1) ^ (Y & 1 ? a : 0)`. -/
def mtTwist (y : BitVec 32) : BitVec 32 := (y >>> 1) ^^^ (if y.getLsbD 0 then 0x9908b0df#32 else 0#32)

/-- `X_i = X_{i+m-n} ^ twist(upper bit of X_{i-n}, lower 31 bits of X_{i+1-n})`. -/
def mtNew (s : MtState) : BitVec 32 := s 397 ^^^ mtTwist ((s 0 &&& 0x80000000#32) ||| (s 1 &&& 0x7fffffff#32))

/-- The state transition. -/
def mtStep (s : MtState) : MtState := fun i => if h : i.val + 1 < 624 then s ⟨i.val + 1, h⟩ else mtNew s

/-- The tempering of the generation algorithm. -/
def mtTemper (x : BitVec 32) : BitVec 32 :=
  let z := x ^^^ ((x >>> 11) &&& 0xffffffff#32)
  let z := z ^^^ ((z <<< 7) &&& 0x9d2c5680#32)
  let z := z ^^^ ((z <<< 15) &&& 0xefc60000#32)
  z ^^^ (z >>> 18)

/-- The words set by the constructor: `X_{-n} = seed`, `X_i = f (X_{i-1} ^ (X_{i-1} >> 30)) + i mod n`. -/
def mtSeedWord (seed : BitVec 32) : Nat → BitVec 32
  | 0 => seed
  | i + 1 =>
    let x := mtSeedWord seed i
    1812433253#32 * (x ^^^ (x >>> 30)) + BitVec.ofNat 32 (i + 1)

/-- The engine in a given state as a stream: `operator()` makes the transition and returns the tempered new word. -/
def mtStream (s : MtState) : Stream (BitVec 32) where
  σ := MtState
  name := "rng32::mt19937"
  state := s
  step s := (mtTemper (mtNew s), mtStep s)

/-- `rng32::mt19337`, prngs32.h:145-152 (it is called `rng32::mt19937` in the output). -/
def rng32_mt19937 (seed : SeedData) : Stream (BitVec 32) := mtStream fun i => mtSeedWord seed.s32 i.val

end TFR
