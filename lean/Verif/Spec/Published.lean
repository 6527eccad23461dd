import Mathlib.Logic.Function.Iterate
/-
The published mixers, combiners and generators as short programs: each statement gives a variable the value of an expression over unsigned
words of `w` bits.  The meaning of the expressions is arithmetic on natural numbers.
-/
namespace TFR.Spec

/-- Expressions over words held in numbered variables. -/
inductive WExp where
  | var (i : Nat)
  | num (n : Nat)
  | add (a b : WExp)
  | mul (a b : WExp)
  | xor (a b : WExp)
  | or (a b : WExp)
  | and (a b : WExp)
  | shr (a b : WExp)
  | shl (a b : WExp)
  | rotl (a : WExp) (k : Nat)
  | rotr (a : WExp) (k : Nat)

instance : Add WExp := ⟨.add⟩
instance : Mul WExp := ⟨.mul⟩
instance : XorOp WExp := ⟨.xor⟩
instance : OrOp WExp := ⟨.or⟩
instance : AndOp WExp := ⟨.and⟩
instance : HShiftRight WExp Nat WExp := ⟨fun a k => .shr a (.num k)⟩
instance : HShiftLeft WExp Nat WExp := ⟨fun a k => .shl a (.num k)⟩
instance (n : Nat) : OfNat WExp n := ⟨.num n⟩

/-- The value of an expression in words of `w` bits: sums, products and left shifts modulo `2^w`, right shifts divide. -/
def WExp.value (w : Nat) (env : Nat → Nat) : WExp → Nat
  | .var i => env i
  | .num n => n % 2 ^ w
  | .add a b => (a.value w env + b.value w env) % 2 ^ w
  | .mul a b => a.value w env * b.value w env % 2 ^ w
  | .xor a b => a.value w env ^^^ b.value w env
  | .or a b => a.value w env ||| b.value w env
  | .and a b => a.value w env &&& b.value w env
  | .shr a b => a.value w env / 2 ^ b.value w env
  | .shl a b => a.value w env * 2 ^ b.value w env % 2 ^ w
  | .rotl a k => a.value w env * 2 ^ k % 2 ^ w ||| a.value w env / 2 ^ (w - k)
  | .rotr a k => a.value w env / 2 ^ k ||| a.value w env * 2 ^ (w - k) % 2 ^ w

/-- A program: the statements in order, each with the variable it sets. -/
abbrev WProgram := List (Nat × WExp)

/-- The values of the variables after a program. -/
def WProgram.run (w : Nat) (p : WProgram) (env : Nat → Nat) : Nat → Nat :=
  p.foldl (fun e s => Function.update e s.1 (s.2.value w e)) env

/-- The result of the program for the argument `x` (and the second argument `y`): the value of variable 0 at its end. -/
def WProgram.result (w : Nat) (p : WProgram) (x : Nat) (y : Nat := 0) : Nat := p.run w (fun i => if i = 0 then x else y) 0

/-- The first two variables. -/
abbrev WExp.x : WExp := .var 0
abbrev WExp.y : WExp := .var 1

section
open WExp (x y)

/-- `x := x ^ x >> a; x *= c; x ^= x >> b; ...`: shifts and multiplications in turn, beginning and ending with a shift. -/
def xorMultiply : List Nat → List Nat → WProgram
  | a :: as, c :: cs => (0, x ^^^ x >>> a) :: (0, x * .num c) :: xorMultiply as cs
  | as, _ => as.map fun a => (0, x ^^^ x >>> a)

/-- The mixers of 8 and 16 bits. -/
def published8 : List (String × WProgram) := [("mix8::xm3x", xorMultiply [4, 3, 4, 3] [119, 119, 119])]
def published16 : List (String × WProgram) := [("mix16::xm3x", xorMultiply [8, 7, 8, 7] [13487, 13487, 13487])]

/-- The mixers of 32 bits. -/
def published32 : List (String × WProgram) :=
  [("mix32::mx1", xorMultiply [16, 14] [2471660141]),
   ("mix32::mx2", xorMultiply [16, 14, 13] [1159349557, 1159349557]),
   ("mix32::mx3", xorMultiply [16, 14, 16, 14] [1159349557, 1159349557, 1159349557]),
   ("mix32::prospector", xorMultiply [15, 12, 15] [0x2c1b3c6d, 0x297a2d39]),
   ("mix32::prospector_boost", xorMultiply [16, 15, 15] [0x21f0aaad, 0x735a2d97]),
   ("mix32::murmur", xorMultiply [16, 13, 16] [0x85ebca6b, 0xc2b2ae35]),
   ("mix32::h2sql", xorMultiply [16, 16, 16] [0x45d9f3b, 0x45d9f3b]),
   ("mix32::wang_1", [(0, (x ^^^ .num 61) ^^^ x >>> 16), (0, x * 9), (0, x ^^^ x >>> 4), (0, x * 0x27d4eb2d), (0, x ^^^ x >>> 15)]),
   ("mix32::jenkins", [(0, (x + .num 0x7ed55d16) + x <<< 12), (0, (x ^^^ .num 0xc761c23c) ^^^ x >>> 19), (0, (x + .num 0x165667b1) + x <<< 5),
      (0, (x + .num 0xd3a2646c) ^^^ x <<< 9), (0, (x + .num 0xfd7046c5) + x <<< 3), (0, (x ^^^ .num 0xb55a4f09) ^^^ x >>> 16)])]

/-- The mixers of 64 bits. -/
def published64 : List (String × WProgram) :=
  [("mix64::mx1", xorMultiply [32, 29] [0x0e9846af9b1a615d]),
   ("mix64::mx2", xorMultiply [32, 29, 28] [0x7574708ca19c768b, 0x7574708ca19c768b]),
   ("mix64::mx3", xorMultiply [32, 29, 32, 29] [0xbea225f9eb34556d, 0xbea225f9eb34556d, 0xbea225f9eb34556d]),
   ("mix64::nasam", [(0, x ^^^ (x.rotr 25 ^^^ x.rotr 47)), (0, x * 0x9e6c63d0676a9a99), (0, x ^^^ (x >>> 23 ^^^ x >>> 51)),
      (0, x * 0x9e6d62d06f6a9a9b), (0, x ^^^ (x >>> 23 ^^^ x >>> 51))]),
   ("mix64::moremur", xorMultiply [27, 33, 27] [0x3c79ac492ba7b653, 0x1c69b3f74ac4ae35]),
   ("mix64::lea64", xorMultiply [32, 32, 32] [0xdaba0b6eb09322e3, 0xdaba0b6eb09322e3]),
   ("mix64::degski64", xorMultiply [32, 32, 32] [0xd6e8feb86659fd93, 0xd6e8feb86659fd93]),
   ("mix64::splitmix_v13", xorMultiply [30, 27, 31] [0xbf58476d1ce4e5b9, 0x94d049bb133111eb]),
   ("mix64::splitmix", xorMultiply [30, 27, 31] [0xbf58476d1ce4e5b9, 0x94d049bb133111eb]),
   ("mix64::murmur3", xorMultiply [33, 33, 33] [0xff51afd7ed558ccd, 0xc4ceb9fe1a85ec53]),
   ("mix64::xxh3", xorMultiply [37, 32] [0x165667919e3779f9]),
   ("mix64::fast_hash", xorMultiply [23, 47] [0x2127599bf4325c37])]

/-- The combiners `(x, y)`: the `mx` ones scramble `y`, add it in and go on with `x`; `boost` is `hash_combine`. -/
def publishedCombiners : List (String × WProgram) :=
  [("combine32::mx1", [(1, y ^^^ y >>> 16), (1, y * 2471660141), (0, x ^^^ y), (0, x + 2471660141)] ++ xorMultiply [14, 13] [2471660141]),
   ("combine32::mx2", [(1, y ^^^ y >>> 16), (1, y * 1159349557), (0, x ^^^ y), (0, x + 1159349557)] ++
      xorMultiply [14, 13, 16] [1159349557, 1159349557]),
   ("combine32::mx3", [(1, y ^^^ y >>> 16), (1, y * 1159349557), (0, x ^^^ y), (0, x + 1159349557)] ++
      xorMultiply [14, 13, 16, 14] [1159349557, 1159349557, 1159349557]),
   ("combine32::boost", [(1, y ^^^ y >>> 16), (1, y * 0x21f0aaad), (1, y ^^^ y >>> 15), (1, y * 0x735a2d97), (1, y ^^^ y >>> 15),
      (0, x ^^^ (y + .num 0x9e3779b9 + x <<< 6 + x >>> 2))])]

/-- A generator on words of `word` bits: how it is seeded from the four 64-bit seed words (which are in the variables 0 to 3, cut to the width of
the words), and what a call does.  The result of a call is left in variable 9. -/
structure Generator where
  word : Nat
  seed : WProgram
  call : WProgram

/-- The `k`-th result (from 0), cut to `w` bits. -/
def Generator.output (g : Generator) (w : Nat) (seed : Nat → Nat) (k : Nat) : Nat :=
  (g.call.run g.word)^[k + 1] (g.seed.run g.word fun i => seed i % 2 ^ g.word) 9 % 2 ^ w

/-- A counter that is mixed: `x += c; return mix(x)`. -/
def counterBased (word c : Nat) (shifts factors : List Nat) : Generator :=
  ⟨word, [], (8, x + .num c) :: (0, x + .num c) :: (xorMultiply shifts factors ++ [(9, x), (0, WExp.var 8)])⟩

/-- The multiplication and addition of PCG, with the increment `c`. -/
def pcgAdvance (c : Nat) : Nat × WExp := (0, x * 6364136223846793005 + .num c)

/-- The low bits / the high `w` bits of the result of another generator. -/
def Generator.top (g : Generator) (w : Nat) : Generator := { g with call := g.call ++ [(9, WExp.var 9 >>> (g.word - w))] }

def mx1_64 : Generator := counterBased 64 0x0e9846af9b1a615d [32, 29] [0x0e9846af9b1a615d]
def mx2_64 : Generator := counterBased 64 0x7574708ca19c768b [32, 29, 28] [0x7574708ca19c768b, 0x7574708ca19c768b]
def mx3_64 : Generator := counterBased 64 0xbea225f9eb34556d [32, 29, 32, 29] [0xbea225f9eb34556d, 0xbea225f9eb34556d, 0xbea225f9eb34556d]
def splitmix : Generator := counterBased 64 0x9e3779b97f4a7c15 [30, 27, 31] [0xbf58476d1ce4e5b9, 0x94d049bb133111eb]

/-- `pcg64_once_insecure`: RXS M XS on the old state. -/
def pcg64 : Generator :=
  ⟨64, [(0, x + 1442695040888963407), pcgAdvance 1442695040888963407],
   [(9, x ^^^ x.shr (.num 5 + x >>> 59)), (9, WExp.var 9 * 12605985483714917081), (9, WExp.var 9 ^^^ WExp.var 9 >>> 43), pcgAdvance 1442695040888963407]⟩

/-- `pcg32`: XSH RR on the old state: 32 bits of it are rotated right by its five highest bits `r` (`(r ^ 31) + 1` is `32 - r`). -/
def pcg32 : Generator :=
  ⟨64, [(0, x + 1442695040888963407), pcgAdvance 1442695040888963407],
   [(9, ((x ^^^ x >>> 18) >>> 27) &&& 0xffffffff), (8, x >>> 59),
    (9, (WExp.var 9).shr (WExp.var 8) ||| ((WExp.var 9).shl ((WExp.var 8 ^^^ 31) + 1) &&& 0xffffffff)), pcgAdvance 1442695040888963407]⟩

def xorshift64 : Generator := ⟨64, [], [(0, x ^^^ x <<< 13), (0, x ^^^ x >>> 7), (0, x ^^^ x <<< 17), (9, x)]⟩
def xorshift32 : Generator := ⟨32, [], [(0, x ^^^ x <<< 13), (0, x ^^^ x >>> 17), (0, x ^^^ x <<< 5), (9, x)]⟩

/-- xorshift128+, constants 23, 18, 5. -/
def xorshift128plus : Generator :=
  ⟨64, [], [(9, x + y), (8, x ^^^ x <<< 23), (0, y), (1, WExp.var 8 ^^^ y ^^^ WExp.var 8 >>> 18 ^^^ y >>> 5)]⟩

/-- xoroshiro128+, constants 55, 14, 36. -/
def xoroshiro128plus : Generator :=
  ⟨64, [], [(9, x + y), (1, y ^^^ x), (0, x.rotl 55 ^^^ y ^^^ y <<< 14), (1, y.rotl 36)]⟩

/-- The state update of xoshiro128, constants 9 and 11. -/
def xoshiro128Update : WProgram :=
  [(8, y <<< 9), (2, WExp.var 2 ^^^ x), (3, WExp.var 3 ^^^ y), (1, y ^^^ WExp.var 2), (0, x ^^^ WExp.var 3), (2, WExp.var 2 ^^^ WExp.var 8), (3, (WExp.var 3).rotl 11)]

def xoshiro128plus : Generator := ⟨32, [], (9, x + WExp.var 3) :: xoshiro128Update⟩
def xoshiro128plusplus : Generator := ⟨32, [], (9, (x + WExp.var 3).rotl 7 + x) :: xoshiro128Update⟩

/-- A call of `sfc` with rotation `p`, right shift `q` and left shift `r`: the words are in variables 0 to 2, the counter in 3. -/
def sfcCall (p q r : Nat) : WProgram :=
  [(9, x + y + WExp.var 3), (3, WExp.var 3 + 1), (0, y ^^^ y >>> q), (1, WExp.var 2 + WExp.var 2 <<< r), (2, (WExp.var 2).rotl p + WExp.var 9)]

/-- `sfc`: all three words are the seed, the counter is 1, twelve calls are thrown away. -/
def sfc (word p q r : Nat) : Generator :=
  ⟨word, [(1, x), (2, x), (3, 1)] ++ (List.replicate 12 (sfcCall p q r)).flatten, sfcCall p q r⟩

/-- The generators of the four widths that are programs on words. -/
def generators8 : List (String × Generator) := [("rng8::splitmix_64", splitmix.top 8), ("rng8::pcg_64", pcg64)]
def generators16 : List (String × Generator) :=
  [("rng16::splitmix_64", splitmix.top 16), ("rng16::pcg_64", pcg64), ("rng16::sfc_64", sfc 16 6 5 3)]
def generators32 : List (String × Generator) :=
  [("rng32::mx1", counterBased 32 2471660141 [16, 14] [2471660141]),
   ("rng32::mx2", counterBased 32 1159349557 [16, 14, 13] [1159349557, 1159349557]),
   ("rng32::mx3", counterBased 32 1159349557 [16, 14, 16, 14] [1159349557, 1159349557, 1159349557]),
   ("rng32::mx1_64", mx1_64), ("rng32::mx2_64", mx2_64), ("rng32::mx3_64", mx3_64), ("rng32::splitmix_64", splitmix),
   ("rng32::pcg_64", pcg32), ("rng32::xoshiro128+_128", xoshiro128plus), ("rng32::xoshiro128++_128", xoshiro128plusplus),
   ("rng32::sfc_128", sfc 32 21 9 3), ("rng32::xorshift", xorshift32), ("rng32::xorshift_64", xorshift64.top 32)]
def generators64 : List (String × Generator) :=
  [("rng64::mx1", mx1_64), ("rng64::mx2", mx2_64), ("rng64::mx3", mx3_64), ("rng64::splitmix", splitmix), ("rng64::pcg", pcg64),
   ("rng64::xorshift", xorshift64), ("rng64::xorshift128+_128", xorshift128plus), ("rng64::xoroshiro128+_128", xoroshiro128plus),
   ("rng64::sfc_256", sfc 64 24 11 3)]

end

/-- MT19937: from the upper bit of `a` and the lower 31 bits of `b`, what is added to the word 397 places on. -/
def mt19937Twist (a b : Nat) : Nat :=
  let y := (a &&& 0x80000000) ||| (b &&& 0x7fffffff)
  y / 2 ^^^ (if y % 2 = 1 then 0x9908b0df else 0)

/-- MT19937: the tempering. -/
def mt19937Temper (a : Nat) : Nat :=
  let z := a ^^^ a / 2 ^ 11
  let z := z ^^^ (z * 2 ^ 7 % 2 ^ 32 &&& 0x9d2c5680)
  let z := z ^^^ (z * 2 ^ 15 % 2 ^ 32 &&& 0xefc60000)
  z ^^^ z / 2 ^ 18

end TFR.Spec
