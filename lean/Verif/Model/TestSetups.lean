import Verif.Model.Prngs
import Verif.Model.Evaluate
/-
tool/src/util/test_setups.h and tool/src/util/stream_sources.h.
-/
namespace TFR
variable {w : Nat}

/-- `get_default_mixer<T>()`, mixers8.h:26-29, mixers16.h:26-29, mixers32.h:114-117, mixers64.h:151-154. -/
def defaultMix : (t : WT) → BitVec t.bits → R (BitVec t.bits)
  | .u8 => mix8_xm3x
  | .u16 => mix16_xm3x
  | .u32 => fun x => .ok (mix32_mx3 x)
  | .u64 => fun x => .ok (mix64_mx3 x)

/-- `std::set<T>::insert`; the set is the list of its elements in ascending order (the order of iteration). -/
def wordSetInsert (x : BitVec w) : List (BitVec w) → List (BitVec w)
  | [] => [x]
  | y :: ys => if x.toNat < y.toNat then x :: y :: ys else if y.toNat < x.toNat then y :: wordSetInsert x ys else y :: ys

/-- The first loop of `generate_seeds`, test_setups.h:10-13. -/
def structuredSeeds (t : WT) : List (BitVec t.bits) :=
  (getRrcPermutations t (BitVec.ofNat t.bits 1)).foldl (fun added seed => wordSetInsert seed added) []

/-- `while (added.size() < n) added.insert(mix(x++))`, test_setups.h:16-18, for at most `fuel` rounds; `none` when the
loop is still running then. -/
def seedLoop (mix : BitVec w → R (BitVec w)) (n : Nat) : Nat → List (BitVec w) → BitVec w → Option (R (List (BitVec w)))
  | fuel, added, x =>
    if added.length < n then
      match fuel with
      | 0 => none
      | fuel + 1 =>
        match mix x with
        | .error f => some (.error f)
        | .ok v => seedLoop mix n fuel (wordSetInsert v added) (x + 1)
    else some (.ok added)

/-- The last loop, test_setups.h:20-30: `y` is advanced three times per seed (a braced list is evaluated left to
right). -/
def fillSeeds : List (BitVec w) → BitVec 64 → List SeedData
  | [], _ => []
  | primary :: rest, y =>
    ⟨primary.setWidth 64, mix64_mx3 y, mix64_mx3 (y + 1), mix64_mx3 (y + 2)⟩ :: fillSeeds rest (y + 3)

/-- `generate_seeds<T>(n)`, test_setups.h:8-32; `none` when the loop has not ended after `fuel` rounds.
Simplification: `n` is not negative (a negative `n` is converted to a huge unsigned number). -/
def generateSeeds (t : WT) (n fuel : Nat) : Option (R (List SeedData)) :=
  match seedLoop (defaultMix t) n fuel (structuredSeeds t) (BitVec.ofNat t.bits 1234) with
  | none => none
  | some (.error f) => some (.error f)
  | some (.ok added) => some (.ok (fillSeeds added 12345))

/-- `create_evenly_seeded_stream`, test_setups.h:34-47 (the warnings are only printed).  Simplification:
`sample_count` is not negative. -/
def createEvenlySeededStream {α : Type} (name : String) (data : List α) (sampleCount : Nat) : R (List (Stream (R α))) :=
  if sampleCount = 0 then .error .divByZero
  else
    let interval : BitVec 64 := BitVec.ofNat 64 (data.length / sampleCount)
    .ok ((List.range sampleCount).map fun i =>
      let startIndex := BitVec.ofNat 64 i * interval
      dataStream (name ++ "-" ++ toString startIndex.toNat) data startIndex)

/-- `create_sources`, stream_sources.h:8-11. -/
def createSources (t : WT) : List (Stream (BitVec t.bits)) :=
  createRrcSources t [counterStream t.bits 1 0]

/-- `create_combiner_sources`, stream_sources.h:13-54.  `rrc_b[i]` is in range because both lists are built alike; a
missing element is a fault. -/
def createCombinerSources (t : WT) (c : Combiner t.bits) : R (List (Stream (BitVec t.bits))) :=
  let sources := [
    combinedIncrementalStream 0#t.bits (constantStream 0#t.bits) c,
    combinedStream (constantStream 0#t.bits) (counterStream t.bits 1 0) c,
    combinedStream (counterStream t.bits 1 0) (constantStream 0#t.bits) c]
  let streamsA := [counterStream t.bits 1 1, counterStream t.bits 1 (1#64 <<< 32), counterStream t.bits 1 1]
  let streamsB := [counterStream t.bits 1 2, counterStream t.bits 1 (1#64 <<< 32), counterStream t.bits (-1) 1]
  let rrcA := createRrcSources t streamsA
  let rrcB := createRrcSources t streamsB
  if rrcA.length ≤ rrcB.length then .ok (sources ++ List.zipWith (fun a b => combinedStream a b c) rrcA rrcB)
  else .error .oobIndex

/-- One call of `pop_seed` followed by `add`, test_setups.h:81-93: the seed taken from the back and the new stream.
`to_string(seed)` is format_result.h:38-40. -/
def addPrng {w : Nat} (createPrng : SeedData → Stream (BitVec w)) (outer : Stream (BitVec w) → Stream (BitVec w))
    (st : List SeedData × List (Stream (BitVec w))) : R (List SeedData × List (Stream (BitVec w))) :=
  match st.1.getLast? with
  | none => .error .emptyDeref
  | some seed =>
    let prng := outer (createPrng seed)
    let prng := { prng with name := prng.name ++ " seed=[" ++ toString seed.s64.toNat ++ ", ...]" }
    .ok (st.1.dropLast, st.2 ++ [prng])

/-- `create_prng_test_setup`, test_setups.h:77-108: its sources. `fuel` bounds the loop of `generate_seeds`. -/
def createPrngSources (t : WT) (createPrng : SeedData → Stream (BitVec t.bits)) (fuel : Nat) :
    Option (R (List (Stream (BitVec t.bits)))) :=
  let maxUniqueSeeds := 2 ^ t.bits - 1 - 1
  match generateSeeds t (min maxUniqueSeeds 1024) fuel with
  | none => none
  | some (.error f) => some (.error f)
  | some (.ok seeds) => some (do
    -- test_setups.h:95-97
    let st ← (List.range (t.bits - 1)).foldlM (fun st (i : Nat) =>
      addPrng createPrng (fun s => rorStream s ((i : Int) + 1)) st) (seeds, [])
    -- test_setups.h:99-101: each round adds one stream
    let st ← (List.range (4 * t.bits - st.2.length)).foldlM (fun st _ => addPrng createPrng id st) st
    return st.2)

/-- `test_setup` with the default members, evaluate.h:12-34; `maxThreads` is `default_max_threads()`. -/
def defaultSetup (maxThreads : Nat) (subject : String) (sources : List (Stream (BitVec w))) (tests : List TestType)
    (mix : Option (Mixer w)) : TestSetup w :=
  ⟨subject, sources, tests, mix, maxThreads, 10, 25⟩

end TFR
