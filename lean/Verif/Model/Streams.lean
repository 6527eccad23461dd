import Verif.Model.Bits
/-
core/src/stream.h, core/src/streams.h, core/src/prng.h, core/src/rrc.h, core/src/rrc_streams.h,
core/src/mixer.h, core/src/combiner.h and the stream helpers of core/src/util/algo.h
-/
namespace TFR
variable {w : Nat} {α : Type}

/-- `mixer<T>`, mixer.h:9-19 (`std::function<T(T)>`, assumed to be a function of its argument). -/
structure Mixer (w : Nat) where
  name : String
  mix : BitVec w → BitVec w

/-- `combiner<T>`, combiner.h:5-15. -/
structure Combiner (w : Nat) where
  name : String
  combine : BitVec w → BitVec w → BitVec w

/-- A stream that applies `f` to each value of its own copy of `s`: the common shape of the lambdas
`[source, ...]() mutable { return f(source()); }`. -/
def Stream.mapS {β : Type} (name : String) (f : α → β) (s : Stream α) : Stream β where
  σ := s.σ
  name := name
  state := s.state
  step st := let r := s.step st; (f r.1, r.2)

/-- `counter_stream`/`create_counter_stream`, streams.h:10-24 (and 31-34 with `start = 0`): the 64-bit
state is advanced first, then truncated to `T`. -/
def counterStream (w : Nat) (increment start : BitVec 64) : Stream (BitVec w) where
  σ := BitVec 64
  name := "counter-" ++ toString increment.toNat
  state := start
  step st := let st := st + increment; (st.setWidth w, st)

/-- `create_constant_stream`, streams.h:26-29. -/
def constantStream (c : BitVec w) : Stream (BitVec w) where
  σ := Unit
  name := "constant-" ++ toString c.toNat
  state := ()
  step st := (c, st)

/-- `create_stream_from_data`, streams.h:36-44: `data[index++ % data.size()]` with a 64-bit index.
The result is a fault for empty data. -/
def dataStream (name : String) (data : List α) (startIndex : BitVec 64) : Stream (R α) where
  σ := BitVec 64
  name := name
  state := startIndex
  step index :=
    (if data.length = 0 then .error .divByZero
     else match data[index.toNat % data.length]? with
       | some v => .ok v
       | none => .error .oobIndex,
     index + 1)

/-- The loop of `isolate_bit_by_ref`, algo.h:109-121, over the state of the source:
iterations `i, i+1, ..., i+n-1`.  (`1ull << bit` is undefined for `bit ≥ 64`; callers use `bit < w`.) -/
def isolateLoop {σ : Type} (step : σ → BitVec w × σ) (m : BitVec w) : Nat → Nat → BitVec w → σ → BitVec w × σ
  | _, 0, x, st => (x, st)
  | i, n + 1, x, st =>
    let r := step st
    let x := if r.1 &&& m ≠ 0#w then x ||| (((1#64) <<< i).setWidth w) else x
    isolateLoop step m (i + 1) n x r.2

/-- `isolate_bit_by_ref`, algo.h:109-121 : the packed word and the source's state afterwards. -/
def isolateBitByRef {σ : Type} (step : σ → BitVec w × σ) (bit : Nat) (st : σ) : BitVec w × σ :=
  isolateLoop step (((1#64) <<< bit).setWidth w) 0 w 0#w st

/-- `create_bit_isolation_stream`, streams.h:46-53. -/
def bitIsolationStream (s : Stream (BitVec w)) (bit : Nat) : Stream (BitVec w) where
  σ := s.σ
  name := "bit-" ++ toString bit ++ "(" ++ s.name ++ ")"
  state := s.state
  step st := isolateBitByRef s.step bit st

/-- `create_bit_reverse_stream`, streams.h:55-62. -/
def bitReverseStream (t : WT) (s : Stream (BitVec t.bits)) : Stream (BitVec t.bits) :=
  s.mapS ("reverse-bits(" ++ s.name ++ ")") (reverseBits t)

/-- `create_byteswap_stream`, streams.h:64-71. -/
def byteswapStream (n : Nat) (s : Stream (BitVec (8 * n))) : Stream (BitVec (8 * n)) :=
  s.mapS ("byteswap(" ++ s.name ++ ")") (byteswap n)

/-- `create_ror_stream`, streams.h:73-83. -/
def rorStream (s : Stream (BitVec w)) (r : Int) : Stream (BitVec w) :=
  if r = 0 then s else s.mapS ("ror(" ++ s.name ++ "," ++ toString r ++ ")") (fun v => ror v r)

/-- `create_stream_from_mixer`, streams.h:95-101. -/
def mixerStream (s : Stream (BitVec w)) (m : Mixer w) : Stream (BitVec w) :=
  s.mapS (m.name ++ "(" ++ s.name ++ ")") m.mix

/-- `create_combined_stream`, streams.h:103-111. The two sources are separate copies, so the unspecified
evaluation order of the two calls does not matter. -/
def combinedStream (a b : Stream (BitVec w)) (c : Combiner w) : Stream (BitVec w) where
  σ := a.σ × b.σ
  name := c.name ++ "(" ++ a.name ++ ", " ++ b.name ++ ")"
  state := (a.state, b.state)
  step st := let ra := a.step st.1; let rb := b.step st.2; (c.combine ra.1 rb.1, (ra.2, rb.2))

/-- `create_combined_incremental_stream`, streams.h:113-122. -/
def combinedIncrementalStream (seed : BitVec w) (s : Stream (BitVec w)) (c : Combiner w) : Stream (BitVec w) where
  σ := BitVec w × s.σ
  name := c.name ++ "(x, " ++ s.name ++ ")"
  state := (seed, s.state)
  step st := let r := s.step st.2; let x := c.combine st.1 r.1; (x, (x, r.2))

/-- `create_prng_from_mixer`, prng.h:26-33. -/
def prngFromMixer (m : Mixer w) (seed : BitVec w) : Stream (BitVec w) where
  σ := BitVec w
  name := "p-" ++ m.name
  state := seed
  step st := let st := m.mix st; (st, st)

/-! ### Thread-safe data stream -/

/-- One consumer of `create_stream_from_data_thread_safe`, streams.h:85-93, calls it: the shared static
atomic index is fetched and incremented in one indivisible step, then this consumer's data is read.
`consumers` holds the data vector of each consumer, the event records (consumer, fetched index, value). -/
def sharedStep (consumers : List (List α)) (index : BitVec 64) (who : Nat) :
    (Nat × BitVec 64 × R α) × BitVec 64 :=
  let data := consumers.getD who []
  ((who, index,
    if data.length = 0 then .error .divByZero
    else match data[index.toNat % data.length]? with
      | some v => .ok v
      | none => .error .oobIndex), index + 1)

/-- The events of a schedule (the order in which the atomic increments take effect). -/
def sharedRun (consumers : List (List α)) (index : BitVec 64) : List Nat → List (Nat × BitVec 64 × R α)
  | [] => []
  | who :: rest => (sharedStep consumers index who).1 :: sharedRun consumers (sharedStep consumers index who).2 rest

/-! ### ranged_stream -/

/-- `stream_iterator`, stream.h:28-67. -/
structure StreamIter (α : Type) : Type 1 where
  s : Stream α
  current : α
  index : BitVec 64
  n : BitVec 64

/-- Constructor, stream.h:33-38: pulls the first value. -/
def StreamIter.mk' (s : Stream α) (n index : BitVec 64) : StreamIter α :=
  let r := s.next
  ⟨r.2, r.1, index, n⟩

/-- `operator++`, stream.h:45-49. -/
def StreamIter.incr (it : StreamIter α) : StreamIter α :=
  let r := it.s.next
  ⟨r.2, r.1, it.index + 1, it.n⟩

/-- `ranged_stream`, stream.h:71-98. -/
structure RangedStream (α : Type) : Type 1 where
  s : Stream α
  n : BitVec 64

/-- `begin()`/`end()`, stream.h:79-85: each works on its own copy of `s`. -/
def RangedStream.begin' (r : RangedStream α) : StreamIter α := StreamIter.mk' r.s r.n 0
def RangedStream.end' (r : RangedStream α) : StreamIter α := StreamIter.mk' r.s r.n r.n

/-- `for (it = begin(); it != end(); ++it) body(*it)`; iterators are compared by index
(stream.h:55-61).  Returns the values seen and the final iterator. -/
def iterLoop (it : StreamIter α) (stop : BitVec 64) : List α × StreamIter α :=
  if h : it.index = stop then ([], it)
  else
    let r := iterLoop it.incr stop
    (it.current :: r.1, r.2)
termination_by (stop - it.index).toNat
decreasing_by
  have h1 : (stop - (it.index + 1)).toNat = (stop - it.index).toNat - 1 := by
    have : stop - (it.index + 1) = (stop - it.index) - 1 := by
      simp [BitVec.sub_eq_add_neg, BitVec.neg_add, BitVec.add_assoc]
    rw [this, BitVec.toNat_sub]
    have h2 : (stop - it.index).toNat ≠ 0 := by
      intro h0
      apply h
      have : stop - it.index = 0#64 := BitVec.eq_of_toNat_eq (by simpa using h0)
      have := BitVec.sub_eq_iff_eq_add.1 this
      simpa using this.symm
    have := (stop - it.index).isLt
    have h1 : (1 : BitVec 64).toNat = 1 := rfl
    rw [h1]
    omega
  have h2 : (stop - it.index).toNat ≠ 0 := by
    intro h0
    apply h
    have : stop - it.index = 0#64 := BitVec.eq_of_toNat_eq (by simpa using h0)
    have := BitVec.sub_eq_iff_eq_add.1 this
    simpa using this.symm
  show (stop - (it.index + 1)).toNat < _
  omega

/-- All values a range-for over a ranged stream sees. -/
def RangedStream.values (r : RangedStream α) : List α := (iterLoop r.begin' r.end'.index).1

/-- `get_raw_by_ref`, algo.h:29-37: the values and the stream afterwards (it is passed by reference). -/
def getRawByRef : Nat → Stream α → List α × Stream α
  | 0, s => ([], s)
  | n + 1, s =>
    let r := s.next
    let q := getRawByRef n r.2
    (r.1 :: q.1, q.2)

/-! ### RRC -/

/-- `rrc_type`, rrc.h:10-15. -/
inductive RrcType where
  | identity | reverse | complement | reverseComplement
  deriving DecidableEq, Repr

/-- `rrc_types`, rrc.h:17. -/
def rrcTypes : List RrcType := [.identity, .reverse, .complement, .reverseComplement]

/-- `permute`, rrc.h:19-29. (For 8/16-bit types `~c` is computed in `int` and converted to `T` when
passed to `ror<T>`, which is the complement in `T`.) -/
def permute (t : WT) (c : BitVec t.bits) (rot : Int) : RrcType → BitVec t.bits
  | .identity => ror c rot
  | .reverse => ror (reverseBits t c) rot
  | .complement => ror (~~~c) rot
  | .reverseComplement => ror (~~~(reverseBits t c)) rot

/-- `to_string(rrc_type)`, rrc.h:31-40. -/
def RrcType.str : RrcType → String
  | .identity => "identity" | .reverse => "reverse" | .complement => "complement"
  | .reverseComplement => "reverse_co"

/-- `get_rrc_permutations`, rrc.h:42-51. -/
def getRrcPermutations (t : WT) (x : BitVec t.bits) : List (BitVec t.bits) :=
  rrcTypes.flatMap fun ty => (List.range t.bits).map fun (rot : Nat) => permute t x rot ty

/-- `add_rrc`, rrc_streams.h:7-15. -/
def addRrc (t : WT) (s : Stream (BitVec t.bits)) (rotation : Nat) (ty : RrcType) : Stream (BitVec t.bits) :=
  s.mapS (ty.str ++ "-" ++ toString rotation ++ "(" ++ s.name ++ ")") (fun v => permute t v rotation ty)

/-- `create_rrc_sources`, rrc_streams.h:18-30. -/
def createRrcSources (t : WT) (sources : List (Stream (BitVec t.bits))) : List (Stream (BitVec t.bits)) :=
  sources.flatMap fun s => rrcTypes.flatMap fun ty => (List.range t.bits).map fun rot => addRrc t s rot ty

end TFR
