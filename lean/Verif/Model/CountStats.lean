import Verif.Model.Hist
import Verif.Model.Bits
import Verif.Model.Windows
import Verif.Model.Float
import Mathlib.Data.Real.Basic
import Mathlib.Data.Nat.Choose.Basic
/-
The counting parts of the statistics: core/src/statistics/{avalanche,serial_avalanche,gap,coupon,divisibility,run,
permutation}.h.  A `ranged_stream(source, n)` is iterated as the list of its `n` values (`C32`).
-/
namespace TFR
variable {w : Nat}

/-! ### avalanche.h -/

/-- The loop body of `avalanche_generate_sac`, avalanche.h:17-22, for one value of the source. -/
def sacStep (mixer : BitVec w → BitVec w) (sac : List (BitVec 64)) (v : BitVec w) : R (List (BitVec 64)) :=
  let x := mixer v
  let h0 := mixer x
  (List.range w).foldlM (fun sac (j : Nat) => do
    let y ← flipBit x j
    let change := h0 ^^^ mixer y
    incrAt sac (bitCount change)) sac

/-- `avalanche_generate_sac`, avalanche.h:9-25. -/
def generateSac (n : BitVec 64) (s : Stream (BitVec w)) (mixer : BitVec w → BitVec w) : R (List (BitVec 64)) :=
  (s.take n.toNat).foldlM (sacStep mixer) (List.replicate (w + 1) 0#64)

/-- `counts[i] += b`. -/
def addAt (counts : List (BitVec 64)) (i : Nat) (b : BitVec 64) : R (List (BitVec 64)) :=
  match counts[i]? with
  | some v => .ok (counts.set i (v + b))
  | none => .error .oobIndex

/-- The loop body of `avalanche_generate_bic`, avalanche.h:32-40, for one value of the source.  `(change >> k) & 1` is bit
`k` of `change` (`is_set` of `C02`); the shift is by less than the width. -/
def bicStep (mixer : BitVec w → BitVec w) (bic : List (BitVec 64)) (v : BitVec w) : R (List (BitVec 64)) :=
  let x := mixer v
  let h0 := mixer x
  (List.range w).foldlM (fun bic (j : Nat) => do
    let y ← flipBit x j
    let change := h0 ^^^ mixer y
    (List.range w).foldlM (fun bic (k : Nat) => do
      let bit ← isBitSet change k
      addAt bic (j * w + k) (if bit then 1#64 else 0#64)) bic) bic

/-- `avalanche_generate_bic`, avalanche.h:27-43. -/
def generateBic (n : BitVec 64) (s : Stream (BitVec w)) (mixer : BitVec w → BitVec w) : R (List (BitVec 64)) :=
  (s.take n.toNat).foldlM (bicStep mixer) (List.replicate (w * w) 0#64)

/-! ### serial_avalanche.h -/

/-- `counts[i][j] += 1` on a vector of vectors. -/
def incrAt2 (counts : List (List (BitVec 64))) (i j : Nat) : R (List (List (BitVec 64))) :=
  match counts[i]? with
  | some row => do
    let row ← incrAt row j
    .ok (counts.set i row)
  | none => .error .oobIndex

/-- The loop of `serial_avalanche_count`, serial_avalanche.h:17-21: two calls per round. -/
def serialLoop {σ : Type} (step : σ → BitVec w × σ) : Nat → List (List (BitVec 64)) → σ → R (List (List (BitVec 64)) × σ)
  | 0, counts, st => .ok (counts, st)
  | n + 1, counts, st => do
    let (x, st) := step st
    let (y, st) := step st
    let counts ← incrAt2 counts (bitCount x) (bitCount y)
    serialLoop step n counts st

/-- `serial_avalanche_count`, serial_avalanche.h:13-23: the table, and the state of the source afterwards. -/
def serialAvalancheCount (n : BitVec 64) (s : Stream (BitVec w)) : R (List (List (BitVec 64)) × s.σ) :=
  serialLoop s.step n.toNat (List.replicate (w + 1) (List.replicate (w + 1) 0#64)) s.state

/-! ### gap.h -/

/-- `is_near`, core/src/util/math.h:16-18, on doubles. -/
def isNear (a b eps : ℚ) : Bool := decide (|Fl.sub a b| ≤ eps)

/-- `rescale_type_to_01`, core/src/util/math.h:34-38, on doubles. -/
def rescaleTypeTo01 (x : BitVec w) : ℚ := Fl.div (Fl.ofNat x.toNat) (Fl.ofNat (2 ^ w - 1))

/-- Loop body of `generate_gaps`, gap.h:19-28.  (`gaps.size() - 1` wraps for an empty vector, but then any index is out of
bounds.) -/
def gapStep (a b : ℚ) (st : List (BitVec 64) × Nat) (vv : BitVec w) : R (List (BitVec 64) × Nat) :=
  let v := rescaleTypeTo01 vv
  if v ≥ a ∧ v < b then do
    let gaps ← incrAt st.1 (min st.2 (st.1.length - 1))
    .ok (gaps, 0)
  else .ok (st.1, st.2 + 1)

/-- `generate_gaps`, gap.h:12-30. -/
def generateGaps (maxGapSize : Nat) (a b : ℚ) (data : List (BitVec w)) : R (List (BitVec 64)) := do
  let b := if isNear b 1 (Fl.rnd (1 / 10 ^ 14)) then 2 else b
  let st ← data.foldlM (gapStep a b) (List.replicate maxGapSize 0#64, 0)
  .ok st.1

/-- The loop of `generate_gap_probabilities`, gap.h:36-40, in exact arithmetic; `none` is divergence. -/
def gapProbLoop {K : Type} [Field K] [LinearOrder K] (a b : K) (ps : List K) (sum : K) (i : Nat) : Option (List K × K) :=
  if sum < 99 / 100 then
    let p := (b - a) * (1 - b + a) ^ i
    gapProbLoop a b (ps ++ [p]) (sum + p) (i + 1)
  else some (ps, sum)
partial_fixpoint

/-- `generate_gap_probabilities`, gap.h:32-44, in exact arithmetic. -/
def gapProbabilities {K : Type} [Field K] [LinearOrder K] (a b : K) : Option (List K) := do
  let (ps, sum) ← gapProbLoop a b [] 0 0
  some (ps ++ [1 - sum])

/-! ### coupon.h -/

/-- Conversion of a double to `uint64_t`: truncation, undefined when the truncated value is not representable. -/
def toU64 (x : ℚ) : R (BitVec 64) :=
  if 0 ≤ x ∧ x < 2 ^ 64 then .ok (BitVec.ofNat 64 ⌊x⌋.toNat)
  else if -1 < x ∧ x < 0 then .ok 0#64
  else .error .badCast

/-- The coupon a value stands for, coupon.h:18-19. -/
def couponId (wanted : BitVec 64) (vv : BitVec w) : R (BitVec 64) := do
  let v := rescaleTypeTo01 vv
  let c ← toU64 (Fl.mul (Fl.ofNat wanted.toNat) v)
  .ok (if wanted - 1#64 < c then wanted - 1#64 else c)

/-- State of the loop of `collect_coupons`, coupon.h:13-15: the `std::set` as a duplicate-free list. -/
structure CouponState where
  collected : List (BitVec 64)
  hist : List (BitVec 64)
  drawCount : BitVec 64

/-- Loop body of `collect_coupons`, coupon.h:17-31. -/
def couponStep (wanted : BitVec 64) (st : CouponState) (vv : BitVec w) : R CouponState := do
  let id ← couponId wanted vv
  let drawCount := st.drawCount + 1#64
  if id ∈ st.collected then .ok { st with drawCount := drawCount }
  else
    let collected := id :: st.collected
    if BitVec.ofNat 64 collected.length = wanted then
      let index := drawCount - wanted
      let hist ← incrAt st.hist (min (st.hist.length - 1) index.toNat)
      .ok ⟨[], hist, 0#64⟩
    else .ok ⟨collected, st.hist, drawCount⟩

/-- `collect_coupons`, coupon.h:12-34. -/
def collectCoupons (wanted : BitVec 64) (trackedDraws : Nat) (data : List (BitVec w)) : R (List (BitVec 64)) := do
  let st ← data.foldlM (couponStep wanted) ⟨[], List.replicate trackedDraws 0#64, 0#64⟩
  .ok st.hist

/-- `stirling_second_kind`, core/src/util/math.h:66-74, with `uint64_t` arithmetic.  Simplification: the arguments are
natural numbers (a negative argument, which makes the C++ recurse without end, is excluded by the callers below). -/
def stirlingSecondKind : Nat → Nat → BitVec 64
  | 0, 0 => 1#64
  | 0, _ + 1 => 0#64
  | _ + 1, 0 => 0#64
  | n + 1, k + 1 => BitVec.ofNat 64 (k + 1) * stirlingSecondKind n (k + 1) + stirlingSecondKind n k

/-- One value of `expected_probabilities`, coupon.h:43: `d! / d^i * S(i-1, d-1)`, over the rationals. -/
def couponProbability (d i : Nat) : ℚ :=
  (Nat.factorial d : ℚ) / (d : ℚ) ^ i * ((stirlingSecondKind (i - 1) (d - 1)).toNat : ℚ)

/-- The loop of `expected_probabilities`, coupon.h:42-48, in exact arithmetic: `fuel` is `30 - i`. -/
def couponProbLoop (d : Nat) : (fuel i : Nat) → List ℚ → ℚ → List ℚ × ℚ
  | 0, _, ps, sum => (ps, sum)
  | fuel + 1, i, ps, sum =>
    if sum < 99 / 100 then
      let p := couponProbability d i
      couponProbLoop d fuel (i + 1) (ps ++ [p]) (sum + p)
    else (ps, sum)

/-- `expected_probabilities`, coupon.h:36-51, in exact arithmetic, for at least one coupon. -/
def couponProbabilities (d : Nat) : List ℚ :=
  let r := couponProbLoop d (30 - d) d [] 0
  r.1 ++ [1 - r.2]

/-! ### divisibility.h -/

/-- State of the loop of `collect_divisible`: histogram, draw_count, collected. -/
structure DivState where
  hist : List (BitVec 64)
  drawCount : BitVec 64
  collected : BitVec 64

/-- Loop body of `collect_divisible`, divisibility.h:18-31. -/
def divStep (divisor wanted : BitVec 64) (st : DivState) (v : BitVec w) : R DivState := do
  let drawCount := st.drawCount + 1#64
  if divisor = 0#64 then .error .divByZero
  else if v.toNat % divisor.toNat ≠ 0 then .ok { st with drawCount := drawCount }
  else
    let collected := st.collected + 1#64
    if collected < wanted then .ok { st with drawCount := drawCount, collected := collected }
    else
      let index := drawCount - wanted
      let hist ← incrAt st.hist (min (st.hist.length - 1) index.toNat)
      .ok ⟨hist, 0#64, 0#64⟩

/-- `collect_divisible`, divisibility.h:12-33. -/
def collectDivisible (divisor wanted : BitVec 64) (tracked : Nat) (data : List (BitVec w)) : R (List (BitVec 64)) := do
  let st ← data.foldlM (divStep divisor wanted) ⟨List.replicate tracked 0#64, 0#64, 0#64⟩
  .ok st.hist

/-- `negative_binomial_pdf`, core/src/statistics/distributions.h:76-81, in exact arithmetic (`binomial_coefficient` is exact,
see `C61`); for at least one success. -/
noncomputable def negativeBinomialPdf (successes : Nat) (p : ℝ) (failures : Nat) : ℝ :=
  ((failures + successes - 1).choose (successes - 1) : ℝ) * (1 - p) ^ failures * p ^ successes

/-- The loop of `divisible_expected_probabilities`, divisibility.h:39-44, in exact arithmetic; `none` is divergence. -/
noncomputable def divProbLoop (divisor wanted : Nat) (ps : List ℝ) (sum : ℝ) (k : Nat) : Option (List ℝ × ℝ) :=
  if sum < 99 / 100 then
    let p := negativeBinomialPdf wanted (1 / divisor) k
    divProbLoop divisor wanted (ps ++ [p]) (sum + p) (k + 1)
  else some (ps, sum)
partial_fixpoint

/-- `divisible_expected_probabilities`, divisibility.h:35-47, in exact arithmetic. -/
noncomputable def divProbabilities (divisor wanted : Nat) : Option (List ℝ) := do
  let (ps, sum) ← divProbLoop divisor wanted [] 0 0
  some (ps ++ [1 - sum])

/-! ### run.h -/

/-- `runs_data`, run.h:7-11.  (The counters are `uint64_t` converted to `double`; kept as the counters.) -/
structure RunsData where
  runs : BitVec 64
  nPlus : BitVec 64
  nMinus : BitVec 64
  deriving DecidableEq

/-- Loop body of `generate_runs_data`, run.h:22-32; the last component is `is_current_run_greater`. -/
def runsStep (cutoff : BitVec w) (st : RunsData × Bool) (v : BitVec w) : RunsData × Bool :=
  if v = cutoff then st
  else
    let isGreater := decide (cutoff < v)
    let d := if isGreater then { st.1 with nPlus := st.1.nPlus + 1#64 } else { st.1 with nMinus := st.1.nMinus + 1#64 }
    if isGreater ≠ st.2 then ({ d with runs := d.runs + 1#64 }, !st.2) else (d, st.2)

/-- `generate_runs_data`, run.h:13-38. -/
def generateRunsData (data : List (BitVec w)) (cutoff : BitVec w) : RunsData :=
  match data with
  | [] => ⟨0#64, 0#64, 0#64⟩
  | first :: _ => (data.foldl (runsStep cutoff) (⟨1#64, 0#64, 0#64⟩, decide (cutoff < first))).1

/-! ### permutation.h -/

/-- The callback of `get_permutation_histogram`, permutation.h:11-16: a `uint8_t` counter that stops at 255. -/
def permCount (hist : List (BitVec 8)) (v : BitVec 64) : R (List (BitVec 8)) :=
  match hist[v.toNat]? with
  | some c => .ok (if c < 255#8 then hist.set v.toNat (c + 1#8) else hist)
  | none => .error .oobIndex

/-- `get_permutation_histogram`, permutation.h:7-18.  The `uint64_t` window size is converted to `int` in the call. -/
def permutationHistogram (data : List (BitVec w)) (windowSize : BitVec 64) : R (List (BitVec 8)) :=
  if windowSize.toNat < 64 then
    slidingBitWindow data ((windowSize.setWidth 32).toInt) permCount (List.replicate (2 ^ windowSize.toNat) 0#8)
  else .error .shiftTooLarge

end TFR
