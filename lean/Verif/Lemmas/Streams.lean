import Verif.Model.Streams
import Verif.Lemmas.Bits
import Mathlib.Logic.Function.Iterate
import Mathlib.GroupTheory.OrderOfElement
import Mathlib.Data.ZMod.Basic

namespace TFR
variable {w : Nat} {α β : Type}

namespace Stream

/-- Hidden state after `k` calls. -/
def stateAt (s : Stream α) (k : Nat) : s.σ := (fun st => (s.step st).2)^[k] s.state

theorem drop_eq (s : Stream α) (k : Nat) : s.drop k = { s with state := s.stateAt k } := by
  induction k generalizing s with
  | zero => rfl
  | succ k ih => simp only [drop, ih]; rfl

theorem nth_eq (s : Stream α) (k : Nat) : s.nth k = (s.step (s.stateAt k)).1 := by
  unfold nth; rw [drop_eq]; rfl

theorem stateAt_zero (s : Stream α) : s.stateAt 0 = s.state := rfl

theorem stateAt_succ (s : Stream α) (k : Nat) : s.stateAt (k + 1) = (s.step (s.stateAt k)).2 := by
  simp only [stateAt, Function.iterate_succ_apply']

theorem nth_drop (s : Stream α) (j k : Nat) : (s.drop j).nth k = s.nth (j + k) := by
  rw [nth_eq, nth_eq, drop_eq]
  simp only [stateAt, ← Function.iterate_add_apply, Nat.add_comm]

theorem nth_zero (s : Stream α) : s.nth 0 = s.next.1 := rfl

theorem nth_succ (s : Stream α) (k : Nat) : s.nth (k + 1) = s.next.2.nth k := rfl

theorem drop_drop (s : Stream α) (j k : Nat) : (s.drop j).drop k = s.drop (j + k) := by
  rw [drop_eq, drop_eq, drop_eq]
  simp only [stateAt, ← Function.iterate_add_apply, Nat.add_comm]

theorem take_eq_map (s : Stream α) (n : Nat) : s.take n = (List.range n).map s.nth := by
  induction n generalizing s with
  | zero => rfl
  | succ n ih =>
    rw [take, ih, List.range_succ_eq_map]
    simp [nth_zero, Function.comp_def, nth_succ]

@[simp] theorem length_take (s : Stream α) (n : Nat) : (s.take n).length = n := by
  simp [take_eq_map]

theorem stateAt_mapS (s : Stream α) (name : String) (f : α → β) (k : Nat) :
    (s.mapS name f).stateAt k = s.stateAt k := rfl

theorem nth_mapS (s : Stream α) (name : String) (f : α → β) (k : Nat) :
    (s.mapS name f).nth k = f (s.nth k) := by
  rw [nth_eq, nth_eq, stateAt_mapS]; rfl

end Stream

theorem stateAt_counter (inc start : BitVec 64) (k : Nat) :
    (counterStream w inc start).stateAt k = start + BitVec.ofNat 64 k * inc := by
  induction k with
  | zero => simp only [BitVec.ofNat_eq_ofNat, BitVec.zero_mul, BitVec.add_zero]; rfl
  | succ k ih =>
    rw [Stream.stateAt_succ, ih]
    show (start + BitVec.ofNat 64 k * inc) + inc = _
    rw [BitVec.ofNat_add, BitVec.add_assoc]
    congr 1
    rw [BitVec.mul_comm, BitVec.mul_comm (_ + _), BitVec.mul_add]
    simp

theorem nth_counter (inc start : BitVec 64) (k : Nat) :
    (counterStream w inc start).nth k = (start + BitVec.ofNat 64 (k + 1) * inc).setWidth w := by
  rw [← stateAt_counter (w := w), Stream.stateAt_succ, Stream.nth_eq]; rfl

theorem stateAt_data (name : String) (data : List α) (start : BitVec 64) (k : Nat) :
    (dataStream name data start).stateAt k = start + BitVec.ofNat 64 k := by
  induction k with
  | zero => simp only [BitVec.ofNat_eq_ofNat, BitVec.add_zero]; rfl
  | succ k ih =>
    rw [Stream.stateAt_succ, ih]
    show (start + BitVec.ofNat 64 k) + 1 = _
    rw [BitVec.ofNat_add, BitVec.add_assoc]; rfl

theorem isolateLoop_state {σ : Type} (step : σ → BitVec w × σ) (m : BitVec w) (n i : Nat) (x : BitVec w) (st : σ) :
    (isolateLoop step m i n x st).2 = (fun st => (step st).2)^[n] st := by
  induction n generalizing i x st with
  | zero => rfl
  | succ n ih => rw [isolateLoop]; simp only [ih]; rfl

theorem and_pow_ne_zero (v : BitVec w) (b : Nat) (hb : b < w) (hw : w ≤ 64) :
    (v &&& (((1#64) <<< b).setWidth w) ≠ 0#w) ↔ v.getLsbD b = true := by
  constructor
  · intro h
    by_contra hv
    apply h
    apply BitVec.eq_of_getLsbD_eq
    intro i hi
    simp only [BitVec.getLsbD_and, BitVec.getLsbD_setWidth, hi, decide_true, Bool.true_and,
      BitVec.getLsbD_shiftLeft, BitVec.getLsbD_zero]
    by_cases h1 : i < b
    · simp [h1]
    · by_cases h2 : i = b
      · subst h2; simp_all
      · simp [BitVec.getLsbD_one, show i - b ≠ 0 by omega]
  · intro h h0
    have := congrArg (fun z => z.getLsbD b) h0
    simp [h, hb] at this
    omega

theorem getLsbD_one_shl (i j : Nat) (hw : w ≤ 64) (hj : j < w) :
    (((1#64) <<< i).setWidth w).getLsbD j = decide (j = i) := by
  simp only [BitVec.getLsbD_setWidth, hj, decide_true, Bool.true_and,
      BitVec.getLsbD_shiftLeft]
  by_cases h1 : j < i
  · simp [h1]; omega
  · by_cases h2 : j = i
    · subst h2; simp; omega
    · simp only [BitVec.getLsbD_one, show j - i ≠ 0 by omega, h2]
      simp

theorem isolateLoop_bit {σ : Type} (step : σ → BitVec w × σ) (b : Nat) (hb : b < w) (hw : w ≤ 64)
    (n i : Nat) (x : BitVec w) (st : σ) (j : Nat) (hj : j < w) (hin : i + n ≤ w)
    (hx : ∀ j, i ≤ j → j < w → x.getLsbD j = false) :
    (isolateLoop step (((1#64) <<< b).setWidth w) i n x st).1.getLsbD j =
      if i ≤ j ∧ j < i + n then (step ((fun st => (step st).2)^[j - i] st)).1.getLsbD b else x.getLsbD j := by
  induction n generalizing i x st with
  | zero => rw [if_neg (by omega)]; rfl
  | succ n ih =>
    rw [isolateLoop]
    have hbit : ∀ j, j < w → (if (step st).1 &&& (((1#64) <<< b).setWidth w) ≠ 0#w
        then x ||| (((1#64) <<< i).setWidth w) else x).getLsbD j =
        (x.getLsbD j || (decide (j = i) && (step st).1.getLsbD b)) := by
      intro j hj
      have := and_pow_ne_zero (step st).1 b hb hw
      split
      · next h => rw [this] at h; rw [BitVec.getLsbD_or, getLsbD_one_shl i j hw hj, h]; simp
      · next h =>
        rw [this] at h
        have : (step st).1.getLsbD b = false := by simpa using h
        simp [this]
    rw [ih]
    · rw [hbit j hj]
      by_cases hji : j = i
      · subst hji
        rw [if_neg (by omega), if_pos (by omega), hx j le_rfl hj]
        simp
      · by_cases hr : i + 1 ≤ j ∧ j < i + 1 + n
        · rw [if_pos hr, if_pos (by omega), show j - i = (j - (i + 1)) + 1 by omega]
          rfl
        · rw [if_neg hr, if_neg (by omega)]; simp [hji]
    · omega
    · intro j' h1 h2
      rw [hbit j' h2, hx j' (by omega) h2]
      simp; omega

theorem stateAt_isolation (s : Stream (BitVec w)) (b k : Nat) :
    (bitIsolationStream s b).stateAt k = s.stateAt (k * w) := by
  induction k with
  | zero => simp [Stream.stateAt_zero, bitIsolationStream]
  | succ k ih =>
    rw [Stream.stateAt_succ, ih]
    show (isolateBitByRef s.step b _).2 = _
    rw [isolateBitByRef, isolateLoop_state, Nat.succ_mul, Nat.add_comm]
    rw [Stream.stateAt, Stream.stateAt, Function.iterate_add_apply]

theorem nth_isolation (s : Stream (BitVec w)) (hw : w ≤ 64) (b : Nat) (hb : b < w) (k i : Nat) (hi : i < w) :
    ((bitIsolationStream s b).nth k).getLsbD i = (s.nth (k * w + i)).getLsbD b := by
  rw [Stream.nth_eq, stateAt_isolation]
  show (isolateBitByRef s.step b _).1.getLsbD i = _
  rw [isolateBitByRef, isolateLoop_bit _ _ hb hw _ _ _ _ _ hi (by omega) (by simp), if_pos (by omega),
    Stream.nth_eq]
  congr 2
  simp only [Stream.stateAt, Nat.sub_zero, ← Function.iterate_add_apply, Nat.add_comm]

theorem stateAt_combined (a b : Stream (BitVec w)) (c : Combiner w) (k : Nat) :
    (combinedStream a b c).stateAt k = (a.stateAt k, b.stateAt k) := by
  induction k with
  | zero => rfl
  | succ k ih => rw [Stream.stateAt_succ, ih, Stream.stateAt_succ a, Stream.stateAt_succ b]; rfl

theorem nth_combined (a b : Stream (BitVec w)) (c : Combiner w) (k : Nat) :
    (combinedStream a b c).nth k = c.combine (a.nth k) (b.nth k) := by
  rw [Stream.nth_eq, stateAt_combined, Stream.nth_eq a, Stream.nth_eq b]; rfl

theorem stateAt_incremental (seed : BitVec w) (s : Stream (BitVec w)) (c : Combiner w) (k : Nat) :
    (combinedIncrementalStream seed s c).stateAt k = ((s.take k).foldl c.combine seed, s.stateAt k) := by
  induction k with
  | zero => rfl
  | succ k ih =>
    rw [Stream.stateAt_succ, ih, Stream.stateAt_succ s]
    show (c.combine _ (s.step (s.stateAt k)).1, _) = _
    rw [Stream.take_eq_map, Stream.take_eq_map, List.range_succ, List.map_append, List.foldl_append]
    simp [Stream.nth_eq]

theorem stateAt_prngFromMixer (m : Mixer w) (seed : BitVec w) (k : Nat) :
    (prngFromMixer m seed).stateAt k = m.mix^[k] seed := by
  induction k with
  | zero => rfl
  | succ k ih => rw [Stream.stateAt_succ, ih, Function.iterate_succ_apply']; rfl

theorem nth_prngFromMixer (m : Mixer w) (seed : BitVec w) (k : Nat) :
    (prngFromMixer m seed).nth k = m.mix^[k + 1] seed := by
  rw [Stream.nth_eq, stateAt_prngFromMixer, Function.iterate_succ_apply']; rfl

end TFR
