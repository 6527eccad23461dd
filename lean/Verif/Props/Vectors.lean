import Verif.Model.Vectors
import Verif.Props.Streams
import Verif.Props.Segments
/-
C141: the vector helpers of algo.h.
-/
namespace TFR
variable {w : Nat}

/-- C141. `rescale_type_to_01_by_ref` takes exactly the next `n` values of the caller's stream, in order; the results are the rescaled
values, all from 0 to 1 and in the order of the words.  A second call goes on where the first stopped. -/
theorem C141_rescaled (s : Stream (BitVec w)) (n m : Nat) :
    rescaleByRef n s = ((List.range n).map fun k => rescaleTypeTo01 (s.nth k), s.drop n) ∧
    (rescaleByRef n s).1 ++ (rescaleByRef m (rescaleByRef n s).2).1 = (rescaleByRef (n + m) s).1 ∧
    (rescaleByRef n s).1 = rescaleWords (getRawByRef n s).1 ∧
    (∀ x ∈ (rescaleByRef n s).1, 0 ≤ x ∧ x ≤ 1) ∧
    ∀ i j a b, (rescaleByRef n s).1[i]? = some a → (rescaleByRef n s).1[j]? = some b → s.nth i ≤ s.nth j → a ≤ b := by
  have key : ∀ (n : Nat) (s : Stream (BitVec w)), rescaleByRef n s = ((List.range n).map fun k => rescaleTypeTo01 (s.nth k), s.drop n) := by
    intro n
    induction n with
    | zero => intro s; rfl
    | succ n ih =>
      intro s
      simp only [rescaleByRef, ih]
      rw [List.range_succ_eq_map, List.map_cons, List.map_map]
      rfl
  have hfold : ∀ (data : List (BitVec w)) (l : List ℚ), data.foldl (fun ns v => ns ++ [rescaleTypeTo01 v]) l = l ++ data.map rescaleTypeTo01 := by
    intro data
    induction data with
    | nil => intro l; simp
    | cons a d ih => intro l; rw [List.foldl_cons, ih]; simp
  refine ⟨key n s, ?_, ?_, ?_, ?_⟩
  · rw [key (n + m), key n, key m]
    dsimp only
    rw [List.range_add, List.map_append, List.map_map]
    refine congrArg _ (List.map_congr_left fun k _ => ?_)
    show rescaleTypeTo01 ((s.drop n).nth k) = rescaleTypeTo01 (s.nth (n + k))
    rw [Stream.nth_drop]
  · rw [key, C32_getRawByRef, rescaleWords, hfold, List.nil_append, List.map_map]; rfl
  · intro x hx
    rw [key] at hx
    obtain ⟨k, _, rfl⟩ := List.mem_map.1 hx
    exact ⟨rescale_nonneg _, rescale_le_one _⟩
  · intro i j a b ha hb h
    rw [key] at ha hb
    dsimp only at ha hb
    rw [List.getElem?_map, Option.map_eq_some_iff] at ha hb
    obtain ⟨i', hi, rfl⟩ := ha
    obtain ⟨j', hj, rfl⟩ := hb
    obtain ⟨_, rfl⟩ := List.getElem?_eq_some_iff.1 hi
    obtain ⟨_, rfl⟩ := List.getElem?_eq_some_iff.1 hj
    simp only [List.getElem_range]
    exact C75_rescale_mono _ _ h

example : (rescaleByRef 2 (counterStream 8 85 0)).1 = [6004799503160661 / 2 ^ 54, 6004799503160661 / 2 ^ 53] := by decide +kernel

/-- C141. The sum of a vector of unsigned words is the sum of their values modulo two to the width. -/
theorem C141_sum_words (hw : w ≤ 64) (data : List (BitVec w)) :
    (accumulateWords data).toNat = (data.map BitVec.toNat).sum % 2 ^ w := by
  have key : ∀ (data : List (BitVec w)) (acc : BitVec 64), (data.foldl (fun acc v => acc + v.setWidth 64) acc).toNat =
      (acc.toNat + (data.map BitVec.toNat).sum) % 2 ^ 64 := by
    intro data
    induction data with
    | nil => intro acc; simp [Nat.mod_eq_of_lt acc.isLt]
    | cons a d ih =>
      intro acc
      rw [List.foldl_cons, ih, List.map_cons, List.sum_cons, BitVec.toNat_add, BitVec.toNat_setWidth,
        Nat.mod_eq_of_lt (a.isLt.trans_le (Nat.pow_le_pow_right (by norm_num) hw)), Nat.mod_add_mod]
      congr 1; ring
  unfold accumulateWords
  rw [BitVec.toNat_setWidth, key]
  simp only [BitVec.toNat_zero, Nat.zero_add]
  exact Nat.mod_mod_of_dvd _ (Nat.pow_dvd_pow 2 hw)

example : accumulateWords [200#8, 100#8] = 44#8 ∧ accumulateWords [200#16, 100#16] = 300#16 := by decide

/-- C141. For doubles the sum is cut off to a whole number after every addition: numbers from 0 to below 1 always add up to 0. -/
theorem C141_sum_fractions (data : List ℚ) (h : ∀ v ∈ data, 0 ≤ v ∧ v < 1 ∧ Fl.rnd v = v) : accumulateDoubles data = .ok 0 := by
  have key : data.foldlM accumulateStep 0#64 = .ok 0#64 := by
    induction data with
    | nil => rfl
    | cons v d ih =>
      obtain ⟨h0, h1, h2⟩ := h v List.mem_cons_self
      have hs : accumulateStep 0#64 v = .ok 0#64 := by
        have hx : Fl.add (Fl.ofNat (0#64).toNat) v = v := by
          show Fl.rnd (Fl.rnd ((0 : ℕ) : ℚ) + v) = v
          rw [Nat.cast_zero, Fl.rnd_zero, zero_add, h2]
        unfold accumulateStep
        dsimp only
        rw [hx, if_pos ⟨by linarith, by linarith [show (1 : ℚ) ≤ 2 ^ 64 by norm_num]⟩, max_eq_left h0]
        have : ⌊v⌋ = 0 := Int.floor_eq_zero_iff.2 ⟨h0, h1⟩
        rw [this]; rfl
      rw [List.foldlM_cons, hs]
      exact ih fun v hv => h v (List.mem_cons_of_mem _ hv)
  unfold accumulateDoubles
  rw [key]
  show (Except.ok (Fl.rnd ((0 : ℕ) : ℚ)) : R ℚ) = _
  rw [Nat.cast_zero, Fl.rnd_zero]

example : accumulateDoubles [1 / 2, 3 / 4, 7 / 8] = .ok 0 :=
  C141_sum_fractions _ fun v hv => by
    simp only [List.mem_cons, List.not_mem_nil, or_false] at hv
    rcases hv with rfl | rfl | rfl <;> refine ⟨by norm_num, by norm_num, by decide +kernel⟩

/-- C141. Whole numbers are added exactly as long as the total is at most 2^53. -/
theorem C141_sum_whole (data : List ℕ) (h : data.sum ≤ 2 ^ 53) : accumulateDoubles (data.map fun v : ℕ => (v : ℚ)) = .ok (data.sum : ℚ) := by
  have key : ∀ (data : List ℕ) (acc : BitVec 64), acc.toNat + data.sum ≤ 2 ^ 53 →
      (data.map fun v : ℕ => (v : ℚ)).foldlM accumulateStep acc = .ok (BitVec.ofNat 64 (acc.toNat + data.sum)) := by
    intro data
    induction data with
    | nil => intro acc _; simp; rfl
    | cons v d ih =>
      intro acc hacc
      rw [List.sum_cons] at hacc
      have hs : accumulateStep acc v = .ok (BitVec.ofNat 64 (acc.toNat + v)) := by
        have hx : Fl.add (Fl.ofNat acc.toNat) v = ((acc.toNat + v : ℕ) : ℚ) := by
          show Fl.rnd (Fl.rnd ((acc.toNat : ℕ) : ℚ) + v) = _
          rw [Fl.rnd_natCast (by omega), ← Nat.cast_add, Fl.rnd_natCast (by omega)]
        unfold accumulateStep
        dsimp only
        have hlt : ((acc.toNat + v : ℕ) : ℚ) < 2 ^ 64 := by
          have : acc.toNat + v < 2 ^ 64 := by omega
          exact_mod_cast this
        have h0 : (0 : ℚ) ≤ ((acc.toNat + v : ℕ) : ℚ) := Nat.cast_nonneg _
        rw [hx, if_pos ⟨by linarith, hlt⟩, max_eq_left h0, Int.floor_natCast, Int.toNat_natCast]
      rw [List.map_cons, List.foldlM_cons, hs]
      have e : (BitVec.ofNat 64 (acc.toNat + v)).toNat = acc.toNat + v := by
        rw [BitVec.toNat_ofNat, Nat.mod_eq_of_lt (by omega)]
      show (d.map fun v : ℕ => (v : ℚ)).foldlM accumulateStep (BitVec.ofNat 64 (acc.toNat + v)) = _
      rw [ih _ (by rw [e]; omega), e, List.sum_cons, Nat.add_assoc]
  unfold accumulateDoubles
  rw [key data 0#64 (by simpa using h)]
  show (Except.ok (Fl.rnd (((BitVec.ofNat 64 (0 + data.sum)).toNat : ℕ) : ℚ)) : R ℚ) = _
  rw [BitVec.toNat_ofNat, Nat.zero_add, Nat.mod_eq_of_lt (by omega), Fl.rnd_natCast h]

example : accumulateDoubles ([3, 4, 5].map fun v : ℕ => (v : ℚ)) = .ok ((12 : ℕ) : ℚ) := C141_sum_whole [3, 4, 5] (by norm_num)

/-- C141. A vector that starts with a double of -1 or less is undefined behaviour, whatever follows. -/
theorem C141_sum_negative (v : ℚ) (data : List ℚ) (h : v ≤ -1) (hv : Fl.rnd v = v) : accumulateDoubles (v :: data) = .error .badCast := by
  have hs : accumulateStep 0#64 v = .error .badCast := by
    have hx : Fl.add (Fl.ofNat (0#64).toNat) v = v := by
      show Fl.rnd (Fl.rnd ((0 : ℕ) : ℚ) + v) = v
      rw [Nat.cast_zero, Fl.rnd_zero, zero_add, hv]
    unfold accumulateStep
    dsimp only
    rw [hx, if_neg (by rintro ⟨a, _⟩; linarith)]
  unfold accumulateDoubles
  rw [List.foldlM_cons, hs]; rfl

example : accumulateDoubles [-3 / 2, 10] = .error .badCast := C141_sum_negative _ _ (by norm_num) (by decide +kernel)

end TFR
