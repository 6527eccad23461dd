import Verif.Model.Combine
import Verif.Props.Budget
import Verif.Props.Correlation
import Verif.Props.Spearman
import Verif.Lemmas.Streams
/-
C94: median, mean, variance and rescaling (core/src/statistics/basic.h, core/src/util/algo.h, core/src/util/math.h).
C95: paired samples and the correlation tests (core/src/util/algo.h:83-107, core/src/statistics/correlation.h:109-132).
-/
namespace TFR

/-! ### C94 -/

open Classical in
private theorem count_lt_le {l : List ℝ} (hs : l.Pairwise (· ≤ ·)) (m : ℝ) (k : ℕ) (hk : k < l.length) (h : m ≤ l[k]) :
    l.countP (fun x => decide (x < m)) ≤ k := by
  rw [← List.take_append_drop k l, List.countP_append]
  have h1 : (l.take k).countP (fun x => decide (x < m)) ≤ k := (List.countP_le_length).trans (by simp)
  have h2 : (l.drop k).countP (fun x => decide (x < m)) = 0 := by
    rw [List.countP_eq_zero]
    intro x hx
    obtain ⟨i, hi, rfl⟩ := List.getElem_of_mem hx
    simp only [decide_eq_true_eq, not_lt, List.getElem_drop]
    rcases Nat.eq_zero_or_pos i with rfl | hpos
    · simpa using h
    · exact h.trans (List.pairwise_iff_getElem.1 hs k (k + i) hk (by simp at hi; omega) (by omega))
  omega

open Classical in
private theorem count_gt_le {l : List ℝ} (hs : l.Pairwise (· ≤ ·)) (m : ℝ) (k : ℕ) (hk : k < l.length) (h : l[k] ≤ m) :
    l.countP (fun x => decide (m < x)) ≤ l.length - 1 - k := by
  rw [← List.take_append_drop (k + 1) l, List.countP_append]
  have h1 : (l.drop (k + 1)).countP (fun x => decide (m < x)) ≤ l.length - 1 - k := (List.countP_le_length).trans (by simp; omega)
  have h2 : (l.take (k + 1)).countP (fun x => decide (m < x)) = 0 := by
    rw [List.countP_eq_zero]
    intro x hx
    obtain ⟨i, hi, rfl⟩ := List.getElem_of_mem hx
    simp only [decide_eq_true_eq, not_lt, List.getElem_take]
    simp at hi
    rcases Nat.lt_or_ge i k with hik | hik
    · exact (List.pairwise_iff_getElem.1 hs i k (by omega) hk hik).trans h
    · have : i = k := by omega
      subst this; exact h
  rw [List.take_append_drop]
  omega

open Classical in
/-- C94. On every sorted non-empty vector `get_median` returns a value with at most half of the data below it and at most half
above it; for an odd number of values it is one of them, for an even number it is the midpoint of the two central ones. -/
theorem C94_median (data : List ℝ) (hne : data ≠ []) (hs : data.Pairwise (· ≤ ·)) :
    ∃ m, getMedian data = .ok m ∧ 2 * data.countP (fun x => decide (x < m)) ≤ data.length ∧
      2 * data.countP (fun x => decide (m < x)) ≤ data.length ∧
      (data.length % 2 = 1 → m ∈ data) ∧
      (∀ k, data.length = 2 * (k + 1) → m = (data.getD k 0 + data.getD (k + 1) 0) / 2) := by
  have hpos := List.length_pos_iff.2 hne
  unfold getMedian
  simp only
  by_cases h : data.length % 2 = 1
  · have hk : data.length / 2 < data.length := by omega
    rw [if_pos h, List.getElem?_eq_getElem hk]
    refine ⟨_, rfl, ?_, ?_, fun _ => List.getElem_mem hk, fun k hk => by omega⟩
    · have := count_lt_le hs _ _ hk le_rfl
      omega
    · have := count_gt_le hs _ _ hk le_rfl
      omega
  · have h1 : (data.length - 1) / 2 < data.length := by omega
    have h2 : (data.length - 1) / 2 + 1 < data.length := by omega
    have hle := List.pairwise_iff_getElem.1 hs _ _ h1 h2 (by omega)
    rw [if_neg h, if_neg (by omega), List.getElem?_eq_getElem h1, List.getElem?_eq_getElem h2]
    refine ⟨_, rfl, ?_, ?_, fun h' => absurd h' h, ?_⟩
    · have := count_lt_le hs ((data[(data.length - 1) / 2] + data[(data.length - 1) / 2 + 1]) / 2) _ h2 (by linarith)
      omega
    · have := count_gt_le hs ((data[(data.length - 1) / 2] + data[(data.length - 1) / 2 + 1]) / 2) _ h1 (by linarith)
      omega
    · intro k hk
      have e : (data.length - 1) / 2 = k := by omega
      have hk1 : k < data.length := by omega
      have hk2 : k + 1 < data.length := by omega
      rw [List.getD_eq_getElem _ _ hk1, List.getD_eq_getElem _ _ hk2]
      simp only [e]

/-- C94. The median of no data reads out of bounds. -/
theorem C94_median_empty : getMedian [] = .error .oobIndex := by
  simp [getMedian]

private theorem foldl_add (l : List ℝ) (a : ℝ) : l.foldl (fun sum v => sum + v) a = a + l.sum := by
  induction l generalizing a with
  | nil => simp
  | cons x t ih => rw [List.foldl_cons, ih, List.sum_cons]; ring

private theorem foldl_sq (l : List ℝ) (m a : ℝ) :
    l.foldl (fun sum v => sum + (v - m) * (v - m)) a = a + (l.map fun v => v ^ 2).sum - 2 * m * l.sum + l.length * m ^ 2 := by
  induction l generalizing a with
  | nil => simp
  | cons x t ih => rw [List.foldl_cons, ih, List.sum_cons, List.map_cons, List.sum_cons, List.length_cons]; push_cast; ring

/-- C94. The mean is the sum divided by the number of values; the sum of squares around it is the sum of the squares minus `n`
times the square of the mean, is not negative, is smaller around the mean than around any other value, and vanishes exactly
when all values are equal; the two variances divide it by `n` and by `n - 1`. -/
theorem C94_moments (data : List ℝ) (hne : data ≠ []) :
    (basicStats data).n = data.length ∧ (basicStats data).mean = data.sum / data.length ∧
    (basicStats data).sumOfSquares = (data.map fun v => v ^ 2).sum - data.length * (data.sum / data.length) ^ 2 ∧
    0 ≤ (basicStats data).sumOfSquares ∧
    (∀ m, m ≠ (basicStats data).mean → (basicStats data).sumOfSquares < getSumOfSquares data m) ∧
    ((basicStats data).sumOfSquares = 0 ↔ ∀ x ∈ data, ∀ y ∈ data, x = y) ∧
    (basicStats data).variance = ((data.map fun v => v ^ 2).sum - data.length * (data.sum / data.length) ^ 2) / data.length ∧
    (basicStats data).sampleVariance =
      ((data.map fun v => v ^ 2).sum - data.length * (data.sum / data.length) ^ 2) / (data.length - 1) := by
  have hn : (0 : ℝ) < (data.length : ℝ) := by exact_mod_cast List.length_pos_iff.2 hne
  have hmean : (basicStats data).mean = data.sum / data.length := by
    show data.foldl (fun sum v => sum + v) 0 / (data.length : ℝ) = _
    rw [foldl_add, zero_add]
  have hss : ∀ m, getSumOfSquares data m = (data.map fun v => v ^ 2).sum - 2 * m * data.sum + data.length * m ^ 2 := by
    intro m
    unfold getSumOfSquares
    rw [foldl_sq, zero_add]
  have hsq : (basicStats data).sumOfSquares = (data.map fun v => v ^ 2).sum - data.length * (data.sum / data.length) ^ 2 := by
    have : (basicStats data).sumOfSquares = getSumOfSquares data (basicStats data).mean := rfl
    rw [this, hss, hmean]
    field_simp
    ring
  have hsum : ∀ m, getSumOfSquares data m = (data.map fun v => (v - m) ^ 2).sum := by
    intro m
    unfold getSumOfSquares
    have : ∀ (l : List ℝ) (a : ℝ), l.foldl (fun sum v => sum + (v - m) * (v - m)) a = a + (l.map fun v => (v - m) ^ 2).sum := by
      intro l
      induction l with
      | nil => simp
      | cons x t ih => intro a; rw [List.foldl_cons, ih, List.map_cons, List.sum_cons]; ring
    rw [this, zero_add]
  have hnn : ∀ m, 0 ≤ getSumOfSquares data m := by
    intro m
    rw [hsum]
    apply List.sum_nonneg
    intro x hx
    rw [List.mem_map] at hx
    obtain ⟨v, -, rfl⟩ := hx
    positivity
  have hdef : (basicStats data).sumOfSquares = getSumOfSquares data (basicStats data).mean := rfl
  refine ⟨rfl, hmean, hsq, by rw [hdef]; exact hnn _, ?_, ?_, ?_, ?_⟩
  · intro m hm
    have e : getSumOfSquares data m = (basicStats data).sumOfSquares + data.length * (m - data.sum / data.length) ^ 2 := by
      rw [hsq, hss]
      field_simp
      ring
    rw [e]
    have : 0 < (m - data.sum / data.length) ^ 2 := by
      rw [hmean] at hm
      have : m - data.sum / data.length ≠ 0 := sub_ne_zero.2 hm
      positivity
    nlinarith
  · constructor
    · intro h0
      rw [hdef, hsum] at h0
      have hall : ∀ x ∈ data, x = (basicStats data).mean := by
        intro x hx
        by_contra hc
        have hpos : 0 < (x - (basicStats data).mean) ^ 2 := by
          have : x - (basicStats data).mean ≠ 0 := sub_ne_zero.2 hc
          positivity
        have hle : (x - (basicStats data).mean) ^ 2 ≤ (data.map fun v => (v - (basicStats data).mean) ^ 2).sum := by
          apply List.single_le_sum
          · intro y hy
            rw [List.mem_map] at hy
            obtain ⟨v, -, rfl⟩ := hy
            positivity
          · exact List.mem_map.2 ⟨x, hx, rfl⟩
        linarith
      intro x hx y hy
      rw [hall x hx, hall y hy]
    · intro hall
      obtain ⟨x, hx⟩ := List.exists_mem_of_ne_nil data hne
      have hrep : data = List.replicate data.length x := by
        rw [List.eq_replicate_iff]
        exact ⟨rfl, fun y hy => hall y hy x hx⟩
      rw [hsq, hrep]
      simp
      have : (data.length : ℝ) ≠ 0 := hn.ne'
      field_simp
      ring
  · show (basicStats data).sumOfSquares / (data.length : ℝ) = _
    rw [hsq]
  · show (basicStats data).sumOfSquares / ((data.length : ℝ) - 1) = _
    rw [hsq]

/-- C94. `to_one_sided` maps a probability to twice the smaller of it and its complement: 1 at one half, 0 at the ends. -/
theorem C94_one_sided (p : ℝ) : toOneSided p = 2 * min p (1 - p) ∧ toOneSided p = toOneSided (1 - p) ∧
    (0 ≤ p → p ≤ 1 → 0 ≤ toOneSided p ∧ toOneSided p ≤ 1) := by
  unfold toOneSided
  rcases le_total p (1 / 2) with h | h
  · rw [abs_of_nonpos (by linarith), abs_of_nonneg (by linarith), min_eq_left (by linarith)]
    refine ⟨by ring, by ring, fun _ _ => ⟨by linarith, by linarith⟩⟩
  · rw [abs_of_nonneg (by linarith), abs_of_nonpos (by linarith), min_eq_right (by linarith)]
    refine ⟨by ring, by ring, fun _ _ => ⟨by linarith, by linarith⟩⟩

private theorem foldl_min_spec (l : List ℝ) (a : ℝ) : l.foldl min a ≤ a ∧ (∀ x ∈ l, l.foldl min a ≤ x) ∧ (l.foldl min a = a ∨ l.foldl min a ∈ l) := by
  induction l generalizing a with
  | nil => simp
  | cons x t ih =>
    obtain ⟨h1, h2, h3⟩ := ih (min a x)
    rw [List.foldl_cons]
    refine ⟨h1.trans (min_le_left _ _), ?_, ?_⟩
    · intro y hy
      rcases List.mem_cons.1 hy with rfl | hy
      · exact h1.trans (min_le_right _ _)
      · exact h2 y hy
    · rcases h3 with h3 | h3
      · rcases min_choice a x with h | h
        · exact Or.inl (h3.trans h)
        · exact Or.inr (by rw [h3, h]; simp)
      · exact Or.inr (List.mem_cons_of_mem _ h3)

private theorem foldl_max_spec (l : List ℝ) (a : ℝ) : a ≤ l.foldl max a ∧ (∀ x ∈ l, x ≤ l.foldl max a) ∧ (l.foldl max a = a ∨ l.foldl max a ∈ l) := by
  induction l generalizing a with
  | nil => simp
  | cons x t ih =>
    obtain ⟨h1, h2, h3⟩ := ih (max a x)
    rw [List.foldl_cons]
    refine ⟨(le_max_left _ _).trans h1, ?_, ?_⟩
    · intro y hy
      rcases List.mem_cons.1 hy with rfl | hy
      · exact (le_max_right _ _).trans h1
      · exact h2 y hy
    · rcases h3 with h3 | h3
      · rcases max_choice a x with h | h
        · exact Or.inl (h3.trans h)
        · exact Or.inr (by rw [h3, h]; simp)
      · exact Or.inr (List.mem_cons_of_mem _ h3)

private theorem extremes {data : List ℝ} (hne : data ≠ []) :
    minElement data ∈ data ∧ maxElement data ∈ data ∧ ∀ x ∈ data, minElement data ≤ x ∧ x ≤ maxElement data := by
  obtain ⟨a, t, rfl⟩ := List.exists_cons_of_ne_nil hne
  obtain ⟨-, h2, h3⟩ := foldl_min_spec (a :: t) a
  obtain ⟨-, k2, k3⟩ := foldl_max_spec (a :: t) a
  refine ⟨?_, ?_, fun x hx => ⟨h2 x hx, k2 x hx⟩⟩
  · rcases h3 with h | h
    · show (a :: t).foldl min a ∈ a :: t
      rw [h]; simp
    · exact h
  · rcases k3 with h | h
    · show (a :: t).foldl max a ∈ a :: t
      rw [h]; simp
    · exact h

/-- C94. `rescale_to_01` keeps the number of values and maps data whose range exceeds `1e-6` increasingly and affinely into
`[0, 1]`, the smallest value to 0 and the largest to 1; data with a smaller range collapses to `1/2`. -/
theorem C94_rescale (data : List ℝ) :
    (rescaleRealsTo01 data).length = data.length ∧
    ((∃ x ∈ data, ∃ y ∈ data, 1 / 10 ^ 6 < y - x) →
      ∃ lo ∈ data, ∃ hi ∈ data, (∀ x ∈ data, lo ≤ x ∧ x ≤ hi) ∧
        rescaleRealsTo01 data = data.map (fun x => (x - lo) / (hi - lo)) ∧
        (∀ x ∈ data, 0 ≤ (x - lo) / (hi - lo) ∧ (x - lo) / (hi - lo) ≤ 1) ∧
        0 ∈ rescaleRealsTo01 data ∧ 1 ∈ rescaleRealsTo01 data) ∧
    ((∀ x ∈ data, ∀ y ∈ data, y - x ≤ 1 / 10 ^ 6) → rescaleRealsTo01 data = data.map fun _ => 1 / 2) := by
  by_cases hne : data = []
  · subst hne; simp [rescaleRealsTo01]
  obtain ⟨hlo, hhi, hb⟩ := extremes hne
  have hr : rescaleRealsTo01 data = data.map fun v => rescaleTo01 v (minElement data) (maxElement data) := by
    unfold rescaleRealsTo01; rw [if_neg hne]
  refine ⟨by rw [hr]; simp, ?_, ?_⟩
  · rintro ⟨x, hx, y, hy, hxy⟩
    have hgap : 1 / 10 ^ 6 < maxElement data - minElement data := by linarith [(hb x hx).1, (hb y hy).2]
    have hpos : 0 < maxElement data - minElement data := lt_trans (by norm_num) hgap
    have hnear : isNearR (minElement data) (maxElement data) = false := by
      unfold isNearR
      rw [decide_eq_false_iff_not, abs_of_nonpos (by linarith)]
      linarith
    have hmap : rescaleRealsTo01 data = data.map (fun x => (x - minElement data) / (maxElement data - minElement data)) := by
      rw [hr]
      apply List.map_congr_left
      intro v _
      unfold rescaleTo01
      rw [hnear]
      simp
    refine ⟨_, hlo, _, hhi, hb, hmap, ?_, ?_, ?_⟩
    · intro x hx
      constructor
      · exact div_nonneg (by linarith [(hb x hx).1]) hpos.le
      · rw [div_le_one hpos]; linarith [(hb x hx).2]
    · rw [hmap, List.mem_map]
      exact ⟨_, hlo, by simp⟩
    · rw [hmap, List.mem_map]
      exact ⟨_, hhi, div_self hpos.ne'⟩
  · intro h
    have hnear : isNearR (minElement data) (maxElement data) = true := by
      unfold isNearR
      rw [decide_eq_true_eq, abs_of_nonpos (by linarith [(hb _ hlo).2])]
      linarith [h _ hlo _ hhi]
    rw [hr]
    apply List.map_congr_left
    intro v _
    unfold rescaleTo01
    rw [hnear]
    simp

example : getMedian [1, 2, 4, 5] = .ok 3 := by
  obtain ⟨m, h, -, -, -, h4⟩ := C94_median [1, 2, 4, 5] (by simp) (by simp; norm_num)
  rw [h, h4 1 rfl]
  norm_num

example : (basicStats [1, 2, 3]).sumOfSquares = 2 := by
  rw [(C94_moments [1, 2, 3] (by simp)).2.2.1]; norm_num

/-! ### C95 -/

section
variable {w : Nat}

namespace Spec
/-- First components of `size` pairs of consecutive values of a stream, from position `off` on, scaled to `[0,1]`. -/
noncomputable def pairXs (s : Stream (BitVec w)) (off size : ℕ) : List ℝ :=
  (List.range size).map fun i => ((s.nth (off + 2 * i)).toNat : ℝ) / ((2 ^ w - 1 : ℕ) : ℝ)

/-- Second components. -/
noncomputable def pairYs (s : Stream (BitVec w)) (off size : ℕ) : List ℝ :=
  (List.range size).map fun i => ((s.nth (off + 2 * i + 1)).toNat : ℝ) / ((2 ^ w - 1 : ℕ) : ℝ)

/-- Number of pairs used by the sub-tests before number `i`. -/
def pairsBefore (sizes : List (BitVec 64)) (i : ℕ) : ℕ := ((sizes.take i).map BitVec.toNat).sum
end Spec

private theorem serial_eq (s : Stream (BitVec w)) (n : ℕ) (o : ℕ) :
    createSerialXy s n (s.stateAt o) = ((Spec.pairXs s o n, Spec.pairYs s o n), s.stateAt (o + 2 * n)) := by
  induction n generalizing o with
  | zero => simp [createSerialXy, Spec.pairXs, Spec.pairYs]
  | succ n ih =>
    have e1 : (s.step (s.stateAt o)).2 = s.stateAt (o + 1) := (Stream.stateAt_succ s o).symm
    have e2 : (s.step (s.stateAt (o + 1))).2 = s.stateAt (o + 2) := (Stream.stateAt_succ s (o + 1)).symm
    unfold createSerialXy
    simp only
    rw [e1, e2, ih (o + 2)]
    simp only [Spec.pairXs, Spec.pairYs, List.range_succ_eq_map, List.map_cons, List.map_map, Stream.nth_eq, rescaleTypeR]
    refine Prod.ext (Prod.ext ?_ ?_) ?_
    · simp only [Nat.mul_zero, Nat.add_zero, List.cons.injEq, true_and]
      apply List.map_congr_left
      intro i _
      simp only [Function.comp, Nat.succ_eq_add_one]
      rw [show o + 2 + 2 * i = o + 2 * (i + 1) by ring]
    · simp only [Nat.mul_zero, Nat.add_zero, List.cons.injEq, true_and]
      apply List.map_congr_left
      intro i _
      simp only [Function.comp, Nat.succ_eq_add_one]
      rw [show o + 2 + 2 * i + 1 = o + 2 * (i + 1) + 1 by ring]
    · show s.stateAt (o + 2 + 2 * n) = s.stateAt (o + 2 * (n + 1))
      congr 1; ring

/-- C95. `create_serial_xy_by_ref` splits the next `2 n` values of the stream into consecutive pairs: value `2 i` is the first
and value `2 i + 1` the second coordinate of pair `i`; exactly `2 n` values are used. -/
theorem C95_pairs (s : Stream (BitVec w)) (n : ℕ) :
    createSerialXy s n s.state = ((Spec.pairXs s 0 n, Spec.pairYs s 0 n), s.stateAt (2 * n)) := by
  have := serial_eq s n 0
  rwa [Stream.stateAt_zero, Nat.zero_add] at this

private theorem block_calls (s : Stream (BitVec w)) (f : s.σ → BitVec 64 → Option (Statistic ℝ) × s.σ)
    (g : List ℝ → List ℝ → Option (Statistic ℝ))
    (hf : ∀ st size, f st size = (g (createSerialXy s size.toNat st).1.1 (createSerialXy s size.toNat st).1.2,
      (createSerialXy s size.toNat st).2)) (sizes : List (BitVec 64)) (o : ℕ) :
    (Spec.callAll f (s.stateAt o) sizes).1 = (List.range sizes.length).map fun i =>
      g (Spec.pairXs s (o + 2 * Spec.pairsBefore sizes i) (sizes.getD i 0#64).toNat)
        (Spec.pairYs s (o + 2 * Spec.pairsBefore sizes i) (sizes.getD i 0#64).toNat) := by
  induction sizes generalizing o with
  | nil => rfl
  | cons n t ih =>
    unfold Spec.callAll
    simp only
    rw [hf, serial_eq]
    simp only
    rw [ih, List.length_cons, List.range_succ_eq_map, List.map_cons, List.map_map]
    congr 1
    apply List.map_congr_left
    intro i _
    have e : o + 2 * n.toNat + 2 * Spec.pairsBefore t i = o + 2 * Spec.pairsBefore (n :: t) (i + 1) := by
      unfold Spec.pairsBefore
      rw [List.take_succ_cons, List.map_cons, List.sum_cons]; ring
    simp only [Function.comp, Nat.succ_eq_add_one, List.getD_cons_succ, e]

private theorem test_of_blocks (s : Stream (BitVec w)) (m : BitVec 64) (hm : m ≠ 0#64) (n : BitVec 64)
    (f : s.σ → BitVec 64 → Option (Statistic ℝ) × s.σ) (g : List ℝ → List ℝ → Option (Statistic ℝ))
    (hf : ∀ st size, f st size = (g (createSerialXy s size.toNat st).1.1 (createSerialXy s size.toNat st).1.2,
      (createSerialXy s size.toNat st).2)) :
    ∃ res, (do .ok (← splitTest n m f s.state).1 : R (List (SubTest ℝ))) = .ok res ∧
      res.map SubTest.name = Spec.splitNames n m ∧
      res.map SubTest.stats = (List.range (Spec.splitSizes n m).length).map fun i =>
        g (Spec.pairXs s (2 * Spec.pairsBefore (Spec.splitSizes n m) i) ((Spec.splitSizes n m).getD i 0#64).toNat)
          (Spec.pairYs s (2 * Spec.pairsBefore (Spec.splitSizes n m) i) ((Spec.splitSizes n m).getD i 0#64).toNat) := by
  obtain ⟨res, s', h1, h2, h3⟩ := C40_split n m hm f s.state
  refine ⟨res, by rw [h1]; rfl, h2, ?_⟩
  have := block_calls s f g hf (Spec.splitSizes n m) 0
  rw [Stream.stateAt_zero] at this
  rw [← h3] at this
  simpa only [Nat.zero_add] using this

private theorem pairs_length (s : Stream (BitVec w)) (o n : ℕ) : (Spec.pairXs s o n).length = (Spec.pairYs s o n).length := by
  simp [Spec.pairXs, Spec.pairYs]

/-- C95. The Pearson correlation test cuts the stream into consecutive, non-overlapping runs of pairs (one run for up to a
million pairs) and reports for each the Pearson statistic of its pairs. -/
theorem C95_pearson_test (n : BitVec 64) (s : Stream (BitVec w)) :
    ∃ res, pearsonCorrelationTest n s = .ok res ∧ res.map SubTest.name = Spec.splitNames n 1000000#64 ∧
      res.map (fun r => (Except.ok r.stats : R (Option (Statistic ℝ)))) =
        (List.range (Spec.splitSizes n 1000000#64).length).map fun i =>
          pearsonStats (Spec.pairXs s (2 * Spec.pairsBefore (Spec.splitSizes n 1000000#64) i) ((Spec.splitSizes n 1000000#64).getD i 0#64).toNat)
            (Spec.pairYs s (2 * Spec.pairsBefore (Spec.splitSizes n 1000000#64) i) ((Spec.splitSizes n 1000000#64).getD i 0#64).toNat) := by
  obtain ⟨res, h1, h2, h3⟩ := test_of_blocks s 1000000#64 (by decide) n (pearsonBlock s) (fun xs ys => (pearsonStats xs ys).toOption.join)
    (fun _ _ => rfl)
  refine ⟨res, h1, h2, ?_⟩
  have : res.map (fun r => (Except.ok r.stats : R (Option (Statistic ℝ)))) = (res.map SubTest.stats).map Except.ok := by
    rw [List.map_map]; rfl
  rw [this, h3, List.map_map]
  apply List.map_congr_left
  intro i _
  simp only [Function.comp]
  obtain ⟨a, b⟩ := C62_pearson (Spec.pairXs s (2 * Spec.pairsBefore (Spec.splitSizes n 1000000#64) i) ((Spec.splitSizes n 1000000#64).getD i 0#64).toNat)
    (Spec.pairYs s (2 * Spec.pairsBefore (Spec.splitSizes n 1000000#64) i) ((Spec.splitSizes n 1000000#64).getD i 0#64).toNat) 1 (pairs_length _ _ _)
  rcases Nat.lt_or_ge (Spec.pairXs s (2 * Spec.pairsBefore (Spec.splitSizes n 1000000#64) i) ((Spec.splitSizes n 1000000#64).getD i 0#64).toNat).length 3 with h | h
  · rw [a h]; rfl
  · obtain ⟨st, hst, -⟩ := b h
    rw [hst]; rfl

/-- C95. The Kendall correlation test does the same with runs of at most ten thousand pairs. -/
theorem C95_kendall_test (n : BitVec 64) (s : Stream (BitVec w)) :
    ∃ res, kendallCorrelationTest n s = .ok res ∧ res.map SubTest.name = Spec.splitNames n 10000#64 ∧
      res.map (fun r => (Except.ok r.stats : R (Option (Statistic ℝ)))) =
        (List.range (Spec.splitSizes n 10000#64).length).map fun i =>
          kendallStats (Spec.pairXs s (2 * Spec.pairsBefore (Spec.splitSizes n 10000#64) i) ((Spec.splitSizes n 10000#64).getD i 0#64).toNat)
            (Spec.pairYs s (2 * Spec.pairsBefore (Spec.splitSizes n 10000#64) i) ((Spec.splitSizes n 10000#64).getD i 0#64).toNat) := by
  obtain ⟨res, h1, h2, h3⟩ := test_of_blocks s 10000#64 (by decide) n (kendallBlock s) (fun xs ys => (kendallStats xs ys).toOption.join)
    (fun _ _ => rfl)
  refine ⟨res, h1, h2, ?_⟩
  have : res.map (fun r => (Except.ok r.stats : R (Option (Statistic ℝ)))) = (res.map SubTest.stats).map Except.ok := by
    rw [List.map_map]; rfl
  rw [this, h3, List.map_map]
  apply List.map_congr_left
  intro i _
  simp only [Function.comp]
  generalize hx : Spec.pairXs s (2 * Spec.pairsBefore (Spec.splitSizes n 10000#64) i) ((Spec.splitSizes n 10000#64).getD i 0#64).toNat = xs
  generalize hy : Spec.pairYs s (2 * Spec.pairsBefore (Spec.splitSizes n 10000#64) i) ((Spec.splitSizes n 10000#64).getD i 0#64).toNat = ys
  have hl : xs.length = ys.length := by rw [← hx, ← hy]; exact pairs_length _ _ _
  obtain ⟨a, b⟩ := C62_kendall xs ys hl
  by_cases h : xs.length < 2 ∨ Spec.pairCount xs.length (fun j k => xs.getD j 0 ≠ xs.getD k 0) = 0 ∨
      Spec.pairCount xs.length (fun j k => ys.getD j 0 ≠ ys.getD k 0) = 0
  · rw [a h]; rfl
  · push Not at h
    obtain ⟨st, hst, -⟩ := b (by omega) (Nat.pos_of_ne_zero h.2.1) (Nat.pos_of_ne_zero h.2.2)
    rw [hst]; rfl

/-- C95. The Spearman correlation test does the same with the rank statistic of each run, whatever order `std::sort` gives to
equal values. -/
theorem C95_spearman_test (ranks : List ℝ → List Nat) (hr : ∀ l, GetRanks l (ranks l)) (n : BitVec 64) (s : Stream (BitVec w)) :
    ∃ res, spearmanCorrelationTest ranks n s = .ok res ∧ res.map SubTest.name = Spec.splitNames n 1000000#64 ∧
      res.length = (Spec.splitSizes n 1000000#64).length ∧
      ∀ i (hi : i < res.length),
        SpearmanStats (Spec.pairXs s (2 * Spec.pairsBefore (Spec.splitSizes n 1000000#64) i) ((Spec.splitSizes n 1000000#64).getD i 0#64).toNat)
          (Spec.pairYs s (2 * Spec.pairsBefore (Spec.splitSizes n 1000000#64) i) ((Spec.splitSizes n 1000000#64).getD i 0#64).toNat)
          (.ok res[i].stats) := by
  obtain ⟨res, h1, h2, h3⟩ := test_of_blocks s 1000000#64 (by decide) n (spearmanBlock ranks s)
    (fun xs ys => (pearsonStats (rescaleVecTo01 (ranks xs)) (rescaleVecTo01 (ranks ys)) (106 / 100)).toOption.join) (fun _ _ => rfl)
  have hlen : res.length = (Spec.splitSizes n 1000000#64).length := by
    have := congrArg List.length h3
    simpa using this
  refine ⟨res, h1, h2, hlen, ?_⟩
  intro i hi
  have e : (res.map SubTest.stats)[i]? = some res[i].stats := by simp [hi]
  rw [h3, List.getElem?_map, List.getElem?_range (by omega)] at e
  simp only [Option.map_some, Option.some.injEq] at e
  rw [← e]
  generalize hx : Spec.pairXs s (2 * Spec.pairsBefore (Spec.splitSizes n 1000000#64) i) ((Spec.splitSizes n 1000000#64).getD i 0#64).toNat = xs
  generalize hy : Spec.pairYs s (2 * Spec.pairsBefore (Spec.splitSizes n 1000000#64) i) ((Spec.splitSizes n 1000000#64).getD i 0#64).toNat = ys
  have hl : xs.length = ys.length := by rw [← hx, ← hy]; exact pairs_length _ _ _
  refine ⟨ranks xs, ranks ys, hr xs, hr ys, ?_⟩
  have hl2 : (rescaleVecTo01 (ranks xs)).length = (rescaleVecTo01 (ranks ys)).length := by
    have a := (hr xs).1.length_eq
    have b := (hr ys).1.length_eq
    simp only [List.length_range] at a b
    simp [rescaleVecTo01, a, b, hl]
  obtain ⟨a, b⟩ := C62_pearson _ _ (106 / 100) hl2
  rcases Nat.lt_or_ge (rescaleVecTo01 (ranks xs)).length 3 with h | h
  · rw [a h]; rfl
  · obtain ⟨st, hst, -⟩ := b h
    rw [hst]; rfl

private theorem row_eq (hw : w ≤ 64) (mixer : Mixer w) (v : BitVec w) :
    bitFlippedRow mixer v = .ok ((List.range w).map fun _ => rescaleTypeR (mixer.mix v),
      (List.range w).map fun bit => rescaleTypeR (mixer.mix (mixer.mix v ^^^ BitVec.twoPow w bit))) := by
  unfold bitFlippedRow
  simp only
  have key : ∀ k, k ≤ w → ∀ (a b : List ℝ),
      (List.range k).foldlM (fun (xy : List ℝ × List ℝ) (bit : Nat) => (do
        let f ← flipBit (mixer.mix v) bit
        .ok (xy.1 ++ [rescaleTypeR (mixer.mix v)], xy.2 ++ [rescaleTypeR (mixer.mix f)]) : R _)) (a, b) =
      .ok (a ++ (List.range k).map (fun _ => rescaleTypeR (mixer.mix v)),
        b ++ (List.range k).map fun bit => rescaleTypeR (mixer.mix (mixer.mix v ^^^ BitVec.twoPow w bit))) := by
    intro k
    induction k with
    | zero => intro _ a b; simp [pure, Except.pure]
    | succ k ih =>
      intro hk a b
      rw [List.range_succ, List.foldlM_append, ih (by omega)]
      have hf : flipBit (mixer.mix v) (k : Int) = .ok (mixer.mix v ^^^ BitVec.twoPow w k) := by
        unfold flipBit
        rw [if_pos ⟨by omega, by omega⟩]
        congr 1
        apply BitVec.eq_of_getLsbD_eq
        intro j hj
        have hj64 : j < 64 := by omega
        simp [hj, hj64, BitVec.getLsbD_twoPow, BitVec.getLsbD_shiftLeft, BitVec.getLsbD_one]
        congr 1
        by_cases h : j < k <;> by_cases h2 : k = j <;> simp [h, h2] <;> omega
      simp only [List.foldlM_cons, List.foldlM_nil, bind, Except.bind, hf, pure, Except.pure]
      simp
  have := key w le_rfl [] []
  simpa using this

/-- C95. `create_bit_flipped_xy` pairs, for each of the next `n` values `v` and each bit, the scaled mixed value `m(v)` with the
scaled value `m(m(v) with the bit flipped)`: it is the mixed value, not the input, whose bits are flipped. -/
theorem C95_bit_flipped (hw : w ≤ 64) (n : ℕ) (s : Stream (BitVec w)) (mixer : Mixer w) :
    createBitFlippedXy n s mixer = .ok
      ((s.take n).flatMap fun v => (List.range w).map fun _ => ((mixer.mix v).toNat : ℝ) / ((2 ^ w - 1 : ℕ) : ℝ),
       (s.take n).flatMap fun v => (List.range w).map fun bit =>
        ((mixer.mix (mixer.mix v ^^^ BitVec.twoPow w bit)).toNat : ℝ) / ((2 ^ w - 1 : ℕ) : ℝ)) := by
  unfold createBitFlippedXy
  have key : ∀ (l : List (BitVec w)) (a b : List ℝ),
      l.foldlM (fun (xy : List ℝ × List ℝ) v => (do
        let r ← bitFlippedRow mixer v
        .ok (xy.1 ++ r.1, xy.2 ++ r.2) : R _)) (a, b) =
      .ok (a ++ l.flatMap (fun v => (List.range w).map fun _ => rescaleTypeR (mixer.mix v)),
        b ++ l.flatMap fun v => (List.range w).map fun bit => rescaleTypeR (mixer.mix (mixer.mix v ^^^ BitVec.twoPow w bit))) := by
    intro l
    induction l with
    | nil => intro a b; simp [pure, Except.pure]
    | cons v t ih =>
      intro a b
      rw [List.foldlM_cons, row_eq hw]
      show (List.foldlM _ _ t : R _) = _
      rw [ih]
      simp [List.append_assoc]
  have := key (s.take n) [] []
  simpa [rescaleTypeR] using this

/-- C95, non-vacuity: 2500000 pairs are two runs of a million, the second of which starts at value 2000000. -/
example : Spec.splitSizes 2500000#64 1000000#64 = [1000000#64, 1000000#64] ∧
    Spec.pairsBefore (Spec.splitSizes 2500000#64 1000000#64) 1 = 1000000 := by
  decide +kernel

end
end TFR
