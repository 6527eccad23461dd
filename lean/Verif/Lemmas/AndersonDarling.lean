import Verif.Spec.AndersonDarling
import Mathlib.MeasureTheory.Integral.IntervalIntegral.FundThmCalculus
import Mathlib.Analysis.SpecialFunctions.Log.Deriv
import Mathlib.Data.List.GetD
import Mathlib.Tactic.Ring
import Mathlib.Tactic.Linarith
import Mathlib.Tactic.FieldSimp
/-
The Anderson-Darling integral, as a double sum over pairs of samples.
-/
namespace TFR
open MeasureTheory Set

/-- Step at `a`. -/
noncomputable def adStep (a u : ℝ) : ℝ := if a ≤ u then 1 else 0

/-- Contribution of a pair of samples. -/
noncomputable def adPair (a b u : ℝ) : ℝ := (adStep a u - u) * (adStep b u - u) / (u * (1 - u))

private theorem piece1 {a : ℝ} (h0 : 0 < a) (h1 : a < 1) :
    IntervalIntegrable (fun u : ℝ => u / (1 - u)) volume 0 a ∧ ∫ u in (0 : ℝ)..a, u / (1 - u) = -a - Real.log (1 - a) := by
  have hc : IntervalIntegrable (fun u : ℝ => u / (1 - u)) volume 0 a := by
    apply ContinuousOn.intervalIntegrable
    rw [uIcc_of_le h0.le]
    apply ContinuousOn.div (by fun_prop) (by fun_prop)
    intro u hu
    linarith [hu.2]
  refine ⟨hc, ?_⟩
  rw [intervalIntegral.integral_eq_sub_of_hasDerivAt (f := fun u => -u - Real.log (1 - u)) ?_ hc]
  · simp
  · intro u hu
    rw [uIcc_of_le h0.le] at hu
    have hne : (1 : ℝ) - u ≠ 0 := by linarith [hu.2]
    have := ((hasDerivAt_id u).neg).sub (((hasDerivAt_id u).const_sub 1).log hne)
    refine this.congr_deriv ?_
    simp only [id]
    field_simp
    ring

private theorem piece3 {b : ℝ} (h0 : 0 < b) (h1 : b < 1) :
    IntervalIntegrable (fun u : ℝ => (1 - u) / u) volume b 1 ∧ ∫ u in b..1, (1 - u) / u = -Real.log b - (1 - b) := by
  have hc : IntervalIntegrable (fun u : ℝ => (1 - u) / u) volume b 1 := by
    apply ContinuousOn.intervalIntegrable
    rw [uIcc_of_le h1.le]
    apply ContinuousOn.div (by fun_prop) (by fun_prop)
    intro u hu
    linarith [hu.1]
  refine ⟨hc, ?_⟩
  rw [intervalIntegral.integral_eq_sub_of_hasDerivAt (f := fun u => Real.log u - u) ?_ hc]
  · simp; ring
  · intro u hu
    rw [uIcc_of_le h1.le] at hu
    have hne : u ≠ 0 := by linarith [hu.1]
    have := ((hasDerivAt_id u).log hne).sub (hasDerivAt_id u)
    refine this.congr_deriv ?_
    simp only [id]
    field_simp

private theorem pair_le {a b : ℝ} (h0 : 0 < a) (hab : a ≤ b) (h1 : b < 1) :
    IntervalIntegrable (adPair a b) volume 0 1 ∧ ∫ u in (0 : ℝ)..1, adPair a b u = -1 - Real.log (1 - a) - Real.log b := by
  obtain ⟨p1, q1⟩ := piece1 h0 (hab.trans_lt h1)
  obtain ⟨p3, q3⟩ := piece3 (h0.trans_le hab) h1
  have e1 : EqOn (fun u : ℝ => u / (1 - u)) (adPair a b) (uIoo 0 a) := by
    intro u hu
    rw [uIoo_of_le h0.le] at hu
    have : u ≠ 0 := hu.1.ne'
    have : 1 - u ≠ 0 := by linarith [hu.2]
    simp only [adPair, adStep, if_neg (not_le.2 hu.2), if_neg (not_le.2 (hu.2.trans_le hab))]
    field_simp
    ring
  have e2 : EqOn (fun _ : ℝ => (-1 : ℝ)) (adPair a b) (uIoo a b) := by
    intro u hu
    rw [uIoo_of_le hab] at hu
    have : u ≠ 0 := by linarith [hu.1]
    have : 1 - u ≠ 0 := by linarith [hu.2]
    simp only [adPair, adStep, if_pos hu.1.le, if_neg (not_le.2 hu.2)]
    field_simp
    ring
  have e3 : EqOn (fun u : ℝ => (1 - u) / u) (adPair a b) (uIoo b 1) := by
    intro u hu
    rw [uIoo_of_le h1.le] at hu
    have : u ≠ 0 := by linarith [hu.1]
    have : 1 - u ≠ 0 := by linarith [hu.2]
    simp only [adPair, adStep, if_pos (hab.trans hu.1.le), if_pos hu.1.le]
    field_simp
  have i1 := p1.congr_uIoo e1
  have i2 : IntervalIntegrable (adPair a b) volume a b := (intervalIntegrable_const (c := (-1 : ℝ))).congr_uIoo e2
  have i3 := p3.congr_uIoo e3
  refine ⟨(i1.trans i2).trans i3, ?_⟩
  rw [← intervalIntegral.integral_add_adjacent_intervals (i1.trans i2) i3, ← intervalIntegral.integral_add_adjacent_intervals i1 i2,
    ← intervalIntegral.integral_congr_uIoo e1, ← intervalIntegral.integral_congr_uIoo e2, ← intervalIntegral.integral_congr_uIoo e3,
    q1, q3, intervalIntegral.integral_const]
  simp only [smul_eq_mul]
  ring

theorem adPair_integral {a b : ℝ} (ha : 0 < a) (ha1 : a < 1) (hb : 0 < b) (hb1 : b < 1) :
    IntervalIntegrable (adPair a b) volume 0 1 ∧
      ∫ u in (0 : ℝ)..1, adPair a b u = -1 - Real.log (1 - min a b) - Real.log (max a b) := by
  rcases le_total a b with h | h
  · rw [min_eq_left h, max_eq_right h]; exact pair_le ha h hb1
  · rw [min_eq_right h, max_eq_left h]
    have : adPair a b = adPair b a := by
      ext u; unfold adPair; ring
    rw [this]; exact pair_le hb h ha1

open Classical in
theorem countP_eq_sum (l : List ℝ) (u : ℝ) :
    ((l.countP fun x => decide (x ≤ u) : ℕ) : ℝ) = ∑ i ∈ Finset.range l.length, adStep (l.getD i 0) u := by
  induction l with
  | nil => simp
  | cons x t ih =>
    rw [List.countP_cons, List.length_cons, Finset.sum_range_succ', Nat.cast_add, ih]
    simp [adStep]

private theorem integrand_eq (l : List ℝ) (hne : l ≠ []) (u : ℝ) : (Spec.empirical l u - u) ^ 2 / (u * (1 - u)) =
    (∑ i ∈ Finset.range l.length, ∑ j ∈ Finset.range l.length, adPair (l.getD i 0) (l.getD j 0) u) * (1 / (l.length : ℝ) ^ 2) := by
  have hn : (l.length : ℝ) ≠ 0 := by
    have := List.length_pos_iff.2 hne
    positivity
  have h1 : Spec.empirical l u - u = (∑ i ∈ Finset.range l.length, (adStep (l.getD i 0) u - u)) / (l.length : ℝ) := by
    unfold Spec.empirical
    rw [countP_eq_sum, Finset.sum_sub_distrib, Finset.sum_const, Finset.card_range, nsmul_eq_mul, sub_div,
      mul_div_cancel_left₀ _ hn]
  simp only [adPair, ← Finset.sum_div]
  rw [h1, ← Finset.sum_mul_sum]
  field_simp

private theorem mem_range {l : List ℝ} (h : ∀ x ∈ l, 0 < x ∧ x < 1) : ∀ i ∈ Finset.range l.length, 0 < l.getD i 0 ∧ l.getD i 0 < 1 := by
  intro i hi
  rw [Finset.mem_range] at hi
  rw [List.getD_eq_getElem _ _ hi]
  exact h _ (List.getElem_mem hi)

private theorem inner_integrable {l : List ℝ} (h : ∀ x ∈ l, 0 < x ∧ x < 1) {i : ℕ} (hi : i ∈ Finset.range l.length) :
    IntervalIntegrable (fun u => ∑ j ∈ Finset.range l.length, adPair (l.getD i 0) (l.getD j 0) u) volume 0 1 := by
  have hmem := mem_range h
  refine IntervalIntegrable.congr (f := ∑ j ∈ Finset.range l.length, adPair (l.getD i 0) (l.getD j 0)) (fun u _ => by simp) ?_
  apply IntervalIntegrable.sum
  exact fun j hj => (adPair_integral (hmem i hi).1 (hmem i hi).2 (hmem j hj).1 (hmem j hj).2).1

theorem andersonDarling_integrable (l : List ℝ) (hne : l ≠ []) (h : ∀ x ∈ l, 0 < x ∧ x < 1) :
    IntervalIntegrable (fun u => (Spec.empirical l u - u) ^ 2 / (u * (1 - u))) volume 0 1 := by
  simp only [integrand_eq l hne]
  apply IntervalIntegrable.mul_const
  refine IntervalIntegrable.congr
    (f := ∑ i ∈ Finset.range l.length, fun u => ∑ j ∈ Finset.range l.length, adPair (l.getD i 0) (l.getD j 0) u)
    (fun u _ => by simp) ?_
  apply IntervalIntegrable.sum
  exact fun i hi => inner_integrable h hi

/-- The Anderson-Darling integral as a double sum. -/
theorem andersonDarling_eq (l : List ℝ) (hne : l ≠ []) (h : ∀ x ∈ l, 0 < x ∧ x < 1) :
    Spec.andersonDarling l = (∑ i ∈ Finset.range l.length, ∑ j ∈ Finset.range l.length,
      (-1 - Real.log (1 - min (l.getD i 0) (l.getD j 0)) - Real.log (max (l.getD i 0) (l.getD j 0)))) / (l.length : ℝ) := by
  have hn : (l.length : ℝ) ≠ 0 := by
    have := List.length_pos_iff.2 hne
    positivity
  have hmem := mem_range h
  unfold Spec.andersonDarling
  simp only [integrand_eq l hne]
  rw [intervalIntegral.integral_mul_const, intervalIntegral.integral_finsetSum]
  · have e2 : ∀ i ∈ Finset.range l.length, ∫ u in (0 : ℝ)..1, ∑ j ∈ Finset.range l.length, adPair (l.getD i 0) (l.getD j 0) u =
        ∑ j ∈ Finset.range l.length,
          (-1 - Real.log (1 - min (l.getD i 0) (l.getD j 0)) - Real.log (max (l.getD i 0) (l.getD j 0))) := by
      intro i hi
      rw [intervalIntegral.integral_finsetSum]
      · exact Finset.sum_congr rfl fun j hj => (adPair_integral (hmem i hi).1 (hmem i hi).2 (hmem j hj).1 (hmem j hj).2).2
      · exact fun j hj => (adPair_integral (hmem i hi).1 (hmem i hi).2 (hmem j hj).1 (hmem j hj).2).1
    rw [Finset.sum_congr rfl e2]
    field_simp
  · intro i hi
    exact inner_integrable h hi

/-- Summing over pairs by the larger index. -/
theorem sum_max (g : ℕ → ℝ) (n : ℕ) :
    ∑ i ∈ Finset.range n, ∑ j ∈ Finset.range n, g (max i j) = ∑ k ∈ Finset.range n, (2 * (k : ℝ) + 1) * g k := by
  induction n with
  | zero => simp
  | succ n ih =>
    rw [Finset.sum_range_succ, Finset.sum_range_succ (fun k => (2 * (k : ℝ) + 1) * g k) n, ← ih]
    have e1 : ∀ i ∈ Finset.range n, ∑ j ∈ Finset.range (n + 1), g (max i j) = ∑ j ∈ Finset.range n, g (max i j) + g n := by
      intro i hi
      rw [Finset.mem_range] at hi
      rw [Finset.sum_range_succ, max_eq_right hi.le]
    have e2 : ∑ j ∈ Finset.range (n + 1), g (max n j) = ((n : ℝ) + 1) * g n := by
      rw [Finset.sum_congr rfl (g := fun _ => g n)]
      · simp
      · intro j hj
        rw [Finset.mem_range] at hj
        rw [max_eq_left (by omega)]
    rw [Finset.sum_congr rfl e1, Finset.sum_add_distrib, e2]
    simp
    ring

/-- Summing over pairs by the smaller index. -/
theorem sum_min (g : ℕ → ℝ) (n : ℕ) :
    ∑ i ∈ Finset.range n, ∑ j ∈ Finset.range n, g (min i j) = ∑ k ∈ Finset.range n, (2 * (k : ℝ) + 1) * g (n - 1 - k) := by
  rw [← sum_max (fun k => g (n - 1 - k)) n, ← Finset.sum_range_reflect]
  apply Finset.sum_congr rfl
  intro i hi
  rw [← Finset.sum_range_reflect]
  apply Finset.sum_congr rfl
  intro j hj
  rw [Finset.mem_range] at hi hj
  congr 1
  omega

end TFR
