import Verif.Model.Combine
import Verif.Props.Gamma
import Verif.Spec.UniformCube
/-
C92: Fisher's method, core/src/statistics/fishersmethod.h.
-/
namespace TFR
open MeasureTheory ProbabilityTheory Set

private theorem fold_logSafe (l : List ℝ) (a : ℝ) :
    l.foldl (fun sum p => sum + logSafe p) a = a + (l.map logSafe).sum := by
  induction l generalizing a with
  | nil => simp
  | cons x t ih => rw [List.foldl_cons, ih, List.map_cons, List.sum_cons]; ring

private theorem sum_logSafe (l : List ℝ) :
    (l.map logSafe).sum = Real.log ((l.map fun p => max p (1 / 10 ^ 16)).prod) ∧
      0 < (l.map fun p : ℝ => max p (1 / 10 ^ 16)).prod := by
  induction l with
  | nil => simp
  | cons x t ih =>
    have h : (0 : ℝ) < max x (1 / 10 ^ 16) := lt_of_lt_of_le (by norm_num) (le_max_right _ _)
    refine ⟨?_, ?_⟩
    · rw [List.map_cons, List.sum_cons, List.map_cons, List.prod_cons, Real.log_mul h.ne' ih.2.ne', ih.1]
      unfold logSafe
      simp only [max_comm]
    · rw [List.map_cons, List.prod_cons]; exact mul_pos h ih.2

private theorem prod_le_one (l : List ℝ) (h : ∀ p ∈ l, p ≤ 1) : (l.map fun p : ℝ => max p (1 / 10 ^ 16)).prod ≤ 1 := by
  induction l with
  | nil => simp
  | cons x t ih =>
    rw [List.map_cons, List.prod_cons]
    have h1 : max x (1 / 10 ^ 16) ≤ 1 := max_le (h x (by simp)) (by norm_num)
    have h0 : (0 : ℝ) < max x (1 / 10 ^ 16) := lt_of_lt_of_le (by norm_num) (le_max_right _ _)
    have := ih fun p hp => h p (by simp [hp])
    have h2 := (sum_logSafe t).2
    nlinarith

private theorem combined_eq (ps : List ℝ) :
    fishersCombined ps =
      chi2DistributionCdf (-2 * Real.log ((ps.map fun p => max p (1 / 10 ^ 16)).prod)) ((2 * ps.length : ℕ) : ℝ) := by
  unfold fishersCombined
  simp only
  rw [fold_logSafe, zero_add, (sum_logSafe ps).1]
  push_cast
  rfl

private theorem ae_pos (n : ℕ) : ∀ᵐ u ∂(Spec.uniformCube n), ∀ i, 0 < u i := by
  rw [ae_all_iff]
  intro i
  have h1 : ∀ᵐ x ∂(volume.restrict (Icc (0 : ℝ) 1)), 0 < x := by
    have h2 : ∀ᵐ x ∂(volume.restrict (Icc (0 : ℝ) 1)), x ≠ 0 := ae_restrict_of_ae (by simp [ae_iff])
    have h3 : ∀ᵐ x ∂(volume.restrict (Icc (0 : ℝ) 1)), x ∈ Icc (0 : ℝ) 1 := ae_restrict_mem measurableSet_Icc
    filter_upwards [h2, h3] with x hx hx2
    exact lt_of_le_of_ne hx2.1 (Ne.symm hx)
  exact (Measure.tendsto_eval_ae_ae (μ := fun _ : Fin n => volume.restrict (Icc (0 : ℝ) 1)) (i := i)).eventually h1

/-- The chi-square tail at minus twice a logarithm is the probability of a smaller product. -/
private theorem law_eq (n : ℕ) (hn : 0 < n) (x : ℝ) (hx : 0 < x) :
    (Spec.chiSquareLaw ((2 * n : ℕ) : ℝ)).real (Ioi (-2 * Real.log x)) = (Spec.uniformCube n).real {u | ∏ i, u i < x} := by
  rw [← map_log_uniform n hn, map_measureReal_apply (by fun_prop) measurableSet_Ioi]
  apply measureReal_congr
  filter_upwards [ae_pos n] with u hu
  have hp : 0 < ∏ i, u i := Finset.prod_pos fun i _ => hu i
  apply propext
  show u ∈ (fun u : Fin n → ℝ => ∑ i, -2 * Real.log (u i)) ⁻¹' Ioi (-2 * Real.log x) ↔ ∏ i, u i < x
  rw [mem_preimage, mem_Ioi, ← Finset.mul_sum, ← Real.log_prod (fun i _ => (hu i).ne'), ← Real.log_lt_log_iff hp hx]
  constructor <;> intro h <;> linarith

/-- C92. Fisher's method: the combined p-value of any non-empty list of (fewer than 550000) p-values is, up to `2e-10`, the
probability that independent uniform p-values have a smaller product than the given ones, where a p-value below `1e-16` counts
as `1e-16`. -/
theorem C92_combined (ps : List ℝ) (hne : ps ≠ []) (hlen : ps.length < 550000) (h1 : ∀ p ∈ ps, p ≤ 1) :
    |fishersCombined ps - (Spec.uniformCube ps.length).real {u | ∏ i, u i < (ps.map fun p => max p (1 / 10 ^ 16)).prod}| ≤
      2 / 10 ^ 10 := by
  have hn : 0 < ps.length := List.length_pos_iff.2 hne
  have hpos := (sum_logSafe ps).2
  have hle := prod_le_one ps h1
  rw [← law_eq _ hn _ hpos, combined_eq]
  refine (C90_p_value _ _ ?_ ?_ ?_).2.2.2
  · have := Real.log_nonpos hpos.le hle
    linarith
  · have : (1 : ℝ) ≤ ps.length := by exact_mod_cast hn
    push_cast; linarith
  · have : (ps.length : ℝ) < 550000 := by exact_mod_cast hlen
    push_cast; linarith

/-- C92. The combined p-value lies in `(0, 1]`, and is 1 when every p-value is 1. -/
theorem C92_range (ps : List ℝ) (hne : ps ≠ []) (hlen : ps.length < 550000) (h1 : ∀ p ∈ ps, p ≤ 1) :
    0 < fishersCombined ps ∧ fishersCombined ps ≤ 1 ∧ ((∀ p ∈ ps, p = 1) → fishersCombined ps = 1) := by
  have hn : (1 : ℝ) ≤ ps.length := by exact_mod_cast List.length_pos_iff.2 hne
  have hl : (ps.length : ℝ) < 550000 := by exact_mod_cast hlen
  have hlog := Real.log_nonpos (sum_logSafe ps).2.le (prod_le_one ps h1)
  have hp := C90_p_value (-2 * Real.log ((ps.map fun p => max p (1 / 10 ^ 16)).prod)) ((2 * ps.length : ℕ) : ℝ) (by linarith)
    (by push_cast; linarith) (by push_cast; linarith)
  rw [combined_eq]
  refine ⟨hp.1, hp.2.1, fun h => ?_⟩
  have e : (ps.map fun p : ℝ => max p (1 / 10 ^ 16)) = List.replicate ps.length 1 := by
    rw [List.eq_replicate_iff]
    refine ⟨by simp, ?_⟩
    intro b hb
    rw [List.mem_map] at hb
    obtain ⟨p, hp, rfl⟩ := hb
    rw [h p hp]
    norm_num
  rw [e]
  simp only [List.prod_replicate, one_pow, Real.log_one, mul_zero]
  exact hp.2.2.1

/-- C92. The order of the p-values does not matter. -/
theorem C92_order (ps qs : List ℝ) (h : ps.Perm qs) : fishersCombined ps = fishersCombined qs := by
  rw [combined_eq, combined_eq, (h.map _).prod_eq, h.length_eq]

/-- C92. One p-value is returned unchanged, up to `2e-10`. -/
theorem C92_single (p : ℝ) (h0 : 1 / 10 ^ 16 ≤ p) (h1 : p ≤ 1) : |fishersCombined [p] - p| ≤ 2 / 10 ^ 10 := by
  have h := C92_combined [p] (by simp) (by simp) (by simpa using h1)
  have e : (Spec.uniformCube 1).real {u | ∏ i, u i < ([p].map fun p => max p (1 / 10 ^ 16)).prod} = p := by
    have hp : 0 ≤ p := le_trans (by norm_num) h0
    have hset : {u : Fin 1 → ℝ | ∏ i, u i < ([p].map fun p => max p (1 / 10 ^ 16)).prod} = Set.pi Set.univ fun _ => Iio p := by
      ext u
      simp only [List.map_cons, List.map_nil, List.prod_singleton, max_eq_left h0]
      simp
    rw [hset, Spec.uniformCube, measureReal_def, Measure.pi_pi, Fin.prod_univ_one, Measure.restrict_apply measurableSet_Iio]
    have : Iio p ∩ Icc 0 1 = Ico 0 p := by
      ext x
      simp only [mem_inter_iff, mem_Iio, mem_Icc, mem_Ico]
      constructor
      · rintro ⟨a, b, -⟩; exact ⟨b, a⟩
      · rintro ⟨a, b⟩; exact ⟨b, a, by linarith⟩
    rw [this, Real.volume_Ico, sub_zero, ENNReal.toReal_ofReal hp]
  have h' : |fishersCombined [p] - (Spec.uniformCube 1).real {u | ∏ i, u i < ([p].map fun p => max p (1 / 10 ^ 16)).prod}| ≤
      2 / 10 ^ 10 := h
  rwa [e] at h'

/-- C92. Combining no p-values gives 0: a certain rejection without any evidence. -/
theorem C92_none : fishersCombined [] = 0 := by
  rw [combined_eq]
  unfold chi2DistributionCdf
  rw [if_pos]
  simp [isNearR]

example : |fishersCombined [1 / 100, 3 / 10, 1 / 10 ^ 20] -
    (Spec.uniformCube 3).real {u | ∏ i, u i < ([1 / 100, 3 / 10, 1 / 10 ^ 20].map fun p => max p (1 / 10 ^ 16)).prod}| ≤ 2 / 10 ^ 10 :=
  C92_combined [1 / 100, 3 / 10, 1 / 10 ^ 20] (by simp) (by simp) (by intro p hp; simp at hp; rcases hp with rfl | rfl | rfl <;> norm_num)

end TFR
