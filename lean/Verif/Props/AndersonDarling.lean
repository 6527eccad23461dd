import Verif.Model.Combine
import Verif.Lemmas.AndersonDarling
import Verif.Props.Kolmogorov
import Mathlib.Analysis.Complex.ExponentialBounds
/-
C93: the Anderson-Darling test, core/src/statistics/andersondarling.h and distributions.cpp:154-218.
-/
namespace TFR
open MeasureTheory Set

/-! ### The statistic -/

private theorem fold_sum (f : ℕ → ℝ) (n : ℕ) (a : ℝ) :
    (List.range n).foldl (fun sum i => sum + f i) a = a + ∑ i ∈ Finset.range n, f i := by
  induction n with
  | zero => simp
  | succ n ih => rw [List.range_succ, List.foldl_append, ih, Finset.sum_range_succ]; simp [add_assoc]

private theorem logSafe_eq {x : ℝ} (h : 1 / 10 ^ 16 ≤ x) : logSafe x = Real.log x := by
  unfold logSafe
  simp only [max_eq_right h]

private theorem getD_mono {l : List ℝ} (hs : l.Pairwise (· ≤ ·)) {i j : ℕ} (hij : i ≤ j) (hj : j < l.length) :
    l.getD i 0 ≤ l.getD j 0 := by
  rcases hij.eq_or_lt with rfl | h
  · exact le_rfl
  · rw [List.getD_eq_getElem _ _ (by omega), List.getD_eq_getElem _ _ hj]
    exact List.pairwise_iff_getElem.1 hs i j (by omega) hj h

private theorem statistic_sorted {l : List ℝ} (hne : l ≠ []) (hs : l.Pairwise (· ≤ ·))
    (h : ∀ x ∈ l, 1 / 10 ^ 16 ≤ x ∧ x ≤ 1 - 1 / 10 ^ 16) :
    -(l.length : ℝ) - andersonDarlingSum l / (l.length : ℝ) = Spec.andersonDarling l := by
  have hn : (l.length : ℝ) ≠ 0 := by
    have := List.length_pos_iff.2 hne
    positivity
  have hmem : ∀ i, i < l.length → 1 / 10 ^ 16 ≤ l.getD i 0 ∧ l.getD i 0 ≤ 1 - 1 / 10 ^ 16 := by
    intro i hi
    rw [List.getD_eq_getElem _ _ hi]
    exact h _ (List.getElem_mem hi)
  rw [andersonDarling_eq l hne (fun x hx => ⟨lt_of_lt_of_le (by norm_num) (h x hx).1, lt_of_le_of_lt (h x hx).2 (by norm_num)⟩)]
  have e1 : ∑ i ∈ Finset.range l.length, ∑ j ∈ Finset.range l.length,
      (-1 - Real.log (1 - min (l.getD i 0) (l.getD j 0)) - Real.log (max (l.getD i 0) (l.getD j 0))) =
      ∑ i ∈ Finset.range l.length, ∑ j ∈ Finset.range l.length,
      (-1 - Real.log (1 - l.getD (min i j) 0) - Real.log (l.getD (max i j) 0)) := by
    refine Finset.sum_congr rfl fun i hi => Finset.sum_congr rfl fun j hj => ?_
    rw [Finset.mem_range] at hi hj
    rcases le_total i j with hij | hij
    · rw [min_eq_left hij, max_eq_right hij, min_eq_left (getD_mono hs hij hj), max_eq_right (getD_mono hs hij hj)]
    · rw [min_eq_right hij, max_eq_left hij, min_eq_right (getD_mono hs hij hi), max_eq_left (getD_mono hs hij hi)]
  have e2 := sum_max (fun k => Real.log (l.getD k 0)) l.length
  have e3 := sum_min (fun k => Real.log (1 - l.getD k 0)) l.length
  have e4 : andersonDarlingSum l = ∑ k ∈ Finset.range l.length, (2 * (k : ℝ) + 1) * Real.log (l.getD k 0) +
      ∑ k ∈ Finset.range l.length, (2 * (k : ℝ) + 1) * Real.log (1 - l.getD (l.length - 1 - k) 0) := by
    unfold andersonDarlingSum
    simp only
    rw [fold_sum, zero_add, ← Finset.sum_add_distrib]
    refine Finset.sum_congr rfl fun i hi => ?_
    rw [Finset.mem_range] at hi
    rw [logSafe_eq (hmem i hi).1, logSafe_eq (by linarith [(hmem (l.length - 1 - i) (by omega)).2]), mul_add]
  rw [e1, e4, ← e2, ← e3]
  simp only [Finset.sum_sub_distrib, Finset.sum_const, Finset.card_range, nsmul_eq_mul, smul_eq_mul]
  field_simp
  ring

private theorem empirical_perm {l m : List ℝ} (h : l.Perm m) : Spec.empirical l = Spec.empirical m := by
  ext u
  unfold Spec.empirical
  rw [h.countP_eq, h.length_eq]

private theorem spec_perm {l m : List ℝ} (h : l.Perm m) : Spec.andersonDarling l = Spec.andersonDarling m := by
  unfold Spec.andersonDarling
  rw [empirical_perm h, h.length_eq]

private theorem statistic_eq {data : List ℝ} (hne : data ≠ []) (h : ∀ x ∈ data, 1 / 10 ^ 16 ≤ x ∧ x ≤ 1 - 1 / 10 ^ 16) :
    -((sortReals data).length : ℝ) - andersonDarlingSum (sortReals data) / ((sortReals data).length : ℝ) = Spec.andersonDarling data := by
  have hp := sortReals_perm data
  rw [← spec_perm hp]
  refine statistic_sorted ?_ (sortReals_sorted data) (fun x hx => h x (hp.mem_iff.1 hx))
  intro h0
  rw [h0] at hp
  exact hne (List.nil_perm.1 hp)

/-- Below the smallest value the empirical distribution function is zero, so the integral is positive. -/
private theorem spec_pos {l : List ℝ} (hne : l ≠ []) (h : ∀ x ∈ l, 1 / 10 ^ 16 ≤ x ∧ x ≤ 1 - 1 / 10 ^ 16) :
    0 < Spec.andersonDarling l := by
  have hn : (0 : ℝ) < (l.length : ℝ) := by exact_mod_cast List.length_pos_iff.2 hne
  have hint : IntervalIntegrable (fun u => (Spec.empirical l u - u) ^ 2 / (u * (1 - u))) volume 0 1 :=
    andersonDarling_integrable l hne fun x hx => ⟨lt_of_lt_of_le (by norm_num) (h x hx).1, lt_of_le_of_lt (h x hx).2 (by norm_num)⟩
  unfold Spec.andersonDarling
  apply mul_pos hn
  set ε : ℝ := 1 / 10 ^ 16 with hε
  have hε0 : 0 < ε := by rw [hε]; norm_num
  have hε1 : ε < 1 := by rw [hε]; norm_num
  have i1 := hint.mono_set (c := 0) (d := ε) (by rw [uIcc_of_le hε0.le, uIcc_of_le zero_le_one]; exact Icc_subset_Icc le_rfl hε1.le)
  have i2 := hint.mono_set (c := ε) (d := 1) (by rw [uIcc_of_le hε1.le, uIcc_of_le zero_le_one]; exact Icc_subset_Icc hε0.le le_rfl)
  rw [← intervalIntegral.integral_add_adjacent_intervals i1 i2]
  apply add_pos_of_pos_of_nonneg
  · apply intervalIntegral.intervalIntegral_pos_of_pos_on i1 _ hε0
    intro u hu
    have h0 : Spec.empirical l u = 0 := by
      unfold Spec.empirical
      rw [List.countP_eq_zero.2]
      · simp
      · intro x hx
        have := (h x hx).1
        simp only [decide_eq_true_eq, not_le]
        linarith [hu.2]
    rw [h0]
    have := hu.1
    have : 0 < 1 - u := by linarith [hu.2]
    have : 0 - u ≠ 0 := by linarith
    positivity
  · apply intervalIntegral.integral_nonneg hε1.le
    intro u hu
    have : 0 ≤ u := by linarith [hu.1]
    have : 0 ≤ 1 - u := by linarith [hu.2]
    positivity

/-! ### The p-value -/

private theorem inf_le_one {z : ℝ} (hz : 0 < z) : andersonDarlingInf z ≤ 1 := by
  unfold andersonDarlingInf
  split_ifs with h2
  · have hsq := Real.sqrt_pos.2 hz
    have hss := Real.mul_self_sqrt hz.le
    set r := Real.sqrt z with hr
    clear_value r
    set y : ℝ := 12337141 / 10 ^ 7 / z with hy
    have hyp : 0 < y := by positivity
    have hyz : y * z = 12337141 / 10 ^ 7 := by rw [hy]; field_simp
    -- exp y ≥ 3/2 * sqrt (2 y)
    have h1 : (3 / 2 : ℝ) ≤ Real.exp (1 / 2) := by
      have := Real.add_one_le_exp (1 / 2 : ℝ); linarith
    have h1' : (1.6 : ℝ) ≤ Real.exp (1 / 2) := by
      have h := Real.exp_one_gt_d9
      have hh : Real.exp 1 = Real.exp (1 / 2) * Real.exp (1 / 2) := by rw [← Real.exp_add]; norm_num
      nlinarith [Real.exp_pos (1 / 2 : ℝ)]
    have h3 : y + 1 / 2 ≤ Real.exp (y - 1 / 2) := by
      have := Real.add_one_le_exp (y - 1 / 2); linarith
    have h4 : 1.6 * (y + 1 / 2) ≤ Real.exp y := by
      have : Real.exp y = Real.exp (y - 1 / 2) * Real.exp (1 / 2) := by rw [← Real.exp_add]; ring_nf
      rw [this]
      nlinarith
    have h5 : 2.4 ≤ Real.exp y * r := by
      -- (y + 1/2) * r ≥ sqrt(2 y) r = sqrt (2 c) ≥ 1.57
      have h6 : 1.5 ≤ (y + 1 / 2) * r := by
        have : (1.5 : ℝ) ^ 2 ≤ ((y + 1 / 2) * r) ^ 2 := by
          have : ((y + 1 / 2) * r) ^ 2 = (y + 1 / 2) ^ 2 * z := by rw [mul_pow, sq r, hss]
          rw [this]
          nlinarith [mul_nonneg (sq_nonneg (y - 1 / 2)) hz.le]
        exact (sq_le_sq₀ (by norm_num) (by positivity)).1 this
      nlinarith
    have h7 : Real.exp (-(12337141 / 10 ^ 7) / z) = (Real.exp y)⁻¹ := by rw [← Real.exp_neg, hy, neg_div]
    rw [h7]
    have hpoly : 200012 / 10 ^ 5 + (247105 / 10 ^ 6 - (649821 / 10 ^ 7 - (347962 / 10 ^ 7 - (11672 / 10 ^ 6 - 168691 / 10 ^ 8 * z) * z) * z) * z) * z ≤ 2.4 := by
      nlinarith [mul_pos hz hz, mul_pos hz (mul_pos hz hz), mul_pos hz (sub_pos.2 h2), mul_pos (mul_pos hz hz) (sub_pos.2 h2),
        mul_pos (mul_pos (mul_pos hz hz) hz) (sub_pos.2 h2), mul_pos (mul_pos (mul_pos hz hz) (mul_pos hz hz)) (sub_pos.2 h2)]
    have hep : 0 < Real.exp y * r := by positivity
    rw [show (Real.exp y)⁻¹ / r = 1 / (Real.exp y * r) by field_simp, one_div, inv_mul_le_iff₀ hep, mul_one]
    linarith
  · rw [Real.exp_le_one_iff]
    have := Real.exp_pos (10776 / 10 ^ 4 -
      (230695 / 10 ^ 5 -
        (43424 / 10 ^ 5 - (82433 / 10 ^ 6 - (8056 / 10 ^ 6 - 3146 / 10 ^ 7 * z) * z) * z) * z) * z)
    linarith

private theorem fix_bound {n : ℕ} (hn : 0 < n) {x e : ℝ} (hx : x ≤ 1) (h : andersonDarlingErrFix n x = .ok e) :
    x + e ≤ 1 - 6 / 10 ^ 4 / (n : ℝ) := by
  have hN : (1 : ℝ) ≤ n := by exact_mod_cast hn
  have hN0 : (0 : ℝ) < n := by linarith
  unfold andersonDarlingErrFix at h
  by_cases h8 : x > 8 / 10
  · rw [if_pos h8] at h
    cases h
    rw [← sub_nonneg]
    have : 1 - 6 / 10 ^ 4 / (n : ℝ) - (x + (-(1302137 / 10 ^ 4) + (7452337 / 10 ^ 4 -
        (1705091 / 10 ^ 3 - (1950646 / 10 ^ 3 - (1116360 / 10 ^ 3 - 2557844 / 10 ^ 4 * x) * x) * x) * x) * x) / (n : ℝ)) =
        (1 - x) * (n + (2557844 / 10 ^ 4 * x ^ 4 - 8605756 / 10 ^ 4 * x ^ 3 + 10900704 / 10 ^ 4 * x ^ 2 - 6150206 / 10 ^ 4 * x + 1302131 / 10 ^ 4)) / n := by
      field_simp
      ring
    rw [this]
    have hq : 0 ≤ 1 + (2557844 / 10 ^ 4 * x ^ 4 - 8605756 / 10 ^ 4 * x ^ 3 + 10900704 / 10 ^ 4 * x ^ 2 - 6150206 / 10 ^ 4 * x + 1302131 / 10 ^ 4) := by
      nlinarith [sq_nonneg (x ^ 2 - 1682 / 1000 * x + 71 / 100), sq_nonneg (x - 84 / 100), sq_nonneg (x - 9 / 10), mul_nonneg (sub_nonneg.2 hx) (sub_nonneg.2 h8.le)]
    apply div_nonneg _ hN0.le
    apply mul_nonneg (by linarith)
    linarith
  · rw [if_neg h8] at h
    simp only at h
    push Not at h8
    set c : ℝ := 1265 / 10 ^ 5 + 1757 / 10 ^ 4 / (n : ℝ) with hc
    have hinv : 1 / (n : ℝ) ≤ 1 := by rw [div_le_one hN0]; exact hN
    have hinv0 : 0 < 1 / (n : ℝ) := by positivity
    have hc1 : c ≤ 2 / 10 := by
      rw [hc, show (1757 / 10 ^ 4 / (n : ℝ)) = 1757 / 10 ^ 4 * (1 / (n : ℝ)) by ring]
      linarith
    have hc0 : 0 < c := by positivity
    have hfin : 6 / 10 ^ 4 / (n : ℝ) ≤ 6 / 10 ^ 4 := by
      rw [show (6 / 10 ^ 4 / (n : ℝ)) = 6 / 10 ^ 4 * (1 / (n : ℝ)) by ring]; linarith
    by_cases hxc : x < c
    · rw [if_pos hxc] at h
      by_cases hov : 2 ^ 31 ≤ n * n
      · rw [if_pos hov] at h; cases h
      rw [if_neg hov] at h
      cases h
      have ht : x / c < 1 := (div_lt_one hc0).2 hxc
      have h1 : Real.sqrt (x / c) * (1 - x / c) * (49 * (x / c) - 102) ≤ 0 := by
        apply mul_nonpos_of_nonneg_of_nonpos
        · exact mul_nonneg (Real.sqrt_nonneg _) (by linarith)
        · linarith
      have h2 : Real.sqrt (x / c) * (1 - x / c) * (49 * (x / c) - 102) *
          (37 / 10 ^ 4 / ((n * n : ℕ) : ℝ) + 78 / 10 ^ 5 / (n : ℝ) + 6 / 10 ^ 5) / (n : ℝ) ≤ 0 := by
        apply div_nonpos_of_nonpos_of_nonneg _ hN0.le
        apply mul_nonpos_of_nonpos_of_nonneg h1
        positivity
      have : 6 / 10 ^ 4 / (n : ℝ) ≤ 6 / 10 ^ 4 := hfin
      linarith
    · rw [if_neg hxc] at h
      cases h
      push Not at hxc
      have hd : 0 < 8 / 10 - c := by linarith
      set t := (x - c) / (8 / 10 - c) with ht
      have ht0 : 0 ≤ t := div_nonneg (by linarith) hd.le
      have ht1 : t ≤ 1 := (div_le_one hd).2 (by linarith)
      clear_value t
      have hp : -(22633 / 10 ^ 8) +
          (654034 / 10 ^ 5 - (146538 / 10 ^ 4 - (14458 / 10 ^ 3 - (8259 / 10 ^ 3 - 191864 / 10 ^ 5 * t) * t) * t) * t) * t ≤ 3 := by
        have h5 : t ^ 5 ≤ t ^ 4 := pow_le_pow_of_le_one ht0 ht1 (by norm_num)
        nlinarith [sq_nonneg (t ^ 2 - t / 2), sq_nonneg (t ^ 2 - t), sq_nonneg (t - 1 / 2), mul_nonneg ht0 (sub_nonneg.2 ht1),
          mul_nonneg ht0 (sq_nonneg (t - 1 / 2)), mul_nonneg ht0 (sq_nonneg (1 - t)), mul_nonneg (mul_nonneg ht0 ht0) (sub_nonneg.2 ht1)]
      set P := -(22633 / 10 ^ 8) +
          (654034 / 10 ^ 5 - (146538 / 10 ^ 4 - (14458 / 10 ^ 3 - (8259 / 10 ^ 3 - 191864 / 10 ^ 5 * t) * t) * t) * t) * t with hP
      clear_value P
      have hk : (4213 / 10 ^ 5 + 1365 / 10 ^ 5 / (n : ℝ)) / (n : ℝ) ≤ 558 / 10 ^ 4 := by
        rw [show (4213 / 10 ^ 5 + 1365 / 10 ^ 5 / (n : ℝ)) / (n : ℝ) = (4213 / 10 ^ 5 + 1365 / 10 ^ 5 * (1 / (n : ℝ))) * (1 / (n : ℝ)) by ring]
        nlinarith
      have hk0 : 0 ≤ (4213 / 10 ^ 5 + 1365 / 10 ^ 5 / (n : ℝ)) / (n : ℝ) := by positivity
      rw [mul_div_assoc]
      nlinarith

private theorem cdf_bounds {z : ℝ} (hz : 0 < z) {n : ℕ} (hn : 0 < n) {p : ℝ} (h : andersonDarlingCdf z n = .ok p) :
    6 / 10 ^ 4 / (n : ℝ) ≤ p ∧ p ≤ 1 := by
  unfold andersonDarlingCdf at h
  split_ifs at h
  unfold andersonDarlingPValue at h
  simp only at h
  rcases hf : andersonDarlingErrFix n (andersonDarlingInf z) with e | e
  · rw [hf] at h; cases h
  · rw [hf] at h
    cases h
    have hb := fix_bound hn (inf_le_one hz) hf
    have hN0 : (0 : ℝ) < 6 / 10 ^ 4 / (n : ℝ) := by positivity
    have hN : (1 : ℝ) ≤ n := by exact_mod_cast hn
    have h1 : 6 / 10 ^ 4 / (n : ℝ) ≤ 1 := by
      rw [div_le_one (by linarith)]; norm_num; linarith
    unfold clamp01
    split_ifs <;> constructor <;> linarith

/-- Nothing but the overflow of `n * n` stops the computation of the p-value. -/
private theorem cdf_ok (z : ℝ) {n : ℕ} (hn : n < 2 ^ 31) :
    (∃ p, andersonDarlingCdf z n = .ok p) ∨ (andersonDarlingCdf z n = .error .signedOverflow ∧ 46341 ≤ n) := by
  unfold andersonDarlingCdf andersonDarlingPValue andersonDarlingErrFix
  rw [if_neg (by omega)]
  simp only
  split_ifs with h1 h2 h3
  · exact Or.inl ⟨_, rfl⟩
  · refine Or.inr ⟨rfl, ?_⟩
    by_contra hc
    have : n * n ≤ 46340 * 46340 := Nat.mul_le_mul (by omega) (by omega)
    omega
  · exact Or.inl ⟨_, rfl⟩
  · exact Or.inl ⟨_, rfl⟩

/-! ### C93 -/

/-- C93. For data away from the ends of the unit interval the statistic reported is the Anderson-Darling distance of the data
from the uniform distribution, by its definition as an integral, and it is positive; the p-value lies in `[0.0006 / n, 1]`, the
degrees of freedom are the number of values.  The only other outcome is a signed overflow, and it needs more than 46340
values. -/
theorem C93_statistic (data : List ℝ) (hne : data ≠ []) (h : ∀ x ∈ data, 1 / 10 ^ 16 ≤ x ∧ x ≤ 1 - 1 / 10 ^ 16)
    (hn : data.length < 2 ^ 31) :
    0 < Spec.andersonDarling data ∧
    ((∃ p, andersonDarlingStats data = .ok (some ⟨.andersonDarlingA2, Spec.andersonDarling data, p, (data.length : ℝ)⟩) ∧
        6 / 10 ^ 4 / (data.length : ℝ) ≤ p ∧ p ≤ 1) ∨
      (andersonDarlingStats data = .error .signedOverflow ∧ 46340 < data.length)) := by
  have hlen : (sortReals data).length = data.length := (sortReals_perm data).length_eq
  have hpos : 0 < Spec.andersonDarling data := spec_pos hne h
  refine ⟨hpos, ?_⟩
  have hrun : andersonDarlingStats data = (do
      let p ← andersonDarlingCdf (Spec.andersonDarling data) data.length
      .ok (some ⟨.andersonDarlingA2, Spec.andersonDarling data, p, (data.length : ℝ)⟩)) := by
    unfold andersonDarlingStats
    rw [if_neg hne]
    simp only
    rw [statistic_eq hne h, hlen]
  rw [hrun]
  rcases cdf_ok (Spec.andersonDarling data) hn with ⟨p, hp⟩ | ⟨hp, h2⟩
  · refine Or.inl ⟨p, ?_, cdf_bounds hpos (List.length_pos_iff.2 hne) hp⟩
    rw [hp]; rfl
  · refine Or.inr ⟨?_, by omega⟩
    rw [hp]; rfl

/-- C93. The order of the data does not matter, and empty data has no result. -/
theorem C93_order (data data' : List ℝ) (h : data.Perm data') :
    andersonDarlingStats data = andersonDarlingStats data' ∧ andersonDarlingStats [] = .ok none := by
  refine ⟨?_, rfl⟩
  have hs : sortReals data = sortReals data' :=
    List.Perm.eq_of_pairwise (le := (· ≤ ·)) (fun a b _ _ h1 h2 => le_antisymm h1 h2) (sortReals_sorted data) (sortReals_sorted data')
      (((sortReals_perm data).trans h).trans (sortReals_perm data').symm)
  unfold andersonDarlingStats
  rw [hs]
  by_cases h0 : data = []
  · subst h0
    rw [List.nil_perm] at h
    rw [h]
  · have h1 : data' ≠ [] := fun e => h0 (by rw [e] at h; exact List.perm_nil.1 h)
    rw [if_neg h0, if_neg h1]

/-- C93. The p-value is always a probability, whatever the data (values outside the unit interval included). -/
theorem C93_range (data : List ℝ) (st : Statistic ℝ) (h : andersonDarlingStats data = .ok (some st)) :
    0 ≤ st.pValue ∧ st.pValue ≤ 1 := by
  unfold andersonDarlingStats at h
  by_cases h0 : data = []
  · rw [if_pos h0] at h; cases h
  rw [if_neg h0] at h
  simp only at h
  set z := -((sortReals data).length : ℝ) - andersonDarlingSum (sortReals data) / ((sortReals data).length : ℝ)
  rcases hc : andersonDarlingCdf z (sortReals data).length with e | p
  · rw [hc] at h; cases h
  · rw [hc] at h
    cases h
    unfold andersonDarlingCdf at hc
    split_ifs at hc
    rcases hp : andersonDarlingPValue (sortReals data).length z with e | q
    · rw [hp] at hc; cases hc
    · rw [hp] at hc
      cases hc
      have := clamp01_mem q
      constructor <;> simp only <;> linarith

/-- C93. With more than 46340 values the p-value of a good fit (a statistic of at most 0.1) is a signed overflow. -/
theorem C93_overflow (A2 : ℝ) (n : ℕ) (h0 : 0 < A2) (h1 : A2 ≤ 1 / 10) (hn : 46340 < n) (hn2 : n < 2 ^ 31) :
    andersonDarlingCdf A2 n = .error .signedOverflow := by
  have hx : andersonDarlingInf A2 < 1265 / 10 ^ 5 := by
    unfold andersonDarlingInf
    rw [if_pos (by linarith)]
    have hsq := Real.sqrt_pos.2 h0
    have hss := Real.mul_self_sqrt h0.le
    set r := Real.sqrt A2 with hr
    clear_value r
    set y : ℝ := 12337141 / 10 ^ 7 / A2 with hy
    have hyz : y * A2 = 12337141 / 10 ^ 7 := by rw [hy]; field_simp
    have hy12 : 12 ≤ y := by
      rw [hy, le_div_iff₀ h0]; linarith
    have h7 : Real.exp (-(12337141 / 10 ^ 7) / A2) = (Real.exp y)⁻¹ := by rw [← Real.exp_neg, hy, neg_div]
    rw [h7]
    have he2 : 2 ^ 12 ≤ Real.exp 12 := by
      have : Real.exp 12 = Real.exp 1 ^ 12 := by rw [← Real.exp_nat_mul]; norm_num
      rw [this]
      have := Real.exp_one_gt_d9
      exact pow_le_pow_left₀ (by norm_num) (by linarith) 12
    have he3 : Real.exp 12 * (y - 11) ≤ Real.exp y := by
      have h1 : Real.exp y = Real.exp 12 * Real.exp (y - 12) := by rw [← Real.exp_add]; ring_nf
      have h2 := Real.add_one_le_exp (y - 12)
      rw [h1]
      exact mul_le_mul_of_nonneg_left (by linarith) (Real.exp_pos _).le
    have hbig : 341 * y ≤ Real.exp y := by nlinarith
    have hb : 400 ≤ Real.exp y * r := by
      -- y * r = c / r
      have h3 : 12337141 / 10 ^ 7 = y * r * r := by rw [mul_assoc, hss, hyz]
      have hr1 : r ≤ 1 / 3 := by nlinarith
      have : 3.6 ≤ y * r := by nlinarith
      nlinarith
    have hpoly : 200012 / 10 ^ 5 + (247105 / 10 ^ 6 - (649821 / 10 ^ 7 - (347962 / 10 ^ 7 - (11672 / 10 ^ 6 - 168691 / 10 ^ 8 * A2) * A2) * A2) * A2) * A2 ≤ 2.4 := by
      nlinarith [mul_pos h0 h0, mul_pos h0 (mul_pos h0 h0), mul_nonneg h0.le (sub_nonneg.2 h1), mul_nonneg (mul_pos h0 h0).le (sub_nonneg.2 h1),
        mul_nonneg (mul_pos (mul_pos h0 h0) h0).le (sub_nonneg.2 h1), mul_nonneg (mul_pos (mul_pos h0 h0) (mul_pos h0 h0)).le (sub_nonneg.2 h1)]
    have hep : 0 < Real.exp y * r := by positivity
    rw [show (Real.exp y)⁻¹ / r = 1 / (Real.exp y * r) by field_simp, one_div, inv_mul_lt_iff₀ hep]
    nlinarith
  unfold andersonDarlingCdf andersonDarlingPValue andersonDarlingErrFix
  have hn1 : 46341 * 46341 ≤ n * n := Nat.mul_le_mul (by omega) (by omega)
  have hpos : (0 : ℝ) < 1757 / 10 ^ 4 / (n : ℝ) := by positivity
  rw [if_neg (by omega)]
  simp only
  rw [if_neg (by linarith), if_pos (by linarith), if_pos (by omega)]
  rfl

example : ∃ p, andersonDarlingStats [1 / 10, 9 / 10, 1 / 2] =
    .ok (some ⟨.andersonDarlingA2, Spec.andersonDarling [1 / 10, 9 / 10, 1 / 2], p, ((3 : ℕ) : ℝ)⟩) ∧
      6 / 10 ^ 4 / ((3 : ℕ) : ℝ) ≤ p ∧ p ≤ 1 := by
  rcases (C93_statistic [1 / 10, 9 / 10, 1 / 2] (by simp)
    (by intro x hx; simp at hx; rcases hx with rfl | rfl | rfl <;> norm_num) (by norm_num)).2 with h | h
  · exact h
  · exact absurd h.2 (by decide)

end TFR
