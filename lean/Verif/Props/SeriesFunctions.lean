import Verif.Model.SpecialFunctions
import Verif.Props.MetaTest
import Mathlib.NumberTheory.Harmonic.EulerMascheroni
import Mathlib.Analysis.Complex.ExponentialBounds
/-
C115: the asymptotic harmonic numbers and the second implementation of Kolmogorov's law.
-/
namespace TFR
open Real Finset

namespace Harmonic

/-- Three bounds of `log (1 + y)` with the Euler–Maclaurin terms. -/
theorem mono_of_deriv {f f' : ℝ → ℝ} (hf : ∀ y, 0 ≤ y → HasDerivAt f (f' y) y) (h0 : f 0 = 0) (hp : ∀ y, 0 ≤ y → 0 ≤ f' y) (y : ℝ)
    (hy : 0 ≤ y) : 0 ≤ f y := by
  have hm : MonotoneOn f (Set.Ici 0) := by
    apply monotoneOn_of_deriv_nonneg (convex_Ici 0)
    · exact fun z hz => (hf z hz).continuousAt.continuousWithinAt
    · exact fun z hz => (hf z (interior_subset hz)).differentiableAt.differentiableWithinAt
    · intro z hz
      rw [(hf z (interior_subset hz)).deriv]
      exact hp z (interior_subset hz)
  have := hm (Set.mem_Ici.2 le_rfl) (Set.mem_Ici.2 hy) hy
  rwa [h0] at this

theorem d1 (y : ℝ) (hy : 0 ≤ y) : HasDerivAt (fun y : ℝ => 1 / 2 * (y + y / (1 + y)) - log (1 + y)) (y ^ 2 / (2 * (1 + y) ^ 2)) y := by
  have h1 : (1 : ℝ) + y ≠ 0 := by linarith
  have hi : HasDerivAt (fun y : ℝ => 1 + y) 1 y := by simpa using (hasDerivAt_id y).const_add 1
  have := (((hasDerivAt_id y).add ((hasDerivAt_id y).div hi h1)).const_mul (1 / 2)).sub (hi.log h1)
  refine this.congr_deriv ?_
  simp only [id]
  field_simp
  ring

theorem d2 (y : ℝ) (hy : 0 ≤ y) : HasDerivAt (fun y : ℝ => y ^ 2 - y ^ 2 / (1 + y) ^ 2) (2 * y - 2 * y / (1 + y) ^ 3) y := by
  have h1 : (1 : ℝ) + y ≠ 0 := by linarith
  have hi : HasDerivAt (fun y : ℝ => 1 + y) 1 y := by simpa using (hasDerivAt_id y).const_add 1
  have := ((hasDerivAt_id y).pow 2).sub (((hasDerivAt_id y).pow 2).div (hi.pow 2) (pow_ne_zero 2 h1))
  refine this.congr_deriv ?_
  simp only [id, Pi.pow_apply]
  field_simp
  ring

theorem d4 (y : ℝ) (hy : 0 ≤ y) : HasDerivAt (fun y : ℝ => y ^ 4 - y ^ 4 / (1 + y) ^ 4) (4 * y ^ 3 - 4 * y ^ 3 / (1 + y) ^ 5) y := by
  have h1 : (1 : ℝ) + y ≠ 0 := by linarith
  have hi : HasDerivAt (fun y : ℝ => 1 + y) 1 y := by simpa using (hasDerivAt_id y).const_add 1
  have := ((hasDerivAt_id y).pow 4).sub (((hasDerivAt_id y).pow 4).div (hi.pow 4) (pow_ne_zero 4 h1))
  refine this.congr_deriv ?_
  simp only [id, Pi.pow_apply]
  field_simp
  ring

theorem log1 (y : ℝ) (hy : 0 ≤ y) : log (1 + y) ≤ 1 / 2 * (y + y / (1 + y)) := by
  have := mono_of_deriv d1 (by simp) (fun y hy => by positivity) y hy
  linarith

theorem log2 (y : ℝ) (hy : 0 ≤ y) : 1 / 2 * (y + y / (1 + y)) - 1 / 12 * (y ^ 2 - y ^ 2 / (1 + y) ^ 2) ≤ log (1 + y) := by
  have := mono_of_deriv (f := fun y => 1 / 12 * (y ^ 2 - y ^ 2 / (1 + y) ^ 2) - (1 / 2 * (y + y / (1 + y)) - log (1 + y)))
    (fun y hy => ((d2 y hy).const_mul (1 / 12)).sub (d1 y hy)) (by simp) (fun y hy => by
      have h1 : (0 : ℝ) < 1 + y := by linarith
      have : 1 / 12 * (2 * y - 2 * y / (1 + y) ^ 3) - y ^ 2 / (2 * (1 + y) ^ 2) = y ^ 4 / (6 * (1 + y) ^ 3) := by
        field_simp
        ring
      rw [this]
      positivity) y hy
  linarith

theorem log3 (y : ℝ) (hy : 0 ≤ y) : log (1 + y) ≤
    1 / 2 * (y + y / (1 + y)) - 1 / 12 * (y ^ 2 - y ^ 2 / (1 + y) ^ 2) + 1 / 120 * (y ^ 4 - y ^ 4 / (1 + y) ^ 4) := by
  have := mono_of_deriv (f := fun y => 1 / 120 * (y ^ 4 - y ^ 4 / (1 + y) ^ 4) -
      (1 / 12 * (y ^ 2 - y ^ 2 / (1 + y) ^ 2) - (1 / 2 * (y + y / (1 + y)) - log (1 + y))))
    (fun y hy => ((d4 y hy).const_mul (1 / 120)).sub (((d2 y hy).const_mul (1 / 12)).sub (d1 y hy))) (by simp) (fun y hy => by
      have h1 : (0 : ℝ) < 1 + y := by linarith
      have : 1 / 120 * (4 * y ^ 3 - 4 * y ^ 3 / (1 + y) ^ 5) - (1 / 12 * (2 * y - 2 * y / (1 + y) ^ 3) - y ^ 2 / (2 * (1 + y) ^ 2)) =
          y ^ 3 * (5 * y ^ 3 + 5 * y ^ 4 + y ^ 5) / (30 * (1 + y) ^ 5) := by
        field_simp
        ring
      rw [this]
      positivity) y hy
  linarith

/-- `H_n - log n`. -/
noncomputable def base (n : ℕ) : ℝ := (harmonic n : ℝ) - log n

theorem base_succ (n : ℕ) (hn : 0 < n) : base (n + 1) = base n + 1 / ((n : ℝ) + 1) - log (1 + 1 / n) := by
  have hnR : (0 : ℝ) < n := by exact_mod_cast hn
  unfold base
  rw [harmonic_succ, show (1 + 1 / (n : ℝ)) = ((n : ℝ) + 1) / n by field_simp, log_div (by positivity) hnR.ne']
  push_cast
  rw [one_div]
  ring

theorem base_tendsto : Filter.Tendsto base Filter.atTop (nhds eulerMascheroniConstant) := by
  refine tendsto_eulerMascheroniSeq'.congr' ?_
  filter_upwards [Filter.eventually_gt_atTop 0] with n hn
  unfold eulerMascheroniSeq' base
  rw [if_neg (by omega)]

/-- A sequence that increases from `n` on and tends to `L`. -/
theorem le_of_mono {u : ℕ → ℝ} {L : ℝ} (hu : ∀ n, 0 < n → u n ≤ u (n + 1)) (ht : Filter.Tendsto u Filter.atTop (nhds L)) (n : ℕ)
    (hn : 0 < n) : u n ≤ L := by
  have hm : ∀ k, u n ≤ u (n + k) := by
    intro k
    induction k with
    | zero => rfl
    | succ k ih => exact ih.trans (hu (n + k) (by omega))
  refine ge_of_tendsto ht ?_
  filter_upwards [Filter.eventually_ge_atTop n] with m hm'
  have := hm (m - n)
  rwa [Nat.add_sub_cancel' hm'] at this

theorem inv_tendsto (e : ℕ) (he : 0 < e) (c : ℝ) : Filter.Tendsto (fun n : ℕ => c * (1 / (n : ℝ)) ^ e) Filter.atTop (nhds 0) := by
  have h := (tendsto_one_div_atTop_nhds_zero_nat (𝕜 := ℝ)).pow e
  rw [zero_pow (by omega)] at h
  simpa using h.const_mul c

theorem y_succ (n : ℕ) (hn : 0 < n) (e : ℕ) : (1 / (n : ℝ)) ^ e / (1 + 1 / (n : ℝ)) ^ e = (1 / ((n + 1 : ℕ) : ℝ)) ^ e := by
  have hnR : (0 : ℝ) < n := by exact_mod_cast hn
  rw [← div_pow]
  congr 1
  push_cast
  field_simp

theorem y_succ1 (n : ℕ) (hn : 0 < n) : (1 / (n : ℝ)) / (1 + 1 / (n : ℝ)) = (1 / ((n + 1 : ℕ) : ℝ)) := by
  have := y_succ n hn 1
  simpa using this

/-- `H_n = log n + γ + 1/(2n) - 1/(12n²) + 1/(120n⁴) - …`. -/
theorem gamma_bounds (n : ℕ) (hn : 0 < n) :
    base n - 1 / 2 * (1 / n) ≤ eulerMascheroniConstant ∧
    eulerMascheroniConstant ≤ base n - 1 / 2 * (1 / n) + 1 / 12 * (1 / n) ^ 2 ∧
    base n - 1 / 2 * (1 / n) + 1 / 12 * (1 / n) ^ 2 - 1 / 120 * (1 / n) ^ 4 ≤ eulerMascheroniConstant := by
  have t1 := inv_tendsto 1 one_pos (1 / 2)
  have t2 := inv_tendsto 2 two_pos (1 / 12)
  have t4 := inv_tendsto 4 (by norm_num) (1 / 120)
  simp only [pow_one] at t1
  have T1 := base_tendsto.sub t1
  have T2 := T1.add t2
  have T3 := T2.sub t4
  simp only [sub_zero, add_zero] at T1 T2 T3
  have e : ∀ n : ℕ, 1 / ((n : ℝ) + 1) = 1 / ((n + 1 : ℕ) : ℝ) := fun n => by push_cast; rfl
  refine ⟨le_of_mono (u := fun n => base n - 1 / 2 * (1 / n)) ?_ T1 n hn, ?_,
    le_of_mono (u := fun n => base n - 1 / 2 * (1 / n) + 1 / 12 * (1 / n) ^ 2 - 1 / 120 * (1 / n) ^ 4) ?_ T3 n hn⟩
  · intro n hn
    have := log1 (1 / n) (by positivity)
    rw [base_succ n hn, e]
    rw [y_succ1 n hn] at this
    linarith
  · have h := le_of_mono (u := fun n => -(base n - 1 / 2 * (1 / n) + 1 / 12 * (1 / n) ^ 2)) (fun n hn => ?_) T2.neg n hn
    · linarith
    · have := log2 (1 / n) (by positivity)
      rw [base_succ n hn, e]
      rw [y_succ1 n hn, y_succ n hn] at this
      linarith
  · intro n hn
    have := log3 (1 / n) (by positivity)
    rw [base_succ n hn, e]
    rw [y_succ1 n hn, y_succ n hn, y_succ n hn] at this
    linarith

theorem harmonicQ_eq (n : ℕ) : harmonicQ n = harmonic n := by
  unfold harmonicQ harmonic
  have : ∀ a : ℚ, (List.range n).foldl (fun h i => h + 1 / ((i + 1 : ℕ) : ℚ)) a = a + ∑ i ∈ range n, (((i + 1 : ℕ) : ℚ))⁻¹ := by
    intro a
    induction n with
    | zero => simp
    | succ n ih => rw [List.range_succ, List.foldl_append, ih, sum_range_succ]; simp [add_assoc]
  rw [this, zero_add]

/-- The constant of the code. -/
theorem eulerGamma_close : |eulerGamma - eulerMascheroniConstant| ≤ 2 / 10 ^ 9 := by
  obtain ⟨_, h2, h3⟩ := gamma_bounds 64 (by norm_num)
  have hH : ((harmonic 64 : ℚ) : ℝ) = ((harmonicQ 64 : ℚ) : ℝ) := by rw [harmonicQ_eq]
  have hl : log ((64 : ℕ) : ℝ) = 6 * log 2 := by
    rw [show ((64 : ℕ) : ℝ) = 2 ^ 6 by norm_num, log_pow]
    norm_num
  unfold base at h2 h3
  rw [hH, hl] at h2 h3
  have hq : harmonicQ 64 ≤ 4743890903706 / 10 ^ 12 ∧ 4743890903705 / 10 ^ 12 ≤ harmonicQ 64 := by decide +kernel
  have hq1 : ((harmonicQ 64 : ℚ) : ℝ) ≤ 4743890903706 / 10 ^ 12 := by
    have := (Rat.cast_le (K := ℝ)).2 hq.1
    push_cast at this
    exact this
  have hq2 : 4743890903705 / 10 ^ 12 ≤ ((harmonicQ 64 : ℚ) : ℝ) := by
    have := (Rat.cast_le (K := ℝ)).2 hq.2
    push_cast at this
    exact this
  have hlog := abs_le.1 log_two_near_10
  unfold eulerGamma
  rw [abs_le]
  norm_num at h2 h3 hq1 hq2 hlog ⊢
  constructor <;> linarith [hlog.1, hlog.2]

end Harmonic
open Harmonic

/-- The harmonic number `1 + 1/2 + … + 1/n`. -/
noncomputable def Spec.harmonicNumber (n : ℕ) : ℝ := ∑ i ∈ range n, 1 / ((i : ℝ) + 1)

theorem Harmonic.spec_eq (n : ℕ) : Spec.harmonicNumber n = (harmonic n : ℝ) := by
  unfold Spec.harmonicNumber harmonic
  push_cast
  simp only [one_div]

/-- C115. `harmonic` is the harmonic number; `harmonic_asymptotic` is above it by at most `1/(12n²)`, up to `2e-9` from the constant;
`expected_draws_per_coupon` is `d H_d` to 10⁻⁴ (and a relative `2e-9`) for every number of coupons. -/
theorem C115_harmonic (n : ℕ) (hn : 0 < n) :
    ((harmonicQ n : ℚ) : ℝ) = Spec.harmonicNumber n ∧
    -(2 / 10 ^ 9) ≤ harmonicAsymptotic n - Spec.harmonicNumber n ∧
    harmonicAsymptotic n - Spec.harmonicNumber n ≤ 1 / (12 * (n : ℝ) ^ 2) + 2 / 10 ^ 9 ∧
    |expectedDrawsPerCoupon n - n * Spec.harmonicNumber n| ≤ 1 / 10 ^ 4 + n * (2 / 10 ^ 9) := by
  have hnR : (0 : ℝ) < n := by exact_mod_cast hn
  have h1 : ((harmonicQ n : ℚ) : ℝ) = Spec.harmonicNumber n := by rw [harmonicQ_eq, spec_eq]
  obtain ⟨g1, g2, _⟩ := gamma_bounds n hn
  have hc := abs_le.1 eulerGamma_close
  have e1 : (1 : ℝ) / (2 * n) = 1 / 2 * (1 / n) := by field_simp
  have e2 : (1 : ℝ) / (12 * (n : ℝ) ^ 2) = 1 / 12 * (1 / n) ^ 2 := by field_simp
  have hd : harmonicAsymptotic n - Spec.harmonicNumber n = eulerGamma - (base n - 1 / 2 * (1 / n)) := by
    unfold harmonicAsymptotic base
    rw [spec_eq, e1]
    ring
  have hlo : -(2 / 10 ^ 9) ≤ harmonicAsymptotic n - Spec.harmonicNumber n := by rw [hd]; linarith [hc.1]
  have hup : harmonicAsymptotic n - Spec.harmonicNumber n ≤ 1 / (12 * (n : ℝ) ^ 2) + 2 / 10 ^ 9 := by rw [hd, e2]; linarith [hc.2]
  refine ⟨h1, hlo, hup, ?_⟩
  unfold expectedDrawsPerCoupon
  by_cases hw : n < 1024
  · rw [if_pos hw, h1, sub_self, abs_zero]
    positivity
  · rw [if_neg hw, ← mul_sub, abs_mul, abs_of_pos hnR]
    have hw' : (1024 : ℝ) ≤ n := by exact_mod_cast not_lt.1 hw
    have h3 : |harmonicAsymptotic n - Spec.harmonicNumber n| ≤ 1 / (12 * (n : ℝ) ^ 2) + 2 / 10 ^ 9 := by
      rw [abs_le]
      refine ⟨?_, hup⟩
      have : (0 : ℝ) ≤ 1 / (12 * (n : ℝ) ^ 2) := by positivity
      linarith
    calc (n : ℝ) * |harmonicAsymptotic n - Spec.harmonicNumber n| ≤ n * (1 / (12 * (n : ℝ) ^ 2) + 2 / 10 ^ 9) := by gcongr
      _ = 1 / (12 * n) + n * (2 / 10 ^ 9) := by field_simp
      _ ≤ 1 / 10 ^ 4 + n * (2 / 10 ^ 9) := by
        have : (1 : ℝ) / (12 * n) ≤ 1 / 10 ^ 4 := by
          apply one_div_le_one_div_of_le (by norm_num)
          linarith
        linarith

example : |expectedDrawsPerCoupon 2000 - 2000 * Spec.harmonicNumber 2000| ≤ 2 / 10 ^ 4 := by
  have := (C115_harmonic 2000 (by norm_num)).2.2.2
  push_cast at this
  exact this.trans (by norm_num)

/-- The argument of the second implementation: `x = D√n + 1/(6√n) + (D√n - 1)/(4n)`. -/
noncomputable def Spec.ksArgument2 (D n : ℝ) : ℝ := D * sqrt n + 1 / (6 * sqrt n) + (D * sqrt n - 1) / (4 * n)

namespace Harmonic
open KolmogorovSeries

theorem law_eq (D n : ℝ) : kolmogorovSmirnovLaw D n =
    sqrt (2 * π) / Spec.ksArgument2 D n *
      ∑ k ∈ range 1000, exp (-(π ^ 2 / (8 * Spec.ksArgument2 D n ^ 2)) * ((2 * k + 1 : ℕ) : ℝ) ^ 2) := by
  unfold kolmogorovSmirnovLaw Spec.ksArgument2
  dsimp only
  rw [mul_comm (sqrt n) D]
  set x := D * sqrt n + 1 / (6 * sqrt n) + (D * sqrt n - 1) / (4 * n)
  rw [MetaTest.foldl_add, zero_add, mul_comm]
  refine congrArg (fun t => sqrt (2 * π) / x * t) ?_
  apply sum_congr rfl
  intro j _
  congr 1
  rw [show 2 * (j + 1) - 1 = 2 * j + 1 by omega]
  rw [neg_mul, neg_inj, show π ^ 2 / (8 * x ^ 2) = π ^ 2 / 8 / (x * x) by rw [div_div, pow_two x]]
  ring

theorem tail_bound {x : ℝ} (h0 : 0 < x) (h1 : x ≤ 100) :
    sqrt (2 * π) / x * ∑' k : ℕ, exp (-(π ^ 2 / (8 * x ^ 2)) * ((2 * (k + 1000) + 1 : ℕ) : ℝ) ^ 2) ≤ 1 / 10 ^ 100 := by
  set c := π ^ 2 / (8 * x ^ 2) with hc
  have hpi : 98 / 10 ≤ π ^ 2 := by nlinarith [pi_gt_d4]
  have hx2 : 0 < 8 * x ^ 2 := by positivity
  have hcx : c * (8 * x ^ 2) = π ^ 2 := by rw [hc]; field_simp
  have hclo : 122 / 10 ^ 6 ≤ c := by
    rw [hc, le_div_iff₀ hx2]
    nlinarith
  have hc0 : 0 < c := by linarith [show (0 : ℝ) < 122 / 10 ^ 6 by norm_num]
  set q := exp (-c * 8000) with hq
  have hq1 : q ≤ 1 / 2 := by
    have h2 : exp (-c * 8000) ≤ exp (-(3 / 4)) := exp_le_exp.2 (by norm_num at hclo ⊢; linarith)
    rw [exp_neg] at h2
    have h3 := quadratic_le_exp_of_nonneg (show (0 : ℝ) ≤ 3 / 4 by norm_num)
    have h4 : (2 : ℝ) ≤ exp (3 / 4) := by linarith
    have := inv_anti₀ (by norm_num) h4
    rw [hq, one_div]
    linarith
  have hg : HasSum (fun k : ℕ => exp (-c * 4000000) * q ^ k) (exp (-c * 4000000) * (1 - q)⁻¹) :=
    (hasSum_geometric_of_lt_one (exp_pos _).le (by linarith)).mul_left _
  have hle : ∀ k : ℕ, exp (-c * ((2 * (k + 1000) + 1 : ℕ) : ℝ) ^ 2) ≤ exp (-c * 4000000) * q ^ k := by
    intro k
    rw [hq, ← exp_nat_mul, ← exp_add]
    apply exp_le_exp.2
    push_cast
    have : (0 : ℝ) ≤ k := by positivity
    nlinarith [mul_nonneg hc0.le this, mul_nonneg hc0.le (mul_nonneg this this)]
  have hs : Summable fun k : ℕ => exp (-c * ((2 * (k + 1000) + 1 : ℕ) : ℝ) ^ 2) :=
    Summable.of_nonneg_of_le (fun k => (exp_pos _).le) hle hg.summable
  have hS : ∑' k : ℕ, exp (-c * ((2 * (k + 1000) + 1 : ℕ) : ℝ) ^ 2) ≤ exp (-c * 4000000) * 2 := by
    refine (hs.tsum_le_tsum hle hg.summable).trans ?_
    rw [hg.tsum_eq]
    have : (1 - q)⁻¹ ≤ 2 := by
      rw [show (2 : ℝ) = (1 / 2)⁻¹ by norm_num]
      exact inv_anti₀ (by norm_num) (by linarith)
    gcongr
  set z := c * 4000000 with hz
  have hz488 : 488 ≤ z := by rw [hz]; norm_num at hclo ⊢; linarith
  have hxz : 1 / x ≤ z := by
    rw [div_le_iff₀ h0]
    have h5 : z * x * x = π ^ 2 / 8 * 4000000 := by rw [hz, ← hcx]; ring
    have h6 : 0 < z * x := by positivity
    nlinarith
  have hzexp : z * exp (-z) ≤ exp (-(z / 2)) := by
    have h7 : z ≤ exp (z / 2) := by
      have := quadratic_le_exp_of_nonneg (show (0 : ℝ) ≤ z / 2 by linarith)
      nlinarith
    have h8 : exp (-z) = exp (-(z / 2)) * exp (-(z / 2)) := by rw [← exp_add]; congr 1; ring
    have h9 : exp (z / 2) * exp (-(z / 2)) = 1 := by rw [← exp_add]; simp
    rw [h8]
    calc z * (exp (-(z / 2)) * exp (-(z / 2))) ≤ exp (z / 2) * (exp (-(z / 2)) * exp (-(z / 2))) := by gcongr
      _ = exp (-(z / 2)) := by rw [← mul_assoc, h9, one_mul]
  have hfin : exp (-(z / 2)) ≤ 1 / 10 ^ 102 := by
    have h10 : exp (-(z / 2)) ≤ exp (-((244 : ℕ) + 0 : ℝ)) := exp_le_exp.2 (by push_cast; linarith)
    rw [exp_neg ((244 : ℕ) + 0 : ℝ)] at h10
    have h11 := exp_ge 244 0 le_rfl
    have h12 : (10 ^ 102 : ℝ) ≤ exp ((244 : ℕ) + 0 : ℝ) := le_trans (by norm_num) h11
    have := inv_anti₀ (by positivity) h12
    rw [one_div]
    linarith
  have hsq := sqrt_two_pi.2
  have e : -c * 4000000 = -z := by rw [hz]; ring
  rw [e] at hS
  calc sqrt (2 * π) / x * ∑' k : ℕ, exp (-c * ((2 * (k + 1000) + 1 : ℕ) : ℝ) ^ 2)
      ≤ sqrt (2 * π) / x * (exp (-z) * 2) := by gcongr
    _ = sqrt (2 * π) * 2 * ((1 / x) * exp (-z)) := by ring
    _ ≤ 2507 / 1000 * 2 * (z * exp (-z)) := by gcongr
    _ ≤ 2507 / 1000 * 2 * (1 / 10 ^ 102) := by gcongr; exact hzexp.trans hfin
    _ ≤ 1 / 10 ^ 100 := by norm_num

end Harmonic
open KolmogorovSeries

/-- C115. `kolmogorov_smirnov` is the distribution function of Kolmogorov's law at `x = D√n + 1/(6√n) + (D√n - 1)/(4n)`, never above it
and to 10⁻¹⁰⁰ for `0 < x ≤ 100`: one minus what `kolmogorov_smirnov_cdf` approximates (at a different argument). -/
theorem C115_kolmogorov (D n : ℝ) (x : ℝ) (hx : x = Spec.ksArgument2 D n) (h0 : 0 < x) (h1 : x ≤ 100) :
    kolmogorovSmirnovLaw D n ≤ 1 - Spec.kolmogorovTail x ∧ 1 - Spec.kolmogorovTail x ≤ kolmogorovSmirnovLaw D n + 1 / 10 ^ 100 := by
  have h := (C113_two_forms x h0).2.2
  rw [law_eq, ← hx]
  have hc : 0 < π ^ 2 / (8 * x ^ 2) := by positivity
  have hs : Summable fun k : ℕ => exp (-(π ^ 2 / (8 * x ^ 2)) * ((2 * k + 1 : ℕ) : ℝ) ^ 2) :=
    (theta_summable hc).comp_injective (i := fun k : ℕ => 2 * k + 1) (fun a b h => by simpa using h)
  have hsplit := hs.sum_add_tsum_nat_add 1000
  have htb := tail_bound h0 h1
  rw [h, sub_sub_cancel, ← hsplit, mul_add]
  have hp : 0 ≤ sqrt (2 * π) / x * ∑' k : ℕ, exp (-(π ^ 2 / (8 * x ^ 2)) * ((2 * (k + 1000) + 1 : ℕ) : ℝ) ^ 2) :=
    mul_nonneg (by positivity) (tsum_nonneg fun k => (exp_pos _).le)
  constructor <;> linarith

-- Concrete: five samples with distance 2/5 (the case of the unit test).
example : kolmogorovSmirnovLaw (2 / 5) 5 ≤ 1 - Spec.kolmogorovTail (Spec.ksArgument2 (2 / 5) 5) := by
  have hs : (2 : ℝ) ≤ sqrt 5 := le_sqrt_of_sq_le (by norm_num)
  have hs3 : sqrt 5 ≤ 3 := by rw [sqrt_le_left (by norm_num)]; norm_num
  refine (C115_kolmogorov (2 / 5) 5 _ rfl ?_ ?_).1
  · unfold Spec.ksArgument2
    have : 0 < 1 / (6 * sqrt 5) := by positivity
    linarith
  · unfold Spec.ksArgument2
    have : 1 / (6 * sqrt 5) ≤ 1 := by rw [div_le_one (by positivity)]; linarith
    linarith

end TFR
