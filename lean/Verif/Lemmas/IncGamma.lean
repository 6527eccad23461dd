import Mathlib.Analysis.SpecialFunctions.Gamma.Basic
import Mathlib.MeasureTheory.Integral.ExpDecay
import Mathlib.MeasureTheory.Integral.IntegralEqImproper
import Mathlib.Analysis.SpecialFunctions.Integrals.Basic
/-
The lower and upper incomplete gamma functions: the recurrences behind the series and the continued fraction.
-/
namespace TFR.IncGamma
open MeasureTheory Set Filter Topology Asymptotics

/-- Lower incomplete gamma function. -/
noncomputable def lower (s z : ℝ) : ℝ := ∫ t in (0 : ℝ)..z, t ^ (s - 1) * Real.exp (-t)

theorem lower_integrable {s z : ℝ} (hs : 0 < s) :
    IntervalIntegrable (fun t : ℝ => t ^ (s - 1) * Real.exp (-t)) volume 0 z := by
  apply (intervalIntegral.intervalIntegrable_rpow' (by linarith)).mul_continuousOn
  exact (Real.continuous_exp.comp continuous_neg).continuousOn

/-- `γ(s+1, z) = s γ(s, z) - z^s e^(-z)`. -/
theorem lower_succ {s z : ℝ} (hs : 0 < s) (hz : 0 < z) : lower (s + 1) z = s * lower s z - z ^ s * Real.exp (-z) := by
  have h := intervalIntegral.integral_eq_sub_of_hasDerivAt_of_le (a := 0) (b := z)
    (f := fun t : ℝ => t ^ s * Real.exp (-t))
    (f' := fun t : ℝ => s * (t ^ (s - 1) * Real.exp (-t)) - t ^ (s + 1 - 1) * Real.exp (-t)) hz.le
    (by
      apply ContinuousOn.mul
      · exact (Real.continuous_rpow_const hs.le).continuousOn
      · exact (Real.continuous_exp.comp continuous_neg).continuousOn)
    (by
      intro t ht
      have h1 := Real.hasDerivAt_rpow_const (x := t) (p := s) (Or.inl ht.1.ne')
      have h2 := (hasDerivAt_id t).neg.exp
      have h3 := h1.mul h2
      refine h3.congr_deriv ?_
      simp only [Pi.neg_apply, id, add_sub_cancel_right]
      ring)
    (((lower_integrable hs).const_mul s).sub (lower_integrable (by linarith)))
  rw [intervalIntegral.integral_sub ((lower_integrable hs).const_mul s) (lower_integrable (by linarith)),
    intervalIntegral.integral_const_mul, Real.zero_rpow hs.ne', zero_mul, sub_zero] at h
  unfold lower
  linarith

theorem lower_nonneg {s z : ℝ} (hz : 0 < z) : 0 ≤ lower s z := by
  apply intervalIntegral.integral_nonneg hz.le
  intro t ht
  have := Real.rpow_nonneg ht.1 (s - 1)
  positivity

theorem lower_succ_le {s z : ℝ} (hs : 0 < s) (hz : 0 < z) : lower (s + 1) z ≤ z * lower s z := by
  unfold lower
  rw [← intervalIntegral.integral_const_mul]
  apply intervalIntegral.integral_mono_on_of_le_Ioo hz.le (lower_integrable (by linarith)) ((lower_integrable hs).const_mul z)
  intro t ht
  have h1 : t ^ (s + 1 - 1) = t * t ^ (s - 1) := by
    rw [show s + 1 - 1 = 1 + (s - 1) by ring, Real.rpow_add ht.1, Real.rpow_one]
  rw [h1, mul_assoc]
  have := Real.rpow_nonneg ht.1.le (s - 1)
  exact mul_le_mul_of_nonneg_right ht.2.le (by positivity)

/-- Away from the mode, `γ(a, z) ≤ z^a e^(-z) / (a - z)`. -/
theorem lower_le {a z : ℝ} (ha : z < a) (hz : 0 < z) : lower a z * (a - z) ≤ z ^ a * Real.exp (-z) := by
  have h1 := lower_succ (s := a) (z := z) (by linarith) hz
  have h2 := lower_succ_le (s := a) (z := z) (by linarith) hz
  rw [h1] at h2
  linarith

/-- Terms of the series. -/
noncomputable def term (s z : ℝ) : Nat → ℝ
  | 0 => 1
  | k + 1 => term s z k * (z / (s + (k + 1 : ℕ)))

/-- Partial sums of the series. -/
noncomputable def psum (s z : ℝ) : Nat → ℝ
  | 0 => 1
  | k + 1 => psum s z k + term s z (k + 1)

theorem term_pos {s z : ℝ} (hs : 0 < s) (hz : 0 < z) : ∀ k, 0 < term s z k
  | 0 => one_pos
  | k + 1 => by
    have := term_pos hs hz k
    unfold term
    positivity

theorem term_nonneg {s z : ℝ} (hs : 0 < s) (hz : 0 ≤ z) : ∀ k, 0 ≤ term s z k
  | 0 => one_pos.le
  | k + 1 => by
    have := term_nonneg hs hz k
    unfold term
    positivity

theorem one_le_psum {s z : ℝ} (hs : 0 < s) (hz : 0 ≤ z) : ∀ k, 1 ≤ psum s z k
  | 0 => le_refl _
  | k + 1 => by
    have := one_le_psum hs hz k
    have := term_nonneg hs hz (k + 1)
    unfold psum
    linarith

/-- The series with its remainder. -/
theorem lower_eq {s z : ℝ} (hs : 0 < s) (hz : 0 < z) (k : Nat) :
    s * lower s z = z ^ s * Real.exp (-z) * psum s z k +
      term s z k * lower (s + k + 1) z / z ^ (k : ℝ) := by
  induction k with
  | zero =>
    have := lower_succ hs hz
    simp only [psum, term, Nat.cast_zero, add_zero, Real.rpow_zero, div_one, one_mul, mul_one]
    linarith
  | succ k ih =>
    rw [ih]
    have h1 := lower_succ (s := s + k + 1) (z := z) (by positivity) hz
    have hsk : (0 : ℝ) < s + ((k + 1 : ℕ) : ℝ) := by positivity
    have h2 : lower (s + k + 1) z = (lower (s + ((k + 1 : ℕ) : ℝ) + 1) z + z ^ (s + ((k + 1 : ℕ) : ℝ)) * Real.exp (-z)) /
        (s + ((k + 1 : ℕ) : ℝ)) := by
      rw [eq_div_iff hsk.ne']
      push_cast at h1 ⊢
      rw [← add_assoc]
      linarith
    rw [h2, psum, term]
    have h3 : z ^ (s + ((k + 1 : ℕ) : ℝ)) = z ^ s * z ^ (k : ℝ) * z := by
      rw [Real.rpow_add hz, mul_assoc]
      congr 1
      rw [Nat.cast_add, Nat.cast_one, Real.rpow_add hz, Real.rpow_one]
    have h4 : z ^ (((k + 1 : ℕ) : ℝ)) = z ^ (k : ℝ) * z := by
      rw [Nat.cast_add, Nat.cast_one, Real.rpow_add hz, Real.rpow_one]
    rw [h3, h4]
    have hzk : 0 < z ^ (k : ℝ) := Real.rpow_pos_of_pos hz _
    field_simp
    ring

/-- The partial sums bracket the lower incomplete gamma function. -/
theorem lower_bounds {s z : ℝ} (hs : 0 < s) (hz : 0 < z) (k : Nat) (hk : z < s + k + 1) :
    z ^ s * Real.exp (-z) * psum s z k ≤ s * lower s z ∧
    s * lower s z ≤ z ^ s * Real.exp (-z) * (psum s z k + term s z k * (z / (s + k + 1 - z))) := by
  have h := lower_eq hs hz k
  have hzk : 0 < z ^ (k : ℝ) := Real.rpow_pos_of_pos hz _
  have ht := term_pos hs hz k
  constructor
  · rw [h]
    have := lower_nonneg (s := s + k + 1) hz
    have : 0 ≤ term s z k * lower (s + k + 1) z / z ^ (k : ℝ) := by positivity
    linarith
  · rw [h, mul_add]
    have h1 := lower_le (a := s + k + 1) hk hz
    have hpos : 0 < s + k + 1 - z := by linarith
    have h2 : lower (s + k + 1) z ≤ z ^ s * z ^ (k : ℝ) * z * Real.exp (-z) / (s + k + 1 - z) := by
      rw [le_div_iff₀ hpos]
      refine h1.trans (le_of_eq ?_)
      rw [Real.rpow_add hz, Real.rpow_add hz, Real.rpow_one]
    have h3 : term s z k * lower (s + k + 1) z / z ^ (k : ℝ) ≤
        term s z k * (z ^ s * z ^ (k : ℝ) * z * Real.exp (-z) / (s + k + 1 - z)) / z ^ (k : ℝ) := by
      gcongr
    refine add_le_add_right (h3.trans (le_of_eq ?_)) _
    field_simp

/-- Terms are not too small while the ratio is not: `log t ≤ t - 1`. -/
theorem term_ge {s z : ℝ} (hs : 0 < s) (hz : 0 < z) (k : Nat) :
    Real.exp (-((k : ℝ) * (s + k - z) / z)) ≤ term s z k := by
  have h : ∀ k : Nat, ∀ m : Nat, k ≤ m → Real.exp (-((k : ℝ) * (s + m - z) / z)) ≤ term s z k := by
    intro k
    induction k with
    | zero => intro m _; simp [term]
    | succ k ih =>
      intro m hm
      have h1 := ih m (by omega)
      have hz' := hz.ne'
      rw [show -(((k + 1 : ℕ) : ℝ) * (s + m - z) / z) = -((k : ℝ) * (s + m - z) / z) + -((s + m - z) / z) by push_cast; ring,
        Real.exp_add, term]
      have h2 : Real.exp (-((s + m - z) / z)) ≤ z / (s + (k + 1 : ℕ)) := by
        have h3 := Real.add_one_le_exp ((s + m - z) / z)
        have h4 : (s + m - z) / z + 1 = (s + m) / z := by field_simp; ring
        rw [h4] at h3
        rw [Real.exp_neg, inv_le_comm₀ (Real.exp_pos _) (by positivity), inv_div]
        refine le_trans ?_ h3
        have : ((k + 1 : ℕ) : ℝ) ≤ m := by exact_mod_cast hm
        gcongr
      exact mul_le_mul h1 h2 (Real.exp_pos _).le (term_pos hs hz k).le
  exact h k k (le_refl _)

/-! ### Upper incomplete gamma function -/

/-- The weight `(t - z)^n t^r e^(-t)`. -/
noncomputable def weight (z : ℝ) (n : Nat) (r t : ℝ) : ℝ := (t - z) ^ n * t ^ r * Real.exp (-t)

theorem weight_isBigO (z : ℝ) (hz : 0 < z) (n : Nat) (r : ℝ) :
    (weight z n r) =O[atTop] fun t => Real.exp (-(1 / 2) * t) := by
  have h1 : (fun t : ℝ => t ^ (r + n)) =o[atTop] fun t => Real.exp ((1 / 2) * t) :=
    isLittleO_rpow_exp_pos_mul_atTop _ (by norm_num)
  have h2 : (weight z n r) =O[atTop] fun t => t ^ (r + n) * Real.exp (-t) := by
    apply IsBigO.of_bound 1
    filter_upwards [eventually_ge_atTop z] with t ht
    have ht0 : 0 < t := by linarith
    have h3 : 0 ≤ weight z n r t := by
      unfold weight
      have : 0 ≤ t - z := by linarith
      positivity
    rw [Real.norm_of_nonneg h3, Real.norm_of_nonneg (by positivity), one_mul]
    unfold weight
    rw [Real.rpow_add ht0, Real.rpow_natCast, mul_comm (t ^ r)]
    gcongr
    linarith
  refine h2.trans ?_
  have h3 : (fun t : ℝ => t ^ (r + n) * Real.exp (-t)) =o[atTop] fun t => Real.exp ((1 / 2) * t) * Real.exp (-t) :=
    h1.mul_isBigO (isBigO_refl _ _)
  refine h3.isBigO.trans (IsBigO.of_bound 1 (Eventually.of_forall fun t => ?_))
  rw [← Real.exp_add, one_mul]
  apply le_of_eq
  congr 2
  ring

theorem weight_continuousOn (z : ℝ) (hz : 0 < z) (n : Nat) (r : ℝ) : ContinuousOn (weight z n r) (Ici z) := by
  unfold weight
  refine ContinuousOn.mul (ContinuousOn.mul ?_ ?_) ?_
  · fun_prop
  · intro t ht
    exact (Real.continuousAt_rpow_const t r (Or.inl (lt_of_lt_of_le hz ht).ne')).continuousWithinAt
  · fun_prop

theorem weight_integrable (z : ℝ) (hz : 0 < z) (n : Nat) (r : ℝ) : IntegrableOn (weight z n r) (Ioi z) :=
  integrable_of_isBigO_exp_neg (b := 1 / 2) (by norm_num) (weight_continuousOn z hz n r) (weight_isBigO z hz n r)

theorem weight_tendsto (z : ℝ) (hz : 0 < z) (n : Nat) (r : ℝ) : Tendsto (weight z n r) atTop (𝓝 0) := by
  refine (weight_isBigO z hz n r).trans_tendsto ?_
  have : Tendsto (fun t : ℝ => -(1 / 2) * t) atTop atBot := by
    apply Tendsto.const_mul_atTop_of_neg (by norm_num) tendsto_id
  exact Real.tendsto_exp_atBot.comp this

/-- `J_j = ∫_z^∞ (t - z)^(j-1) t^(s-j) e^(-t) dt`, with `j = i + 1`. -/
noncomputable def J (s z : ℝ) (i : Nat) : ℝ := ∫ t in Ioi z, weight z i (s - (i + 1)) t

theorem J_pos {s z : ℝ} (hz : 0 < z) (i : Nat) : 0 < J s z i := by
  unfold J
  rw [setIntegral_pos_iff_support_of_nonneg_ae]
  · have : Function.support (weight z i (s - (i + 1))) ∩ Ioi z = Ioi z := by
      rw [inter_eq_right]
      intro t ht
      have ht' : z < t := ht
      have h0 : 0 < t := hz.trans ht'
      have h1 : 0 < t - z := by linarith
      rw [Function.mem_support]
      unfold weight
      positivity
    rw [this, Real.volume_Ioi]
    exact ENNReal.zero_lt_top
  · rw [EventuallyLE, ae_restrict_iff' measurableSet_Ioi]
    refine ae_of_all _ fun t (ht : z < t) => ?_
    have h0 : 0 < t := hz.trans ht
    have h1 : 0 < t - z := by linarith
    show 0 ≤ weight z i (s - (i + 1)) t
    unfold weight
    positivity
  · exact weight_integrable z hz _ _

theorem J_anti {s z : ℝ} (hz : 0 < z) (i : Nat) : J s z (i + 1) ≤ J s z i := by
  unfold J
  apply setIntegral_mono_on (weight_integrable z hz _ _) (weight_integrable z hz _ _) measurableSet_Ioi
  intro t (ht : z < t)
  have h0 : 0 < t := hz.trans ht
  have h1 : 0 < t - z := by linarith
  unfold weight
  have h2 : t ^ (s - ((i : ℝ) + 1)) = t ^ (s - (((i + 1 : ℕ) : ℝ) + 1)) * t := by
    rw [← Real.rpow_add_one h0.ne']
    congr 1
    push_cast; ring
  rw [h2, pow_succ]
  have h3 : 0 < t ^ (s - (((i + 1 : ℕ) : ℝ) + 1)) := Real.rpow_pos_of_pos h0 _
  have h4 : (t - z) ^ i * (t - z) * t ^ (s - (((i + 1 : ℕ) : ℝ) + 1)) ≤ (t - z) ^ i * (t ^ (s - (((i + 1 : ℕ) : ℝ) + 1)) * t) := by
    rw [mul_assoc]
    apply mul_le_mul_of_nonneg_left _ (by positivity)
    rw [mul_comm]
    exact mul_le_mul_of_nonneg_left (by linarith) h3.le
  exact mul_le_mul_of_nonneg_right h4 (Real.exp_pos _).le

theorem hasDerivAt_weight (z : ℝ) (n : Nat) (r t : ℝ) (ht : 0 < t) :
    HasDerivAt (weight z n r) (((n : ℝ) * (t - z) ^ (n - 1) * t ^ r + (t - z) ^ n * (r * t ^ (r - 1))) * Real.exp (-t) -
      (t - z) ^ n * t ^ r * Real.exp (-t)) t := by
  have h1 := ((hasDerivAt_id t).sub_const z).pow n
  have h2 := Real.hasDerivAt_rpow_const (x := t) (p := r) (Or.inl ht.ne')
  have h3 := (hasDerivAt_id t).neg.exp
  have h4 := (h1.mul h2).mul h3
  unfold weight
  refine h4.congr_deriv ?_
  simp only [Pi.neg_apply, Pi.mul_apply, Pi.pow_apply, id]
  ring

private theorem parts (z : ℝ) (hz : 0 < z) (n : Nat) (r : ℝ) (g : ℝ → ℝ)
    (hg : ∀ t, z ≤ t → g t = ((n : ℝ) * (t - z) ^ (n - 1) * t ^ r + (t - z) ^ n * (r * t ^ (r - 1))) * Real.exp (-t) -
      (t - z) ^ n * t ^ r * Real.exp (-t)) (hi : IntegrableOn g (Ioi z)) :
    ∫ t in Ioi z, g t = - weight z n r z := by
  have := integral_Ioi_of_hasDerivAt_of_tendsto' (f := weight z n r) (f' := g) (a := z) (m := 0)
    (fun t ht => by
      rw [hg t ht]; exact hasDerivAt_weight z n r t (lt_of_lt_of_le hz ht)) hi (weight_tendsto z hz n r)
  rw [this, zero_sub]

/-- First recurrence: `z^s e^(-z) = (z + 1 - s) J_1 + (s - 1) J_2`. -/
theorem J_first {s z : ℝ} (hz : 0 < z) :
    z ^ s * Real.exp (-z) = (1 + z - s) * J s z 0 + (s - 1) * J s z 1 := by
  have h0 := weight_integrable z hz 0 (s - ((0 : ℕ) + 1))
  have h1 := weight_integrable z hz 1 (s - ((1 : ℕ) + 1))
  have h := parts z hz 0 (s - 1)
    (fun t => (1 / z) * ((s - 1 - z) * weight z 0 (s - ((0 : ℕ) + 1)) t - (s - 1) * weight z 1 (s - ((1 : ℕ) + 1)) t))
    (by
      intro t ht
      have ht0 : 0 < t := lt_of_lt_of_le hz ht
      unfold weight
      have e1 : t ^ (s - (((0 : ℕ) : ℝ) + 1)) = t ^ (s - 2) * t := by
        rw [← Real.rpow_add_one ht0.ne']; congr 1; push_cast; ring
      have e2 : t ^ (s - (((1 : ℕ) : ℝ) + 1)) = t ^ (s - 2) := by congr 1; push_cast; ring
      have e3 : t ^ (s - 1) = t ^ (s - 2) * t := by
        rw [← Real.rpow_add_one ht0.ne']; congr 1; ring
      have e4 : t ^ (s - 1 - 1) = t ^ (s - 2) := by congr 1; ring
      rw [e1, e2, e3, e4]
      simp only [Nat.cast_zero, pow_zero, pow_one, zero_mul]
      field_simp
      ring)
    (by
      apply Integrable.const_mul
      exact (h0.const_mul _).sub (h1.const_mul _))
  rw [integral_const_mul, integral_sub (h0.const_mul _) (h1.const_mul _), integral_const_mul, integral_const_mul] at h
  have hw : weight z 0 (s - 1) z = z ^ s * Real.exp (-z) / z := by
    unfold weight
    rw [pow_zero, one_mul, Real.rpow_sub_one hz.ne']; ring
  rw [hw] at h
  unfold J
  have hz' := hz.ne'
  field_simp at h
  push_cast at h ⊢
  linarith

/-- The recurrence: `j J_j = (z + 2j + 1 - s) J_(j+1) + (s - (j+1)) J_(j+2)` for `j = i + 1`. -/
theorem J_succ {s z : ℝ} (hz : 0 < z) (i : Nat) :
    ((i + 1 : ℕ) : ℝ) * J s z i = (2 * ((i + 1 : ℕ) : ℝ) + 1 + z - s) * J s z (i + 1) + (s - ((i + 2 : ℕ) : ℝ)) * J s z (i + 2) := by
  have h0 := weight_integrable z hz i (s - (i + 1))
  have h1 := weight_integrable z hz (i + 1) (s - ((i + 1 : ℕ) + 1))
  have h2 := weight_integrable z hz (i + 2) (s - ((i + 2 : ℕ) + 1))
  have h := parts z hz (i + 1) (s - (i + 2))
    (fun t => (1 / z) * (((i + 1 : ℝ) * weight z i (s - (i + 1)) t -
      (2 * (i + 1 : ℝ) + 1 + z - s) * weight z (i + 1) (s - ((i + 1 : ℕ) + 1)) t) - (s - (i + 2)) * weight z (i + 2) (s - ((i + 2 : ℕ) + 1)) t))
    (by
      intro t ht
      have ht0 : 0 < t := lt_of_lt_of_le hz ht
      unfold weight
      have e1 : t ^ (s - ((i : ℝ) + 1)) = t ^ (s - (i + 3)) * t * t := by
        rw [← Real.rpow_add_one ht0.ne', ← Real.rpow_add_one ht0.ne']; congr 1; ring
      have e2 : t ^ (s - (((i + 1 : ℕ) : ℝ) + 1)) = t ^ (s - (i + 3)) * t := by
        rw [← Real.rpow_add_one ht0.ne']; congr 1; push_cast; ring
      have e3 : t ^ (s - (((i + 2 : ℕ) : ℝ) + 1)) = t ^ (s - (i + 3)) := by congr 1; push_cast; ring
      have e4 : t ^ (s - ((i : ℝ) + 2)) = t ^ (s - (i + 3)) * t := by
        rw [← Real.rpow_add_one ht0.ne']; congr 1; ring
      have e5 : t ^ (s - ((i : ℝ) + 2) - 1) = t ^ (s - (i + 3)) := by congr 1; ring
      rw [e1, e2, e3, e4, e5, Nat.add_sub_cancel, pow_succ, pow_add (t - z) i 2]
      push_cast
      generalize t ^ (s - ((i : ℝ) + 3)) = q
      generalize (t - z) ^ i = p
      generalize Real.exp (-t) = e
      field_simp
      ring)
    (by
      apply Integrable.const_mul
      exact ((h0.const_mul _).sub (h1.const_mul _)).sub (h2.const_mul _))
  have hsub := integral_sub (((h0.const_mul (i + 1 : ℝ)).sub (h1.const_mul (2 * (i + 1 : ℝ) + 1 + z - s)))) (h2.const_mul (s - (i + 2)))
  simp only [Pi.sub_apply] at hsub
  rw [integral_const_mul, hsub,
    integral_sub (h0.const_mul _) (h1.const_mul _), integral_const_mul, integral_const_mul, integral_const_mul] at h
  have hw : weight z (i + 1) (s - (i + 2)) z = 0 := by
    unfold weight
    rw [sub_self, zero_pow (by omega), zero_mul, zero_mul]
  rw [hw] at h
  unfold J
  have hz' := hz.ne'
  field_simp at h
  push_cast at h ⊢
  linarith

end TFR.IncGamma
