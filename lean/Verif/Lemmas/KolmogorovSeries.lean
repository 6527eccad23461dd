import Mathlib.Analysis.SpecialFunctions.Gaussian.PoissonSummation
import Mathlib.Analysis.SpecificLimits.Normed
import Mathlib.Analysis.Complex.ExponentialBounds
import Mathlib.Analysis.Real.Pi.Bounds
import Mathlib.Topology.Algebra.InfiniteSum.NatInt
/-
The alternating series of Kolmogorov's law: bounds for partial sums, and its second form (Poisson summation).
-/
namespace TFR.KolmogorovSeries
open Real Finset

/-! ### Alternating sums -/

theorem sum_succ_alt (f : ℕ → ℝ) (m : ℕ) :
    ∑ j ∈ range (m + 1), (-1) ^ j * f j = f 0 - ∑ j ∈ range m, (-1) ^ j * f (j + 1) := by
  rw [sum_range_succ']
  simp only [pow_succ, mul_neg, mul_one, neg_mul, sum_neg_distrib, pow_zero, one_mul]
  ring

theorem sum_bounds (f : ℕ → ℝ) (hf : Antitone f) (h0 : ∀ k, 0 ≤ f k) (m : ℕ) :
    0 ≤ ∑ j ∈ range m, (-1) ^ j * f j ∧ ∑ j ∈ range m, (-1) ^ j * f j ≤ f 0 := by
  induction m generalizing f with
  | zero => simpa using h0 0
  | succ m ih =>
    have h := ih (fun k => f (k + 1)) (fun a b h => hf (by omega)) (fun k => h0 _)
    rw [sum_succ_alt]
    have := hf (show 0 ≤ 1 by omega)
    simp only [zero_add] at h
    constructor <;> linarith [h.1, h.2]

theorem sum_lower (f : ℕ → ℝ) (hf : Antitone f) (h0 : ∀ k, 0 ≤ f k) (m : ℕ) :
    f 0 - f 1 ≤ ∑ j ∈ range (m + 1), (-1) ^ j * f j := by
  rw [sum_succ_alt]
  have := (sum_bounds (fun k => f (k + 1)) (fun a b h => hf (by omega)) (fun k => h0 _) m).2
  simp only [zero_add] at this
  linarith

/-- An odd number of terms of an increasing sequence. -/
theorem sum_odd_mono (g : ℕ → ℝ) (m : ℕ) (hg : ∀ j, j < 2 * m → g j ≤ g (j + 1)) :
    g 0 ≤ ∑ j ∈ range (2 * m + 1), (-1) ^ j * g j := by
  induction m with
  | zero => simp
  | succ m ih =>
    have h := ih (fun j hj => hg j (by omega))
    rw [show 2 * (m + 1) + 1 = 2 * m + 1 + 1 + 1 by ring, sum_range_succ, sum_range_succ]
    have h1 := hg (2 * m + 1) (by omega)
    rw [show (-1 : ℝ) ^ (2 * m + 1) = -1 by rw [pow_succ, pow_mul]; simp, show (-1 : ℝ) ^ (2 * m + 1 + 1) = 1 by
      rw [show 2 * m + 1 + 1 = 2 * (m + 1) by ring, pow_mul]; simp]
    linarith

/-- The alternating series. -/
noncomputable def alt (f : ℕ → ℝ) : ℝ := ∑' k : ℕ, (-1) ^ k * f k

theorem summable_alt {f : ℕ → ℝ} (hs : Summable f) : Summable fun k => (-1 : ℝ) ^ k * f k := by
  apply Summable.of_norm
  have : (fun k => ‖(-1 : ℝ) ^ k * f k‖) = fun k => ‖f k‖ := by
    funext k
    rw [norm_mul, norm_pow]
    simp
  rw [this]
  exact hs.norm

theorem alt_split {f : ℕ → ℝ} (hs : Summable f) (m : ℕ) :
    alt f = ∑ j ∈ range m, (-1) ^ j * f j + (-1) ^ m * alt fun k => f (k + m) := by
  unfold alt
  rw [← (summable_alt hs).sum_add_tsum_nat_add m, ← tsum_mul_left]
  congr 1
  apply tsum_congr
  intro k
  rw [pow_add]
  ring

theorem alt_succ {f : ℕ → ℝ} (hs : Summable f) : alt f = f 0 - alt fun k => f (k + 1) := by
  rw [alt_split hs 1]
  simp
  ring

theorem alt_bounds {f : ℕ → ℝ} (hs : Summable f) (hf : Antitone f) (h0 : ∀ k, 0 ≤ f k) : 0 ≤ alt f ∧ alt f ≤ f 0 := by
  have ht := (summable_alt hs).hasSum.tendsto_sum_nat
  exact ⟨ge_of_tendsto' ht fun m => (sum_bounds f hf h0 m).1, le_of_tendsto' ht fun m => (sum_bounds f hf h0 m).2⟩

/-- A convex decreasing sequence: at least half of the first term. -/
theorem alt_half {f : ℕ → ℝ} (hs : Summable f) (hf : Antitone f)
    (hc : Antitone fun k => f k - f (k + 1)) : f 0 / 2 ≤ alt f := by
  have hs1 : Summable fun k => f (k + 1) := (summable_nat_add_iff 1).2 hs
  have h := (alt_bounds (f := fun k => f k - f (k + 1)) (hs.sub hs1) hc (fun k => sub_nonneg.2 (hf (by omega)))).1
  have h2 : alt (fun k => f k - f (k + 1)) = alt f - alt fun k => f (k + 1) := by
    unfold alt
    rw [← (summable_alt hs).tsum_sub (summable_alt hs1)]
    apply tsum_congr
    intro k
    ring
  rw [h2] at h
  have h3 := alt_succ hs
  linarith

/-! ### The terms -/

/-- `exp(-2 l² k²)`. -/
noncomputable def term (l : ℝ) (k : ℕ) : ℝ := exp (-2 * l ^ 2 * (k : ℝ) ^ 2)

theorem term_pos (l : ℝ) (k : ℕ) : 0 < term l k := exp_pos _
theorem term_zero (l : ℝ) : term l 0 = 1 := by simp [term]

theorem term_antitone (l : ℝ) : Antitone (term l) := by
  intro a b h
  apply exp_le_exp.2
  have : (a : ℝ) ^ 2 ≤ (b : ℝ) ^ 2 := by
    have : (a : ℝ) ≤ b := by exact_mod_cast h
    exact pow_le_pow_left₀ (by positivity) this 2
  nlinarith [sq_nonneg l]

theorem term_summable {l : ℝ} (hl : 0 < l) : Summable (term l) := by
  have hq : exp (-2 * l ^ 2) < 1 := by
    rw [exp_lt_one_iff]
    nlinarith [pow_pos hl 2]
  refine Summable.of_nonneg_of_le (fun k => (term_pos l k).le) (fun k => ?_) (summable_geometric_of_lt_one (exp_pos _).le hq)
  rw [← exp_nat_mul]
  apply exp_le_exp.2
  rcases k with _ | k
  · simp
  · have h1 : ((k + 1 : ℕ) : ℝ) ≤ ((k + 1 : ℕ) : ℝ) ^ 2 := by
      have : (1 : ℝ) ≤ ((k + 1 : ℕ) : ℝ) := by exact_mod_cast Nat.succ_le_succ (Nat.zero_le k)
      nlinarith
    nlinarith [pow_pos hl 2]

/-- The probability that Kolmogorov's limit law exceeds `l`. -/
noncomputable def Q (l : ℝ) : ℝ := 2 * alt fun k => term l (k + 1)

/-! ### Poisson summation -/

theorem tsum_int_nat {f : ℕ → ℝ} (hs : Summable f) : ∑' n : ℤ, f n.natAbs = 2 * ∑' k : ℕ, f k - f 0 := by
  have h1 : Summable fun k : ℕ => f (k + 1) := (summable_nat_add_iff 1).2 hs
  have h := HasSum.of_nat_of_neg_add_one (f := fun n : ℤ => f n.natAbs) (m := ∑' k : ℕ, f k) (m' := ∑' k : ℕ, f (k + 1))
    (by simpa using hs.hasSum) (by
      have : (fun n : ℕ => f (-((n : ℤ) + 1)).natAbs) = fun k : ℕ => f (k + 1) := by
        funext k
        congr 1
      rw [this]
      exact h1.hasSum)
  rw [h.tsum_eq]
  have := hs.tsum_eq_zero_add
  linarith

noncomputable def theta (t : ℝ) : ℝ := ∑' k : ℕ, exp (-t * (k : ℝ) ^ 2)

theorem theta_summable {t : ℝ} (ht : 0 < t) : Summable fun k : ℕ => exp (-t * (k : ℝ) ^ 2) := by
  have h := term_summable (l := sqrt (t / 2)) (sqrt_pos.2 (by linarith))
  have : term (sqrt (t / 2)) = fun k : ℕ => exp (-t * (k : ℝ) ^ 2) := by
    funext k
    unfold term
    rw [sq_sqrt (by linarith)]
    congr 1
    ring
  rwa [this] at h

/-- The functional equation of the theta function. -/
theorem theta_inv {t : ℝ} (ht : 0 < t) : 2 * theta t - 1 = sqrt (π / t) * (2 * theta (π ^ 2 / t) - 1) := by
  have h := Real.tsum_exp_neg_mul_int_sq (a := t / π) (div_pos ht pi_pos)
  have hcast : ∀ n : ℤ, ((n.natAbs : ℕ) : ℝ) ^ 2 = (n : ℝ) ^ 2 := by
    intro n
    have : ((n.natAbs : ℕ) : ℝ) = |(n : ℝ)| := by
      rw [← Int.cast_abs, Int.abs_eq_natAbs]; simp
    rw [this, sq_abs]
  have h1 : ∑' n : ℤ, exp (-π * (t / π) * (n : ℝ) ^ 2) = 2 * theta t - 1 := by
    have := tsum_int_nat (theta_summable ht)
    simp only [hcast] at this
    rw [show -π * (t / π) = -t by field_simp]
    rw [this]
    simp [theta]
  have ht2 : 0 < π ^ 2 / t := div_pos (pow_pos pi_pos 2) ht
  have h2 : ∑' n : ℤ, exp (-π / (t / π) * (n : ℝ) ^ 2) = 2 * theta (π ^ 2 / t) - 1 := by
    have := tsum_int_nat (theta_summable ht2)
    simp only [hcast] at this
    rw [show -π / (t / π) = -(π ^ 2 / t) by field_simp]
    rw [this]
    simp [theta]
  rw [h1, h2] at h
  rw [h]
  congr 1
  rw [← sqrt_eq_rpow, show π / t = 1 / (t / π) by field_simp, sqrt_div zero_le_one, sqrt_one]

/-- The odd part. -/
theorem theta_odd {t : ℝ} (ht : 0 < t) : theta t - theta (4 * t) = ∑' k : ℕ, exp (-t * ((2 * k + 1 : ℕ) : ℝ) ^ 2) := by
  have hs := theta_summable ht
  have h := tsum_even_add_odd (f := fun k : ℕ => exp (-t * (k : ℝ) ^ 2))
    (hs.comp_injective (fun a b h => by simpa using h)) (hs.comp_injective (fun a b h => by simpa using h))
  unfold theta
  rw [← h]
  have : ∑' k : ℕ, exp (-t * ((2 * k : ℕ) : ℝ) ^ 2) = ∑' k : ℕ, exp (-(4 * t) * (k : ℝ) ^ 2) := by
    apply tsum_congr
    intro k
    congr 1
    push_cast
    ring
  rw [this]
  ring

theorem term_eq_theta (l : ℝ) : ∑' k : ℕ, term l k = theta (2 * l ^ 2) := by
  unfold theta term
  apply tsum_congr
  intro k
  congr 1
  ring

/-- Kolmogorov's law in its two forms. -/
theorem Q_theta {l : ℝ} (hl : 0 < l) :
    1 - Q l = sqrt (2 * π) / l * ∑' k : ℕ, exp (-(π ^ 2 / (8 * l ^ 2)) * ((2 * k + 1 : ℕ) : ℝ) ^ 2) := by
  have hs := term_summable hl
  have h2 : 0 < 2 * l ^ 2 := by positivity
  have h8 : 0 < 8 * l ^ 2 := by positivity
  have hA : alt (term l) = 2 * theta (8 * l ^ 2) - theta (2 * l ^ 2) := by
    unfold alt
    have he : Summable fun k : ℕ => (-1 : ℝ) ^ (2 * k) * term l (2 * k) :=
      (summable_alt hs).comp_injective (i := fun k : ℕ => 2 * k) (fun a b h => by simpa using h)
    have ho : Summable fun k : ℕ => (-1 : ℝ) ^ (2 * k + 1) * term l (2 * k + 1) :=
      (summable_alt hs).comp_injective (i := fun k : ℕ => 2 * k + 1) (fun a b h => by simpa using h)
    have h := tsum_even_add_odd (f := fun k : ℕ => (-1 : ℝ) ^ k * term l k) he ho
    rw [← h]
    have h1 : ∑' k : ℕ, (-1 : ℝ) ^ (2 * k) * term l (2 * k) = theta (8 * l ^ 2) := by
      unfold theta term
      apply tsum_congr
      intro k
      rw [pow_mul]
      simp only [even_two, Even.neg_pow, one_pow, one_mul]
      congr 1
      push_cast
      ring
    have h3 : ∑' k : ℕ, (-1 : ℝ) ^ (2 * k + 1) * term l (2 * k + 1) =
        -∑' k : ℕ, exp (-(2 * l ^ 2) * ((2 * k + 1 : ℕ) : ℝ) ^ 2) := by
      rw [← tsum_neg]
      apply tsum_congr
      intro k
      unfold term
      rw [pow_succ, pow_mul]
      simp only [even_two, Even.neg_pow, one_pow, one_mul, neg_mul]
    rw [h1, h3, ← theta_odd h2, show 4 * (2 * l ^ 2) = 8 * l ^ 2 by ring]
    ring
  have hQ : 1 - Q l = 2 * (2 * theta (8 * l ^ 2) - 1) - (2 * theta (2 * l ^ 2) - 1) := by
    have h := alt_succ hs
    rw [term_zero, hA] at h
    unfold Q
    linarith
  rw [hQ, theta_inv h8, theta_inv h2]
  have hc : π ^ 2 / (2 * l ^ 2) = 4 * (π ^ 2 / (8 * l ^ 2)) := by field_simp; ring
  rw [hc, ← theta_odd (div_pos (pow_pos pi_pos 2) h8)]
  have hs8 : sqrt (π / (8 * l ^ 2)) = sqrt (2 * π) / (4 * l) := by
    rw [show π / (8 * l ^ 2) = 2 * π / (4 * l) ^ 2 by field_simp; ring, sqrt_div (by positivity), sqrt_sq (by positivity)]
  have hs2 : sqrt (π / (2 * l ^ 2)) = sqrt (2 * π) / (2 * l) := by
    rw [show π / (2 * l ^ 2) = 2 * π / (2 * l) ^ 2 by field_simp, sqrt_div (by positivity), sqrt_sq (by positivity)]
  rw [hs8, hs2]
  field_simp
  ring

/-! ### The truncated series -/

/-- The partial sum with half of the last term. -/
noncomputable def half (l : ℝ) (m : ℕ) : ℝ := ∑ j ∈ range m, (-1) ^ j * term l (j + 1) + 1 / 2 * ((-1) ^ m * term l (m + 1))

theorem half_bounds (l : ℝ) (m : ℕ) : term l 1 - term l 2 ≤ half l (m + 1) ∧ half l (m + 1) ≤ term l 1 := by
  have ha : Antitone fun k => term l (k + 1) := fun a b h => term_antitone l (by omega)
  have h0 : ∀ k, 0 ≤ term l (k + 1) := fun k => (term_pos _ _).le
  have h1 := sum_bounds (fun k => term l (k + 1)) ha h0
  have h2 := sum_lower (fun k => term l (k + 1)) ha h0
  have he : half l (m + 1) = (∑ j ∈ range (m + 1), (-1) ^ j * term l (j + 1) + ∑ j ∈ range (m + 1 + 1), (-1) ^ j * term l (j + 1)) / 2 := by
    rw [sum_range_succ _ (m + 1)]
    unfold half
    ring
  rw [he]
  simp only [zero_add, one_add_one_eq_two] at h1 h2
  constructor
  · linarith [h2 m, h2 (m + 1)]
  · linarith [(h1 (m + 1)).2, (h1 (m + 1 + 1)).2]

theorem half_alt {l : ℝ} (hl : 0 < l) :
    half l 99 = (alt fun k => term l (k + 1)) + ((alt fun k => term l (k + 100)) - term l 100 / 2) := by
  have hs : Summable fun k => term l (k + 1) := (summable_nat_add_iff 1).2 (term_summable hl)
  rw [alt_split hs 99]
  unfold half
  rw [show (-1 : ℝ) ^ 99 = -1 by norm_num]
  simp only [Nat.reduceAdd, add_assoc]
  ring

theorem half_accuracy {l : ℝ} (hl : 0 < l) : |2 * half l 99 - Q l| ≤ term l 100 := by
  have hs : Summable fun k => term l (k + 100) := (summable_nat_add_iff 100).2 (term_summable hl)
  have h := alt_bounds hs (fun a b h => term_antitone l (by omega)) (fun k => (term_pos _ _).le)
  simp only [zero_add] at h
  rw [half_alt hl, Q, abs_le]
  constructor <;> linarith [h.1, h.2]

theorem term_succ (l : ℝ) (n : ℕ) : term l (n + 1) = term l n * exp (-2 * l ^ 2 * (2 * n + 1)) := by
  unfold term
  rw [← exp_add]
  congr 1
  push_cast
  ring

theorem term_succ2 (l : ℝ) (n : ℕ) :
    term l (n + 2) = term l n * (exp (-2 * l ^ 2 * (2 * n + 1)) ^ 2 * exp (-(4 * l ^ 2))) := by
  unfold term
  rw [← exp_nat_mul, ← exp_add, ← exp_add]
  congr 1
  push_cast
  ring

theorem term_convex {l : ℝ} (hl : 0 < l) (n : ℕ) (hn : 1 ≤ l * (2 * n + 1)) :
    2 * term l (n + 1) ≤ term l n + term l (n + 2) := by
  rw [term_succ, term_succ2]
  set u := exp (-2 * l ^ 2 * (2 * n + 1)) with hu
  have hu0 : 0 < u := exp_pos _
  have h1 : u * (1 + 2 * l) ≤ 1 := by
    have h2 : 1 + 2 * l ≤ exp (2 * l ^ 2 * (2 * n + 1)) := by
      have := add_one_le_exp (2 * l ^ 2 * (2 * (n : ℝ) + 1))
      nlinarith
    have h3 : u * exp (2 * l ^ 2 * (2 * n + 1)) = 1 := by
      rw [hu, ← exp_add, ← exp_zero]
      congr 1
      ring
    calc u * (1 + 2 * l) ≤ u * exp (2 * l ^ 2 * (2 * n + 1)) := by gcongr
      _ = 1 := h3
  have h2 : 1 - 4 * l ^ 2 ≤ exp (-(4 * l ^ 2)) := one_sub_le_exp_neg _
  have h3 : 2 * u ≤ 1 + u ^ 2 * exp (-(4 * l ^ 2)) := by
    have h4 : u ^ 2 * (1 - 4 * l ^ 2) ≤ u ^ 2 * exp (-(4 * l ^ 2)) := by gcongr
    have h5 : 2 * l * u ≤ 1 - u := by linarith
    have h6 : (2 * l * u) ^ 2 ≤ (1 - u) ^ 2 := pow_le_pow_left₀ (by positivity) h5 2
    nlinarith
  have := term_pos l n
  nlinarith

/-- For arguments that are not too small the truncated sum is at least the full series. -/
theorem half_ge {l : ℝ} (hl : 1 / 201 ≤ l) : Q l ≤ 2 * half l 99 := by
  have hl0 : 0 < l := by linarith [show (0 : ℝ) < 1 / 201 by norm_num]
  have hs : Summable fun k => term l (k + 100) := (summable_nat_add_iff 100).2 (term_summable hl0)
  have h := alt_half hs (fun a b h => term_antitone l (by omega)) (antitone_nat_of_succ_le fun k => by
    have := term_convex hl0 (k + 100) (by
      push_cast
      have h0 : (0 : ℝ) ≤ k := by positivity
      nlinarith)
    simp only [show k + 1 + 100 = k + 100 + 1 by ring, show k + 100 + 1 + 1 = k + 100 + 2 by ring]
    linarith)
  simp only [zero_add] at h
  rw [half_alt hl0, Q]
  linarith

theorem term_concave {l : ℝ} (hl : 0 ≤ l) (hl2 : l ≤ 1 / 201) (n : ℕ) (hn : n ≤ 98) :
    term l n + term l (n + 2) ≤ 2 * term l (n + 1) := by
  rw [term_succ2, term_succ]
  set u := exp (-2 * l ^ 2 * (2 * n + 1)) with hu
  have hu0 : 0 < u := exp_pos _
  have hnR : (n : ℝ) ≤ 98 := by exact_mod_cast hn
  have hn0 : (0 : ℝ) ≤ n := by positivity
  set y := 2 * l ^ 2 * (2 * (n : ℝ) + 1) with hy
  have hy0 : 0 ≤ y := by positivity
  have hy1 : y ≤ 2 * l * (197 / 201) := by
    have : l * (2 * (n : ℝ) + 1) ≤ 197 / 201 := by nlinarith
    nlinarith
  have hy2 : y ≤ 1 / 100 := by nlinarith
  have h3 : u * exp y = 1 := by
    rw [hu, hy, ← exp_add, ← exp_zero]
    congr 1
    ring
  have h4 : exp y ≤ 1 + y + y ^ 2 := by
    have := (abs_le.1 (abs_exp_sub_one_sub_id_le (x := y) (by rw [abs_of_nonneg hy0]; linarith))).2
    linarith
  have h5 : exp (-(4 * l ^ 2)) ≤ 1 - 4 * l ^ 2 + (4 * l ^ 2) ^ 2 := by
    have hx : |-(4 * l ^ 2)| ≤ 1 := by
      rw [abs_neg, abs_of_nonneg (by positivity)]
      nlinarith
    have := (abs_le.1 (abs_exp_sub_one_sub_id_le hx)).2
    nlinarith
  have h6 : 1 - u ≤ u * (y + y ^ 2) := by nlinarith
  have h7 : 0 ≤ 1 - u := by
    have : u ≤ 1 := by
      rw [hu]
      apply exp_le_one_iff.2
      nlinarith [sq_nonneg l]
    linarith
  have h8 : (1 - u) ^ 2 ≤ (u * (y + y ^ 2)) ^ 2 := pow_le_pow_left₀ h7 h6 2
  have h9 : (y + y ^ 2) ^ 2 ≤ 4 * l ^ 2 - (4 * l ^ 2) ^ 2 := by
    have h10 : y + y ^ 2 ≤ 2 * l * (99 / 100) := by nlinarith
    have h11 : (y + y ^ 2) ^ 2 ≤ (2 * l * (99 / 100)) ^ 2 := pow_le_pow_left₀ (by positivity) h10 2
    have h12 : 4 * l ^ 2 ≤ 1 / 100 := by nlinarith
    nlinarith [sq_nonneg l]
  have h13 : 1 + u ^ 2 * exp (-(4 * l ^ 2)) ≤ 2 * u := by
    have h14 : u ^ 2 * exp (-(4 * l ^ 2)) ≤ u ^ 2 * (1 - 4 * l ^ 2 + (4 * l ^ 2) ^ 2) := by gcongr
    have h15 : u ^ 2 * (y + y ^ 2) ^ 2 ≤ u ^ 2 * (4 * l ^ 2 - (4 * l ^ 2) ^ 2) := by gcongr
    nlinarith
  have := term_pos l n
  nlinarith

/-- For tiny arguments the truncated sum is at least one. -/
theorem half_small {l : ℝ} (hl : 0 ≤ l) (hl2 : l ≤ 1 / 201) : 1 ≤ 2 * half l 99 := by
  have he : 2 * half l 99 = term l 1 + ∑ j ∈ range (2 * 49 + 1), (-1) ^ j * (term l (j + 1) - term l (j + 2)) := by
    have h1 : 2 * half l 99 = ∑ j ∈ range 99, (-1) ^ j * term l (j + 1) + ∑ j ∈ range (99 + 1), (-1) ^ j * term l (j + 1) := by
      rw [sum_range_succ _ 99]
      unfold half
      ring
    rw [h1, sum_succ_alt (fun j => term l (j + 1)) 99]
    simp only [mul_sub, sum_sub_distrib, zero_add, show ∀ j, j + 1 + 1 = j + 2 from fun j => rfl]
    ring
  have h2 := sum_odd_mono (fun j => term l (j + 1) - term l (j + 2)) 49 (fun j hj => by
    have := term_concave hl hl2 (j + 1) (by omega)
    simp only [show j + 1 + 1 = j + 2 from rfl, show j + 1 + 2 = j + 3 from rfl] at this ⊢
    linarith)
  rw [he]
  simp only [zero_add] at h2
  have h3 : 2 * term l 1 - term l 2 ≤ term l 1 + ∑ j ∈ range (2 * 49 + 1), (-1) ^ j * (term l (j + 1) - term l (j + 2)) := by linarith
  refine le_trans ?_ h3
  have h4 : term l 2 = term l 1 ^ 4 := by
    unfold term
    rw [← exp_nat_mul]
    congr 1
    push_cast
    ring
  have h5 : 99 / 100 ≤ term l 1 := by
    unfold term
    have := add_one_le_exp (-2 * l ^ 2 * ((1 : ℕ) : ℝ) ^ 2)
    push_cast at this ⊢
    have h51 : l ^ 2 ≤ (1 / 201) ^ 2 := pow_le_pow_left₀ hl hl2 2
    norm_num at this h51 ⊢
    linarith
  have h6 : term l 1 ≤ 1 := by
    have := term_antitone l (show 0 ≤ 1 by omega)
    rwa [term_zero] at this
  rw [h4]
  set q := term l 1
  nlinarith [mul_nonneg (sub_nonneg.2 h6) (show 0 ≤ q ^ 3 + q ^ 2 + q - 1 by nlinarith)]

/-! ### Size of the second form -/

theorem odd_sum_lower {c : ℝ} (hc : 0 < c) : exp (-c) ≤ ∑' k : ℕ, exp (-c * ((2 * k + 1 : ℕ) : ℝ) ^ 2) := by
  have hs : Summable fun k : ℕ => exp (-c * ((2 * k + 1 : ℕ) : ℝ) ^ 2) :=
    (theta_summable hc).comp_injective (i := fun k : ℕ => 2 * k + 1) (fun a b h => by simpa using h)
  have := hs.le_tsum 0 (fun k _ => (exp_pos _).le)
  simpa using this

theorem odd_sum_upper {c : ℝ} (hc : 1 ≤ c) : ∑' k : ℕ, exp (-c * ((2 * k + 1 : ℕ) : ℝ) ^ 2) ≤ exp (-c) * (100 / 99) := by
  have hc0 : 0 < c := by linarith
  have hs : Summable fun k : ℕ => exp (-c * ((2 * k + 1 : ℕ) : ℝ) ^ 2) :=
    (theta_summable hc0).comp_injective (i := fun k : ℕ => 2 * k + 1) (fun a b h => by simpa using h)
  have hq : exp (-8 * c) ≤ 1 / 100 := by
    have h1 : exp (-8 * c) ≤ exp (-5) := exp_le_exp.2 (by linarith)
    have h2 : exp (-5) = (exp 1 ^ 5)⁻¹ := by rw [← exp_nat_mul, ← exp_neg]; norm_num
    have h3 : (2.7 : ℝ) ^ 5 ≤ exp 1 ^ 5 := pow_le_pow_left₀ (by norm_num) (by linarith [exp_one_gt_d9]) 5
    have h4 : (exp 1 ^ 5)⁻¹ ≤ ((2.7 : ℝ) ^ 5)⁻¹ := inv_anti₀ (by norm_num) h3
    have h5 : ((2.7 : ℝ) ^ 5)⁻¹ ≤ 1 / 100 := by norm_num
    linarith
  have hg : HasSum (fun k : ℕ => exp (-c) * exp (-8 * c) ^ k) (exp (-c) * (1 - exp (-8 * c))⁻¹) :=
    (hasSum_geometric_of_lt_one (exp_pos _).le (by linarith)).mul_left _
  refine (hs.tsum_le_tsum (fun k => ?_) hg.summable).trans ?_
  · rw [← exp_nat_mul, ← exp_add]
    apply exp_le_exp.2
    push_cast
    have h0 : (0 : ℝ) ≤ k := by positivity
    have h1 : (k : ℝ) ≤ (k : ℝ) ^ 2 := by
      rcases k with _ | k
      · simp
      · have : (1 : ℝ) ≤ ((k + 1 : ℕ) : ℝ) := by exact_mod_cast Nat.succ_le_succ (Nat.zero_le k)
        nlinarith
    nlinarith
  · rw [hg.tsum_eq]
    have : (1 - exp (-8 * c))⁻¹ ≤ 100 / 99 := by
      rw [show (100 / 99 : ℝ) = (99 / 100)⁻¹ by norm_num]
      exact inv_anti₀ (by norm_num) (by linarith)
    gcongr

theorem sqrt_two_pi : 25 / 10 ≤ sqrt (2 * π) ∧ sqrt (2 * π) ≤ 2507 / 1000 := by
  constructor
  · apply le_sqrt_of_sq_le
    nlinarith [pi_gt_d4]
  · rw [sqrt_le_left (by norm_num)]
    nlinarith [pi_lt_d4]

theorem exp_ge (n : ℕ) (x : ℝ) (hx : 0 ≤ x) : (271828 / 100000 : ℝ) ^ n * (1 + x + x ^ 2 / 2) ≤ exp (n + x) := by
  rw [exp_add]
  have h1 : (271828 / 100000 : ℝ) ^ n ≤ exp n := by
    rw [← mul_one (n : ℝ), exp_nat_mul]
    exact pow_le_pow_left₀ (by norm_num) (by linarith [exp_one_gt_d9]) n
  have h2 := quadratic_le_exp_of_nonneg hx
  have : 0 ≤ 1 + x + x ^ 2 / 2 := by positivity
  gcongr

theorem exp_le (n : ℕ) (x : ℝ) (hx : 0 ≤ x) (hx1 : x ≤ 1) :
    exp (n + x) ≤ (271829 / 100000 : ℝ) ^ n * (1 + x + x ^ 2 / 2 + x ^ 3 / 6 + x ^ 4 * (5 / 96)) := by
  rw [exp_add]
  have h1 : exp n ≤ (271829 / 100000 : ℝ) ^ n := by
    rw [← mul_one (n : ℝ), exp_nat_mul]
    exact pow_le_pow_left₀ (exp_pos _).le (by linarith [exp_one_lt_d9]) n
  have h2 := exp_bound' hx hx1 (n := 4) (by norm_num)
  simp only [sum_range_succ, range_zero, sum_empty, Nat.factorial] at h2
  norm_num at h2
  have h3 : exp x ≤ 1 + x + x ^ 2 / 2 + x ^ 3 / 6 + x ^ 4 * (5 / 96) := by linarith
  have : 0 ≤ exp x := (exp_pos _).le
  gcongr

end TFR.KolmogorovSeries
