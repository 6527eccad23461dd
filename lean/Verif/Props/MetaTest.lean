import Verif.Props.SearchScore
import Verif.Props.Kolmogorov
import Verif.Lemmas.KolmogorovSeries
/-
C113: the meta analysis. What its p-value is, and which sets of p-values it rejects.
-/
namespace TFR
open Real Finset

/-- Kolmogorov's limit law: the probability that it exceeds `l` is `2 ∑_{k≥1} (-1)^(k-1) exp(-2 k² l²)`. -/
noncomputable def Spec.kolmogorovTail (l : ℝ) : ℝ := 2 * ∑' k : ℕ, (-1 : ℝ) ^ k * exp (-2 * l ^ 2 * ((k + 1 : ℕ) : ℝ) ^ 2)

/-- Stephens' argument for a distance `D` between the empirical and the uniform law of `n` samples: `D (√n + 0.12 + 0.11/√n)`. -/
noncomputable def Spec.ksArgument (D : ℝ) (n : ℕ) : ℝ := D * (sqrt n + 12 / 100 + 11 / 100 / sqrt n)

namespace MetaTest
open KolmogorovSeries

theorem tail_eq (l : ℝ) : Spec.kolmogorovTail l = Q l := rfl

theorem foldl_add (f : ℕ → ℝ) (n : ℕ) (a : ℝ) : (List.range n).foldl (fun r j => r + f j) a = a + ∑ j ∈ range n, f j := by
  induction n with
  | zero => simp
  | succ n ih => rw [List.range_succ, List.foldl_append, ih, sum_range_succ]; simp [add_assoc]

theorem sign_eq (j : ℕ) : (if (j + 1) % 2 = 1 then (1 : ℝ) else -1) = (-1) ^ j := by
  rcases Nat.even_or_odd j with h | h
  · rw [h.neg_one_pow, if_pos]
    have := Nat.even_iff.1 h
    omega
  · rw [h.neg_one_pow, if_neg]
    have := Nat.odd_iff.1 h
    omega

/-- The loop computes the truncated series. -/
theorem cdf_eq (D : ℝ) (n : ℕ) : kolmogorovSmirnovCdf D n 100 = clamp01 (2 * half (Spec.ksArgument D n) 99) := by
  unfold kolmogorovSmirnovCdf Spec.ksArgument
  dsimp only
  set l := D * (sqrt n + 12 / 100 + 11 / 100 / sqrt n) with hl
  have hx : ∀ j : ℕ, (if (j + 1) % 2 = 1 then (1 : ℝ) else -1) * exp (-2 * (l * l) * ((j + 1 : ℕ) : ℝ) * ((j + 1 : ℕ) : ℝ)) =
      (-1) ^ j * term l (j + 1) := by
    intro j
    rw [sign_eq, term]
    congr 2
    ring
  simp only [hx]
  have hf : (fun (res : ℝ) (j : ℕ) => if j + 1 = 100 then res + 1 / 2 * ((-1) ^ j * term l (j + 1)) else res + (-1) ^ j * term l (j + 1)) =
      fun res j => res + (if j + 1 = 100 then 1 / 2 * ((-1) ^ j * term l (j + 1)) else (-1) ^ j * term l (j + 1)) := by
    funext res j
    split <;> rfl
  rw [hf, foldl_add, sum_range_succ, zero_add]
  have hsum : ∑ j ∈ range 99, (if j + 1 = 100 then 1 / 2 * ((-1) ^ j * term l (j + 1)) else (-1) ^ j * term l (j + 1)) =
      ∑ j ∈ range 99, (-1) ^ j * term l (j + 1) := by
    apply sum_congr rfl
    intro j hj
    rw [if_neg]
    have := mem_range.1 hj
    omega
  rw [hsum, if_pos rfl]
  rfl

theorem clamp01_of_mem {x : ℝ} (h0 : 0 ≤ x) (h1 : x ≤ 1) : clamp01 x = x := by
  unfold clamp01
  rw [if_neg (not_lt.2 h0), if_neg (not_lt.2 h1)]

theorem clamp01_of_ge {x : ℝ} (h1 : 1 ≤ x) : clamp01 x = 1 := by
  unfold clamp01
  rw [if_neg (not_lt.2 (by linarith))]
  split
  · rfl
  · linarith

theorem clamp01_min {x : ℝ} (h0 : 0 ≤ x) : clamp01 x = min x 1 := by
  rcases le_total x 1 with h | h
  · rw [clamp01_of_mem h0 h, min_eq_left h]
  · rw [clamp01_of_ge h, min_eq_right h]

theorem half_nonneg (l : ℝ) : 0 ≤ half l 99 := by
  have := (half_bounds l 98).1
  have h2 := term_antitone l (show 1 ≤ 2 by omega)
  norm_num at this
  linarith

theorem pvalue_eq (D : ℝ) (n : ℕ) : kolmogorovSmirnovCdf D n 100 = min (2 * half (Spec.ksArgument D n) 99) 1 := by
  rw [cdf_eq, clamp01_min (by have := half_nonneg (Spec.ksArgument D n); linarith)]

theorem Q_le_one {l : ℝ} (hl : 0 < l) : Q l ≤ 1 := by
  have h := Q_theta hl
  have : 0 ≤ sqrt (2 * π) / l * ∑' k : ℕ, exp (-(π ^ 2 / (8 * l ^ 2)) * ((2 * k + 1 : ℕ) : ℝ) ^ 2) :=
    mul_nonneg (by positivity) (tsum_nonneg fun k => (exp_pos _).le)
  linarith

theorem Q_nonneg {l : ℝ} (hl : 0 < l) : 0 ≤ Q l := by
  have hs : Summable fun k => term l (k + 1) := (summable_nat_add_iff 1).2 (term_summable hl)
  have := (alt_bounds hs (fun a b h => term_antitone l (by omega)) fun k => (term_pos _ _).le).1
  unfold Q
  linarith

end MetaTest
open MetaTest KolmogorovSeries

/-- C113. Kolmogorov's law in its second form, good near zero. -/
theorem C113_two_forms (l : ℝ) (hl : 0 < l) :
    0 ≤ Spec.kolmogorovTail l ∧ Spec.kolmogorovTail l ≤ 1 ∧
    Spec.kolmogorovTail l = 1 - sqrt (2 * π) / l * ∑' k : ℕ, exp (-(π ^ 2 / (8 * l ^ 2)) * ((2 * k + 1 : ℕ) : ℝ) ^ 2) := by
  rw [tail_eq]
  exact ⟨Q_nonneg hl, Q_le_one hl, by linarith [Q_theta hl]⟩

/-- C113. The computed p-value is the tail of Kolmogorov's law at Stephens' argument: within `exp(-20000 l²)` (so to 10⁻⁸⁰ as soon as
`l ≥ 1/10`), never below it for `l ≥ 1/201`. -/
theorem C113_accuracy (D : ℝ) (n : ℕ) (l : ℝ) (hl : l = Spec.ksArgument D n) (h0 : 0 < l) :
    |kolmogorovSmirnovCdf D n 100 - Spec.kolmogorovTail l| ≤ exp (-20000 * l ^ 2) ∧
    (1 / 201 ≤ l → Spec.kolmogorovTail l ≤ kolmogorovSmirnovCdf D n 100) ∧
    (l ≤ 1 / 201 → kolmogorovSmirnovCdf D n 100 = 1) ∧
    (1 / 10 ≤ l → |kolmogorovSmirnovCdf D n 100 - Spec.kolmogorovTail l| ≤ 1 / 10 ^ 80) := by
  rw [tail_eq, pvalue_eq, ← hl]
  have hacc := half_accuracy h0
  have ht : term l 100 = exp (-20000 * l ^ 2) := by unfold term; congr 1; push_cast; ring
  rw [ht] at hacc
  have h1 := Q_le_one h0
  have hA : |min (2 * half l 99) 1 - Q l| ≤ exp (-20000 * l ^ 2) := by
    rw [abs_le] at hacc ⊢
    rcases le_total (2 * half l 99) 1 with h | h
    · rw [min_eq_left h]; exact hacc
    · rw [min_eq_right h]
      constructor
      · linarith [exp_pos (-20000 * l ^ 2)]
      · linarith [hacc.2]
  refine ⟨hA, fun h => le_min (half_ge h) h1, fun h => min_eq_right (half_small h0.le h), fun h => hA.trans ?_⟩
  have h3 : exp (-20000 * l ^ 2) ≤ exp (-200) := by
    apply exp_le_exp.2
    nlinarith
  refine h3.trans ?_
  have h4 : exp (-200) = (exp 1 ^ 200)⁻¹ := by rw [← exp_nat_mul, ← exp_neg]; norm_num
  rw [h4, one_div]
  apply inv_anti₀ (by positivity)
  have h5 : (2.7 : ℝ) ^ 200 ≤ exp 1 ^ 200 := pow_le_pow_left₀ (by norm_num) (by linarith [exp_one_gt_d9]) 200
  refine le_trans ?_ h5
  norm_num

/-- C113. The p-value lies between the first one and the first two terms of the series. -/
theorem C113_bracket (D : ℝ) (n : ℕ) (l : ℝ) (hl : l = Spec.ksArgument D n) :
    min 1 (2 * exp (-2 * l ^ 2) - 2 * exp (-8 * l ^ 2)) ≤ kolmogorovSmirnovCdf D n 100 ∧
    kolmogorovSmirnovCdf D n 100 ≤ 2 * exp (-2 * l ^ 2) := by
  have h1 : term l 1 = exp (-2 * l ^ 2) := by unfold term; congr 1; push_cast; ring
  have h2 : term l 2 = exp (-8 * l ^ 2) := by unfold term; congr 1; push_cast; ring
  have h := half_bounds l 98
  norm_num at h
  rw [h1, h2] at h
  rw [pvalue_eq, ← hl]
  refine ⟨?_, (min_le_left _ _).trans (by linarith)⟩
  rw [min_comm (2 * _)]
  exact min_le_min le_rfl (by linarith)

namespace MetaTest

/-- Near zero the tail of Kolmogorov's law is one up to 10⁻⁹. -/
theorem near_one {l : ℝ} (h0 : 0 < l) (h1 : l ≤ 23 / 100) : 1 - Q l ≤ 1 / 10 ^ 9 := by
  rw [Q_theta h0]
  set c := π ^ 2 / (8 * l ^ 2) with hc
  have hpi : 98695 / 10000 ≤ π ^ 2 := by nlinarith [pi_gt_d6]
  have hl2 : 0 < 8 * l ^ 2 := by positivity
  have hcl : c * (8 * l ^ 2) = π ^ 2 := by rw [hc]; field_simp
  have hc23 : 2332 / 100 ≤ c := by
    rw [hc, le_div_iff₀ hl2]
    nlinarith
  have hc0 : 0 < c := by linarith
  have hS := odd_sum_upper (c := c) (by linarith)
  have hs := sqrt_two_pi.2
  have hle : sqrt (2 * π) / l * ∑' k : ℕ, exp (-c * ((2 * k + 1 : ℕ) : ℝ) ^ 2) ≤ 2507 / 1000 / l * (exp (-c) * (100 / 99)) := by
    gcongr
  refine hle.trans ?_
  rw [exp_neg]
  have hE := exp_pos c
  rcases le_total (1 / 5) l with h2 | h2
  · have hexp := exp_ge 23 (32 / 100) (by norm_num)
    have : exp (((23 : ℕ) : ℝ) + 32 / 100) ≤ exp c := exp_le_exp.2 (by push_cast; linarith)
    have hb : (13 * 10 ^ 9 : ℝ) ≤ exp c := by
      refine le_trans ?_ (hexp.trans this)
      norm_num
    have h3 : 2507 / 1000 / l ≤ 2507 / 200 := by
      rw [div_le_iff₀ h0]; linarith
    have h4 : (exp c)⁻¹ ≤ (13 * 10 ^ 9)⁻¹ := inv_anti₀ (by norm_num) hb
    calc 2507 / 1000 / l * ((exp c)⁻¹ * (100 / 99)) ≤ 2507 / 200 * ((13 * 10 ^ 9)⁻¹ * (100 / 99)) := by gcongr
      _ ≤ 1 / 10 ^ 9 := by norm_num
  · have hc30 : 308 / 10 ≤ c := by
      rw [hc, le_div_iff₀ hl2]
      nlinarith
    have h3 : 1 / l ≤ c / 6 := by
      rw [div_le_iff₀ h0]
      have : c * l ^ 2 = π ^ 2 / 8 := by linarith
      -- c l = π²/(8 l) ≥ π²/8 * 5
      have h5 : c * l * l = π ^ 2 / 8 := by rw [← this]; ring
      have h6 : 0 < c * l := by positivity
      nlinarith
    have hexp : (10 ^ 11 : ℝ) * c ≤ exp c := by
      have h5 : exp c = exp (29 : ℕ) * exp (c - 29) := by rw [← exp_add]; congr 1; push_cast; ring
      have h6 := add_one_le_exp (c - 29)
      have h7 := exp_ge 29 0 le_rfl
      have h8 : (25 * 10 ^ 11 : ℝ) ≤ exp (29 : ℕ) := by
        rw [← add_zero ((29 : ℕ) : ℝ)]
        refine le_trans ?_ h7
        norm_num
      rw [h5]
      calc (10 ^ 11 : ℝ) * c ≤ 25 * 10 ^ 11 * (c - 28) := by linarith
        _ ≤ exp (29 : ℕ) * exp (c - 29) := by
          apply mul_le_mul h8 (by linarith) (by linarith) (exp_pos _).le
    have h4 : (exp c)⁻¹ ≤ (10 ^ 11 * c)⁻¹ := inv_anti₀ (by positivity) hexp
    calc 2507 / 1000 / l * ((exp c)⁻¹ * (100 / 99)) = 2507 / 1000 * (1 / l) * ((exp c)⁻¹ * (100 / 99)) := by ring
      _ ≤ 2507 / 1000 * (c / 6) * ((10 ^ 11 * c)⁻¹ * (100 / 99)) := by gcongr
      _ = 2507 / 1000 / 6 * (100 / 99) / 10 ^ 11 := by field_simp
      _ ≤ 1 / 10 ^ 9 := by norm_num

/-- Away from zero it is not. -/
theorem not_near_one {l : ℝ} (h0 : 235 / 1000 ≤ l) (h1 : l ≤ 3 / 5) : 11 / 10 ^ 10 ≤ 1 - Q l := by
  have hl : 0 < l := by linarith
  rw [Q_theta hl]
  set c := π ^ 2 / (8 * l ^ 2) with hc
  have hpi : π ^ 2 ≤ 98697 / 10000 := by nlinarith [pi_lt_d4, pi_pos]
  have hl2 : 0 < 8 * l ^ 2 := by positivity
  have hc0 : 0 < c := by positivity
  have hS := odd_sum_lower (c := c) hc0
  have hs := sqrt_two_pi.1
  have hle : 25 / 10 / l * exp (-c) ≤ sqrt (2 * π) / l * ∑' k : ℕ, exp (-c * ((2 * k + 1 : ℕ) : ℝ) ^ 2) := by
    gcongr
  refine le_trans ?_ hle
  rw [exp_neg]
  rcases le_total l (3 / 10) with h2 | h2
  · have hc22 : c ≤ 22 + 34 / 100 := by
      rw [hc, div_le_iff₀ hl2]
      nlinarith
    have hexp := exp_le 22 (34 / 100) (by norm_num) (by norm_num)
    have hb : exp c ≤ 51 * 10 ^ 8 := by
      refine (exp_le_exp.2 (by push_cast; linarith : c ≤ ((22 : ℕ) : ℝ) + 34 / 100)).trans (hexp.trans ?_)
      norm_num
    have h3 : 25 / 3 ≤ 25 / 10 / l := by
      rw [le_div_iff₀ hl]; linarith
    have h4 : (51 * 10 ^ 8)⁻¹ ≤ (exp c)⁻¹ := inv_anti₀ (exp_pos _) hb
    calc (11 / 10 ^ 10 : ℝ) ≤ 25 / 3 * (51 * 10 ^ 8)⁻¹ := by norm_num
      _ ≤ _ := by gcongr
  · have hc22 : c ≤ 14 := by
      rw [hc, div_le_iff₀ hl2]
      nlinarith
    have hexp := exp_le 14 0 (by norm_num) (by norm_num)
    have hb : exp c ≤ 10 ^ 7 := by
      refine (exp_le_exp.2 (by push_cast; linarith : c ≤ ((14 : ℕ) : ℝ) + 0)).trans (hexp.trans ?_)
      norm_num
    have h3 : 4 ≤ 25 / 10 / l := by
      rw [le_div_iff₀ hl]; linarith
    have h4 : (10 ^ 7)⁻¹ ≤ (exp c)⁻¹ := inv_anti₀ (exp_pos _) hb
    calc (11 / 10 ^ 10 : ℝ) ≤ 4 * (10 ^ 7)⁻¹ := by norm_num
      _ ≤ _ := by gcongr

theorem pValue_low (D : ℝ) (n : ℕ) (h : 328 / 100 ≤ Spec.ksArgument D n) : kolmogorovSmirnovCdf D n 100 ≤ 1 / 10 ^ 9 := by
  refine (C113_bracket D n _ rfl).2.trans ?_
  set l := Spec.ksArgument D n
  have h1 : exp (-2 * l ^ 2) ≤ exp (-(((21 : ℕ) : ℝ) + 5168 / 10000)) := exp_le_exp.2 (by push_cast; nlinarith)
  rw [exp_neg] at h1
  have h2 := exp_ge 21 (5168 / 10000) (by norm_num)
  have h3 : (2 * 10 ^ 9 : ℝ) ≤ exp (((21 : ℕ) : ℝ) + 5168 / 10000) := by
    refine le_trans ?_ h2
    norm_num
  have h4 := inv_anti₀ (by norm_num) h3
  have h5 : (2 * (2 * 10 ^ 9)⁻¹ : ℝ) = 1 / 10 ^ 9 := by norm_num
  linarith

theorem pValue_not_low (D : ℝ) (n : ℕ) (h0 : 235 / 1000 ≤ Spec.ksArgument D n) (h : Spec.ksArgument D n ≤ 327 / 100) :
    1 / 10 ^ 9 < kolmogorovSmirnovCdf D n 100 := by
  refine lt_of_lt_of_le ?_ (C113_bracket D n _ rfl).1
  set l := Spec.ksArgument D n
  refine lt_min (by norm_num) ?_
  have h8 : exp (-8 * l ^ 2) = exp (-2 * l ^ 2) ^ 4 := by rw [← exp_nat_mul]; congr 1; push_cast; ring
  rw [h8]
  set q := exp (-2 * l ^ 2) with hq
  have hq0 : 0 < q := exp_pos _
  rcases le_total 1 l with h1 | h1
  · have ha : exp (-(((21 : ℕ) : ℝ) + 3858 / 10000)) ≤ q := exp_le_exp.2 (by push_cast; nlinarith)
    rw [exp_neg] at ha
    have h2 := exp_le 21 (3858 / 10000) (by norm_num) (by norm_num)
    have h3 : exp (((21 : ℕ) : ℝ) + 3858 / 10000) ≤ 195 * 10 ^ 7 := by
      refine h2.trans ?_
      norm_num
    have h4 := inv_anti₀ (exp_pos _) h3
    have h5 : q ≤ 1 / 7 := by
      have hb : q ≤ exp (-((2 : ℕ) + 0 : ℝ)) := exp_le_exp.2 (by push_cast; nlinarith)
      rw [exp_neg] at hb
      have := exp_ge 2 0 le_rfl
      have h6 : (7 : ℝ) ≤ exp ((2 : ℕ) + 0 : ℝ) := le_trans (by norm_num) this
      have := inv_anti₀ (by norm_num) h6
      rw [one_div]
      linarith
    have h7 : q ^ 3 ≤ (1 / 7) ^ 3 := pow_le_pow_left₀ hq0.le h5 3
    have h9 : q * (1 - (1 / 7) ^ 3) ≤ q - q ^ 4 := by nlinarith
    have h10 : (195 * 10 ^ 7)⁻¹ ≤ q := h4.trans ha
    have : (1 / 10 ^ 9 : ℝ) < 2 * ((195 * 10 ^ 7)⁻¹ * (1 - (1 / 7) ^ 3)) := by norm_num
    nlinarith
  · have h5 : q ≤ 92 / 100 := by
      have hb : q ≤ exp (-(11 / 100)) := exp_le_exp.2 (by nlinarith)
      rw [exp_neg] at hb
      have h6 := add_one_le_exp (11 / 100 : ℝ)
      have := inv_anti₀ (by norm_num) h6
      refine hb.trans (this.trans ?_)
      norm_num
    have ha : exp (-((2 : ℕ) + 0 : ℝ)) ≤ q := exp_le_exp.2 (by push_cast; nlinarith)
    rw [exp_neg] at ha
    have h2 := exp_le 2 0 le_rfl (by norm_num)
    have h3 : exp ((2 : ℕ) + 0 : ℝ) ≤ 8 := h2.trans (by norm_num)
    have h4 := inv_anti₀ (exp_pos _) h3
    have h7 : q ^ 3 ≤ (92 / 100) ^ 3 := pow_le_pow_left₀ hq0.le h5 3
    have h9 : q * (1 - (92 / 100) ^ 3) ≤ q - q ^ 4 := by nlinarith
    have h10 : (8 : ℝ)⁻¹ ≤ q := h4.trans ha
    norm_num at h9 h10 ⊢
    nlinarith

theorem pValue_high (D : ℝ) (n : ℕ) (h0 : 0 ≤ Spec.ksArgument D n) (h : Spec.ksArgument D n ≤ 23 / 100) :
    1 - kolmogorovSmirnovCdf D n 100 ≤ 1 / 10 ^ 9 := by
  rcases le_total (Spec.ksArgument D n) (1 / 201) with h1 | h1
  · rw [pvalue_eq, min_eq_right (half_small h0 h1)]
    norm_num
  · have hl : 0 < Spec.ksArgument D n := by linarith [show (0 : ℝ) < 1 / 201 by norm_num]
    have h2 := (C113_accuracy D n _ rfl hl).2.1 h1
    rw [tail_eq] at h2
    have := near_one hl h
    linarith

theorem pValue_not_high (D : ℝ) (n : ℕ) (h0 : 235 / 1000 ≤ Spec.ksArgument D n) :
    1 / 10 ^ 9 < 1 - kolmogorovSmirnovCdf D n 100 := by
  have hl : 0 < Spec.ksArgument D n := by linarith
  rcases le_total (Spec.ksArgument D n) (3 / 5) with h1 | h1
  · have h2 := (C113_accuracy D n _ rfl hl).2.2.2 (by linarith)
    rw [tail_eq] at h2
    have h3 := not_near_one h0 h1
    have h4 := (abs_le.1 h2).2
    have : (1 / 10 ^ 80 : ℝ) < 1 / 10 ^ 10 := by norm_num
    linarith
  · have h2 := (C113_bracket D n _ rfl).2
    set l := Spec.ksArgument D n
    have hb : exp (-2 * l ^ 2) ≤ exp (-(72 / 100)) := exp_le_exp.2 (by nlinarith)
    rw [exp_neg] at hb
    have h6 := quadratic_le_exp_of_nonneg (show (0 : ℝ) ≤ 36 / 100 by norm_num)
    have h7 : (201 / 100 : ℝ) ≤ exp (72 / 100) := by
      rw [show (72 / 100 : ℝ) = 36 / 100 + 36 / 100 by norm_num, exp_add]
      nlinarith
    have := inv_anti₀ (by norm_num) h7
    norm_num at this ⊢
    linarith

end MetaTest

/-- C113. The acceptance region of the meta analysis, in terms of Stephens' argument `l = D (√n + 0.12 + 0.11/√n)`: it fails for
`l ≥ 3.28` (the p-values are far from uniform) and for `l ≤ 0.23` (they are too evenly spread), and passes for `0.235 ≤ l ≤ 3.27`. -/
theorem C113_accept (data : List ℝ) (l : ℝ) (hl : l = Spec.ksArgument (kolmogorovSmirnovStats data).value data.length) :
    (328 / 100 ≤ l → statPass (kolmogorovSmirnovStats data) = false) ∧
    (0 ≤ l → l ≤ 23 / 100 → statPass (kolmogorovSmirnovStats data) = false) ∧
    (235 / 1000 ≤ l → l ≤ 327 / 100 → statPass (kolmogorovSmirnovStats data) = true) := by
  set D := (kolmogorovSmirnovStats data).value with hD
  have hc : comparableP (kolmogorovSmirnovStats data) =
      min (kolmogorovSmirnovCdf D data.length 100) (1 - kolmogorovSmirnovCdf D data.length 100) := rfl
  have h1 : comparableP (kolmogorovSmirnovStats data) ≤ 1 := by
    rw [hc]
    exact (min_le_left _ _).trans (clamp01_mem _).2
  have hpass := (C66_classes _ h1).1
  have hfail : statPass (kolmogorovSmirnovStats data) = false ↔ comparableP (kolmogorovSmirnovStats data) ≤ 1 / 10 ^ 9 := by
    rw [← Bool.not_eq_true, hpass, not_lt]
  rw [hfail, hpass, hc, hl]
  refine ⟨fun h => (min_le_left _ _).trans (pValue_low _ _ h), fun h0 h => (min_le_right _ _).trans (pValue_high _ _ h0 h),
    fun h0 h => lt_min (pValue_not_low _ _ h0 h) (pValue_not_high _ _ h0)⟩

namespace MetaTest

theorem ks_nonneg (data : List ℝ) (hne : data ≠ []) (h01 : ∀ d ∈ data, 0 ≤ d ∧ d ≤ 1) : 0 ≤ (kolmogorovSmirnovStats data).value :=
  (abs_nonneg _).trans ((C60_ks data hne h01).1.1 ⟨0, le_rfl, zero_le_one, rfl⟩)

/-- The distance is at least half a step of the empirical distribution function. -/
theorem ks_lower (data : List ℝ) (hne : data ≠ []) (h01 : ∀ d ∈ data, 0 ≤ d ∧ d ≤ 1) :
    1 / (2 * (data.length : ℝ)) ≤ (kolmogorovSmirnovStats data).value := by
  have hn : 0 < data.length := List.length_pos_of_ne_nil hne
  have hnR : (1 : ℝ) ≤ data.length := by exact_mod_cast hn
  have hn0 : (0 : ℝ) < data.length := by linarith
  refine le_trans ?_ ((C60_ks data hne h01).1.1 ⟨1 / (2 * (data.length : ℝ)), by positivity, ?_, rfl⟩)
  · unfold Spec.empiricalCdf
    generalize List.countP _ data = k
    rw [le_abs]
    rcases Nat.eq_zero_or_pos k with rfl | hk
    · right; simp
    · left
      have : (1 : ℝ) ≤ k := by exact_mod_cast hk
      rw [le_sub_iff_add_le, ← add_div, div_le_div_iff₀ (by positivity) hn0]
      nlinarith
  · rw [div_le_one (by positivity)]
    linarith

theorem ks_upper (data : List ℝ) (hne : data ≠ []) (h01 : ∀ d ∈ data, 0 ≤ d ∧ d ≤ 1) : (kolmogorovSmirnovStats data).value ≤ 1 := by
  have hn : 0 < data.length := List.length_pos_of_ne_nil hne
  have hn0 : (0 : ℝ) < data.length := by exact_mod_cast hn
  refine (C60_ks data hne h01).1.2 ?_
  rintro y ⟨x, h0, h1, rfl⟩
  have hF0 : 0 ≤ Spec.empiricalCdf data x := by unfold Spec.empiricalCdf; positivity
  have hF1 : Spec.empiricalCdf data x ≤ 1 := by
    unfold Spec.empiricalCdf
    rw [div_le_one hn0]
    exact_mod_cast List.countP_le_length
  rw [abs_le]
  constructor <;> linarith

theorem arg_pos (n : ℕ) (hn : 0 < n) : 1 ≤ sqrt n ∧ sqrt (n : ℝ) ^ 2 = n ∧ 0 < sqrt n + 12 / 100 + 11 / 100 / sqrt n := by
  have h1 : (1 : ℝ) ≤ n := by exact_mod_cast hn
  have hs : 1 ≤ sqrt (n : ℝ) := by rw [← sqrt_one]; exact sqrt_le_sqrt h1
  exact ⟨hs, sq_sqrt (by linarith), by positivity⟩

theorem arg_half {n : ℕ} (hn : 0 < n) : Spec.ksArgument (1 / (2 * (n : ℝ))) n =
    1 / 2 * (1 / sqrt n) + 6 / 100 * (1 / sqrt n) ^ 2 + 55 / 1000 * (1 / sqrt n) ^ 3 := by
  obtain ⟨h1, h2, _⟩ := arg_pos n hn
  unfold Spec.ksArgument
  have : 0 < sqrt (n : ℝ) := by linarith
  rw [← h2]
  rw [sqrt_sq this.le]
  field_simp
  ring

end MetaTest

/-- C113. When some proportion of the p-values is off by `3.28/√n` the meta analysis fails. -/
theorem C113_reject (data : List ℝ) (hne : data ≠ []) (h01 : ∀ d ∈ data, 0 ≤ d ∧ d ≤ 1) (x : ℝ) (hx0 : 0 ≤ x) (hx1 : x ≤ 1)
    (h : 328 / 100 / sqrt data.length ≤ |Spec.empiricalCdf data x - x|) : statPass (kolmogorovSmirnovStats data) = false := by
  refine (C113_accept data _ rfl).1 ?_
  have hD := (C60_ks data hne h01).1.1 ⟨x, hx0, hx1, rfl⟩
  obtain ⟨h1, h2, h3⟩ := arg_pos data.length (List.length_pos_of_ne_nil hne)
  set D := (kolmogorovSmirnovStats data).value
  have hs : 0 < sqrt (data.length : ℝ) := by linarith
  have h4 : 328 / 100 ≤ D * sqrt data.length := by
    have := h.trans hD
    rwa [div_le_iff₀ hs] at this
  have hD0 : 0 ≤ D := (abs_nonneg _).trans hD
  unfold Spec.ksArgument
  have : 0 ≤ D * (12 / 100 + 11 / 100 / sqrt data.length) := by positivity
  nlinarith

/-- C113. At most five p-values: the meta analysis never fails, whatever they are. -/
theorem C113_few (data : List ℝ) (hne : data ≠ []) (h01 : ∀ d ∈ data, 0 ≤ d ∧ d ≤ 1) (hn : data.length ≤ 5) :
    statPass (kolmogorovSmirnovStats data) = true := by
  have hpos := List.length_pos_of_ne_nil hne
  obtain ⟨h1, h2, h3⟩ := arg_pos data.length hpos
  have hl := ks_lower data hne h01
  have hu := ks_upper data hne h01
  have h5 : (data.length : ℝ) ≤ 5 := by exact_mod_cast hn
  refine (C113_accept data _ rfl).2.2 ?_ ?_
  · have : Spec.ksArgument (1 / (2 * (data.length : ℝ))) data.length ≤ Spec.ksArgument (kolmogorovSmirnovStats data).value data.length := by
      unfold Spec.ksArgument
      gcongr
    refine le_trans ?_ this
    rw [arg_half hpos]
    have hs : sqrt (data.length : ℝ) ≤ 2237 / 1000 := by
      rw [sqrt_le_left (by norm_num)]
      norm_num
      linarith
    have ht : (447 / 1000 : ℝ) ≤ 1 / sqrt data.length := by
      rw [le_div_iff₀ (by linarith)]
      nlinarith
    have ht2 : (447 / 1000 : ℝ) ^ 2 ≤ (1 / sqrt data.length) ^ 2 := pow_le_pow_left₀ (by norm_num) ht 2
    have ht3 : (0 : ℝ) ≤ (1 / sqrt data.length) ^ 3 := by positivity
    set t := 1 / sqrt (data.length : ℝ)
    norm_num at ht2
    linarith
  · unfold Spec.ksArgument
    have hs : sqrt (data.length : ℝ) ≤ 3 := by
      rw [sqrt_le_left (by norm_num)]
      norm_num
      linarith
    have : 11 / 100 / sqrt (data.length : ℝ) ≤ 11 / 100 := div_le_self (by norm_num) h1
    have h0 := ks_nonneg data hne h01
    nlinarith

/-- C113. Up to nine p-values it fails only because they are too evenly spread: it passes when some value of the empirical distribution
function is off by `0.24/√n`. -/
theorem C113_few_far (data : List ℝ) (hne : data ≠ []) (h01 : ∀ d ∈ data, 0 ≤ d ∧ d ≤ 1) (hn : data.length ≤ 9) (x : ℝ) (hx0 : 0 ≤ x)
    (hx1 : x ≤ 1) (h : 235 / 1000 / sqrt data.length ≤ |Spec.empiricalCdf data x - x|) : statPass (kolmogorovSmirnovStats data) = true := by
  have hpos := List.length_pos_of_ne_nil hne
  obtain ⟨h1, h2, h3⟩ := arg_pos data.length hpos
  have hD := (C60_ks data hne h01).1.1 ⟨x, hx0, hx1, rfl⟩
  have hu := ks_upper data hne h01
  have h0 := ks_nonneg data hne h01
  have h9 : (data.length : ℝ) ≤ 9 := by exact_mod_cast hn
  refine (C113_accept data _ rfl).2.2 ?_ ?_
  · set D := (kolmogorovSmirnovStats data).value
    have hs : 0 < sqrt (data.length : ℝ) := by linarith
    have h4 : 235 / 1000 ≤ D * sqrt data.length := by
      have := h.trans hD
      rwa [div_le_iff₀ hs] at this
    unfold Spec.ksArgument
    have : 0 ≤ D * (12 / 100 + 11 / 100 / sqrt data.length) := by positivity
    nlinarith
  · unfold Spec.ksArgument
    have hs : sqrt (data.length : ℝ) ≤ 3 := by
      rw [sqrt_le_left (by norm_num)]
      norm_num
      linarith
    have : 11 / 100 / sqrt (data.length : ℝ) ≤ 11 / 100 := div_le_self (by norm_num) h1
    nlinarith

/-- The `n` evenly spaced values `1/(2n), 3/(2n), …, (2n-1)/(2n)`. -/
noncomputable def Spec.midpoints (n : ℕ) : List ℝ := (List.range n).map fun i : ℕ => (2 * (i : ℝ) + 1) / (2 * n)

/-- C113. From six p-values on, perfectly spaced p-values fail the meta analysis. -/
theorem C113_even (n : ℕ) (hn : 6 ≤ n) :
    (kolmogorovSmirnovStats (Spec.midpoints n)).value = 1 / (2 * (n : ℝ)) ∧ statPass (kolmogorovSmirnovStats (Spec.midpoints n)) = false := by
  have hlen : (Spec.midpoints n).length = n := by simp [Spec.midpoints]
  have hpos : 0 < n := by omega
  have hnR : (0 : ℝ) < n := by exact_mod_cast hpos
  have hne : Spec.midpoints n ≠ [] := by
    rw [← List.length_pos_iff_ne_nil, hlen]; exact hpos
  have hget : ∀ i (hi : i < (Spec.midpoints n).length), (Spec.midpoints n)[i] = (2 * (i : ℝ) + 1) / (2 * n) := by
    intro i hi
    simp [Spec.midpoints]
  have h01 : ∀ d ∈ Spec.midpoints n, 0 ≤ d ∧ d ≤ 1 := by
    intro d hd
    obtain ⟨i, hi, rfl⟩ := List.mem_map.1 hd
    have h1 : (i : ℝ) + 1 ≤ n := by exact_mod_cast List.mem_range.1 hi
    exact ⟨by positivity, by rw [div_le_one (by positivity)]; linarith⟩
  have hsort : (Spec.midpoints n).Pairwise (· ≤ ·) := by
    unfold Spec.midpoints
    rw [List.pairwise_map]
    refine List.Pairwise.imp ?_ List.pairwise_lt_range
    intro a b hab
    have : (a : ℝ) ≤ b := by exact_mod_cast hab.le
    gcongr
  have hv : (kolmogorovSmirnovStats (Spec.midpoints n)).value = 1 / (2 * (n : ℝ)) := by
    refine le_antisymm ?_ (by have := ks_lower _ hne h01; rwa [hlen] at this)
    refine (C60_ks _ hne h01).1.2 ?_
    rintro y ⟨x, h0, h1, rfl⟩
    unfold Spec.empiricalCdf
    have hle := ks_sorted_le_iff _ hsort x
    have hk : (Spec.midpoints n).countP (fun d => @decide (d ≤ x) (Classical.propDecidable _)) ≤ n := by
      exact List.countP_le_length.trans hlen.le
    rw [hlen]
    generalize (Spec.midpoints n).countP (fun d => @decide (d ≤ x) (Classical.propDecidable _)) = k at hle hk
    have e : (1 : ℝ) / (2 * n) = 1 / 2 / n := by field_simp
    rw [abs_le, e]
    constructor
    · rcases Nat.lt_or_ge k n with h | h
      · have h2 := hle k (by omega)
        rw [hget k (by omega)] at h2
        have h3 : ¬ ((2 * (k : ℝ) + 1) / (2 * n) ≤ x) := by rw [h2]; omega
        rw [not_le, lt_div_iff₀ (by positivity)] at h3
        rw [neg_le_sub_iff_le_add, ← add_div, le_div_iff₀ hnR]
        linarith
      · have : k = n := by omega
        subst this
        rw [div_self hnR.ne']
        have : (0 : ℝ) ≤ 1 / 2 / k := by positivity
        linarith
    · rcases Nat.eq_zero_or_pos k with rfl | h
      · have : (0 : ℝ) ≤ 1 / 2 / n := by positivity
        simp only [Nat.cast_zero, zero_div]
        linarith
      · have h2 := hle (k - 1) (by omega)
        rw [hget (k - 1) (by omega)] at h2
        have h3 := h2.2 (by omega)
        rw [div_le_iff₀ (by positivity), Nat.cast_sub (by omega), Nat.cast_one] at h3
        rw [sub_le_iff_le_add, div_le_iff₀ hnR, add_mul, div_mul_cancel₀ _ hnR.ne']
        linarith
  refine ⟨hv, (C113_accept _ _ rfl).2.1 ?_ ?_⟩ <;> rw [hv, hlen, arg_half hpos]
  · positivity
  · have h6 : (6 : ℝ) ≤ n := by exact_mod_cast hn
    have hs : 2449 / 1000 ≤ sqrt (n : ℝ) := by
      apply le_sqrt_of_sq_le
      norm_num
      linarith
    have ht : 1 / sqrt (n : ℝ) ≤ 409 / 1000 := by
      rw [div_le_iff₀ (by linarith)]
      linarith
    have ht0 : 0 ≤ 1 / sqrt (n : ℝ) := by positivity
    have ht2 := pow_le_pow_left₀ ht0 ht 2
    have ht3 := pow_le_pow_left₀ ht0 ht 3
    norm_num at ht ht2 ht3 ⊢
    linarith

/-- C113. When all p-values are zero, or all are one, the meta analysis fails exactly from ten p-values on. -/
theorem C113_constant (n : ℕ) (hn : 0 < n) (v : ℝ) (hv : v = 0 ∨ v = 1) :
    (kolmogorovSmirnovStats (List.replicate n v)).value = 1 ∧
    (statPass (kolmogorovSmirnovStats (List.replicate n v)) = false ↔ 10 ≤ n) := by
  have hlen : (List.replicate n v).length = n := List.length_replicate
  have hnR : (0 : ℝ) < n := by exact_mod_cast hn
  have hne : List.replicate n v ≠ [] := by rw [← List.length_pos_iff_ne_nil, hlen]; exact hn
  have h01 : ∀ d ∈ List.replicate n v, 0 ≤ d ∧ d ≤ 1 := by
    intro d hd
    rw [(List.mem_replicate.1 hd).2]
    rcases hv with rfl | rfl <;> norm_num
  have hone : (kolmogorovSmirnovStats (List.replicate n v)).value = 1 := by
    refine le_antisymm (ks_upper _ hne h01) ?_
    have hub := (C60_ks _ hne h01).1.1
    rcases hv with rfl | rfl
    · have := hub ⟨0, le_rfl, zero_le_one, rfl⟩
      unfold Spec.empiricalCdf at this
      rw [List.countP_replicate] at this
      simpa [hnR.ne'] using this
    · apply le_of_forall_lt
      intro x hx
      rcases lt_or_ge x 0 with h0 | h0
      · exact h0.trans_le (ks_nonneg _ hne h01)
      · obtain ⟨y, hy1, hy2⟩ := exists_between hx
        have := hub ⟨y, by linarith, hy2.le, rfl⟩
        unfold Spec.empiricalCdf at this
        rw [List.countP_replicate] at this
        simp only [decide_eq_true_eq, not_le.2 hy2, if_false, Nat.cast_zero, zero_div, zero_sub, abs_neg] at this
        rw [abs_of_nonneg (by linarith)] at this
        linarith
  refine ⟨hone, ?_⟩
  obtain ⟨h1, h2, h3⟩ := arg_pos n hn
  have hacc := C113_accept (List.replicate n v) _ rfl
  rw [hone, hlen] at hacc
  constructor
  · intro hf
    by_contra hlt
    have h9 : (n : ℝ) ≤ 9 := by exact_mod_cast (by omega : n ≤ 9)
    have hs : sqrt (n : ℝ) ≤ 3 := by
      rw [sqrt_le_left (by norm_num)]
      norm_num
      linarith
    have h4 : 11 / 100 / sqrt (n : ℝ) ≤ 11 / 100 := div_le_self (by norm_num) h1
    have h5 : 0 ≤ 11 / 100 / sqrt (n : ℝ) := by positivity
    have := hacc.2.2 (by unfold Spec.ksArgument; linarith) (by unfold Spec.ksArgument; linarith)
    rw [this] at hf
    cases hf
  · intro h10
    refine hacc.1 ?_
    have h10R : (10 : ℝ) ≤ n := by exact_mod_cast h10
    have hs : 3162 / 1000 ≤ sqrt (n : ℝ) := by
      apply le_sqrt_of_sq_le
      norm_num
      linarith
    have h5 : 0 ≤ 11 / 100 / sqrt (n : ℝ) := by positivity
    unfold Spec.ksArgument
    linarith

/-- C113. A battery with at most five results per test passes exactly when every single result does. -/
theorem C113_small_battery (b : Battery ℝ) (hwf : Spec.WellFormed b) (hp : ∀ k, ∀ r ∈ b.get k, 0 ≤ r.stats.pValue ∧ r.stats.pValue ≤ 1)
    (hfew : ∀ k ∈ Spec.keys b, (b.get k).length ≤ 5) :
    Spec.countAtMost b (1 / 10 ^ 9) = 0 ↔ ∀ k ∈ Spec.keys b, ∀ r ∈ b.get k, statPass r.stats = true := by
  have hc1 : ∀ k, ∀ r ∈ b.get k, comparableP r.stats ≤ 1 := by
    intro k r hr
    have := (C66_comparable r.stats.type r.stats.value r.stats.pValue r.stats.df).2.2 (hp k r hr).1 (hp k r hr).2
    exact this.2
  rw [C67_pass_iff]
  constructor
  · intro h k hk r hr
    exact (C66_classes _ (hc1 k r hr)).1.2 ((h k hk).1 r hr)
  · intro h k hk
    refine ⟨fun r hr => (C66_classes _ (hc1 k r hr)).1.1 (h k hk r hr), ?_⟩
    obtain ⟨e, he, rfl⟩ := List.mem_map.1 hk
    have hget := get_of_mem_results hwf he
    have hne : (b.get e.1).map (fun r => r.stats.pValue) ≠ [] := by
      rw [hget]
      simpa using hwf.2 e he
    have h01 : ∀ d ∈ (b.get e.1).map (fun r => r.stats.pValue), 0 ≤ d ∧ d ≤ 1 := by
      intro d hd
      obtain ⟨r, hr, rfl⟩ := List.mem_map.1 hd
      exact hp _ r hr
    have hpass := C113_few _ hne h01 (by rw [List.length_map]; exact hfew _ hk)
    refine (C66_classes _ ?_).1.1 hpass
    exact (min_le_left _ _).trans (C60_ks _ hne h01).2.2.2.2

/-! #### concrete cases -/

-- The two ends of C113_accept are met by C113_even and C113_constant; the middle by any single p-value.
example : statPass (kolmogorovSmirnovStats [1 / 4]) = true :=
  C113_few _ (by simp) (by intro d hd; simp at hd; subst hd; norm_num) (by simp)

example : statPass (kolmogorovSmirnovStats (Spec.midpoints 6)) = false := (C113_even 6 le_rfl).2

-- Twelve p-values, all below 1/100: C113_reject at x = 1/100.
example (data : List ℝ) (hl : data.length = 12) (h : ∀ d ∈ data, 0 ≤ d ∧ d ≤ 1 / 100) : statPass (kolmogorovSmirnovStats data) = false := by
  have hne : data ≠ [] := by
    rw [← List.length_pos_iff_ne_nil, hl]; norm_num
  refine C113_reject data hne (fun d hd => ⟨(h d hd).1, (h d hd).2.trans (by norm_num)⟩) (1 / 100) (by norm_num) (by norm_num) ?_
  have hF : Spec.empiricalCdf data (1 / 100) = 1 := by
    unfold Spec.empiricalCdf
    rw [List.countP_eq_length.2 (by intro d hd; simpa using (h d hd).2), hl]
    norm_num
  rw [hF, hl, abs_of_nonneg (by norm_num), div_le_iff₀ (by positivity)]
  have : (346 / 100 : ℝ) ≤ sqrt ((12 : ℕ) : ℝ) := by
    apply le_sqrt_of_sq_le
    norm_num
  norm_num at this ⊢
  linarith

-- The accuracy statement at one sample with distance 3/4.
example : |kolmogorovSmirnovCdf (3 / 4) (1 : ℕ) 100 - Spec.kolmogorovTail (3 / 4 * (123 / 100))| ≤ 1 / 10 ^ 80 := by
  have : Spec.ksArgument (3 / 4) 1 = 3 / 4 * (123 / 100) := by
    unfold Spec.ksArgument
    norm_num
  refine (C113_accuracy (3 / 4) 1 _ this.symm (by norm_num)).2.2.2 (by norm_num)

end TFR
