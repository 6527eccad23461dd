import Verif.Model.SpecialFunctions
import Verif.Lemmas.Float
import Verif.Props.Gamma
import Mathlib.Analysis.Complex.ExponentialBounds
/-
C114: the incomplete beta function and the tests built on it.
-/
namespace TFR

namespace BetaFn

theorem numerator_cast (a b x : ℚ) (i : ℕ) : ((betaNumerator a b x i : ℚ) : ℝ) = betaNumerator (a : ℝ) b x i := by
  unfold betaNumerator
  dsimp only
  by_cases h0 : i = 0
  · simp [h0]
  · rw [if_neg h0, if_neg h0]
    by_cases h1 : i % 2 = 0
    · rw [if_pos h1, if_pos h1]; push_cast; ring
    · rw [if_neg h1, if_neg h1]; push_cast; ring

theorem tiny_cast (y : ℚ) (e : ℕ) : ((if |y| < 1 / 10 ^ e then 1 / 10 ^ e else y : ℚ) : ℝ) =
    if |(y : ℝ)| < 1 / 10 ^ e then 1 / 10 ^ e else (y : ℝ) := by
  have h : (|(y : ℝ)| < 1 / 10 ^ e) ↔ |y| < 1 / 10 ^ e := by
    rw [← Rat.cast_abs, show (1 / 10 ^ e : ℝ) = ((1 / 10 ^ e : ℚ) : ℝ) by push_cast; rfl]
    exact Rat.cast_lt
  by_cases h1 : |y| < 1 / 10 ^ e
  · rw [if_pos h1, if_pos (h.2 h1)]; push_cast; rfl
  · rw [if_neg h1, if_neg (fun h2 => h1 (h.1 h2))]

/-- The loop over the rationals is the loop over the reals. -/
theorem lentz_cast (a b x : ℚ) (rounds i : ℕ) (f c d : ℚ) :
    betaLentz (a : ℝ) b x rounds i f c d = (betaLentz a b x rounds i f c d).map fun q => (q : ℝ) := by
  induction rounds generalizing i f c d with
  | zero => rfl
  | succ r ih =>
    unfold betaLentz
    dsimp only
    rw [← numerator_cast]
    have hd : (1 : ℝ) + ((betaNumerator a b x i : ℚ) : ℝ) * (d : ℝ) = ((1 + betaNumerator a b x i * d : ℚ) : ℝ) := by push_cast; rfl
    have hc : (1 : ℝ) + ((betaNumerator a b x i : ℚ) : ℝ) / (c : ℝ) = ((1 + betaNumerator a b x i / c : ℚ) : ℝ) := by push_cast; rfl
    rw [hd, hc, ← tiny_cast, ← tiny_cast]
    generalize (if |1 + betaNumerator a b x i * d| < 1 / 10 ^ 30 then 1 / 10 ^ 30 else 1 + betaNumerator a b x i * d) = d'
    generalize (if |1 + betaNumerator a b x i / c| < 1 / 10 ^ 30 then 1 / 10 ^ 30 else 1 + betaNumerator a b x i / c) = c'
    have h1 : (1 : ℝ) / (d' : ℝ) = ((1 / d' : ℚ) : ℝ) := by push_cast; rfl
    have h2 : (c' : ℝ) * ((1 / d' : ℚ) : ℝ) = ((c' * (1 / d') : ℚ) : ℝ) := by push_cast; rfl
    have h3 : (f : ℝ) * ((c' * (1 / d') : ℚ) : ℝ) = ((f * (c' * (1 / d')) : ℚ) : ℝ) := by push_cast; rfl
    rw [h1, h2, h3, ih]
    have h4 : (|(1 : ℝ) - ((c' * (1 / d') : ℚ) : ℝ)| < 1 / 10 ^ 8) ↔ |1 - c' * (1 / d')| < 1 / 10 ^ 8 := by
      have : |(1 : ℝ) - ((c' * (1 / d') : ℚ) : ℝ)| = ((|1 - c' * (1 / d')| : ℚ) : ℝ) := by push_cast; rfl
      rw [this, show (1 / 10 ^ 8 : ℝ) = ((1 / 10 ^ 8 : ℚ) : ℝ) by push_cast; rfl]
      exact Rat.cast_lt
    by_cases h5 : |1 - c' * (1 / d')| < 1 / 10 ^ 8
    · rw [if_pos h5, if_pos (h4.2 h5)]; rfl
    · rw [if_neg h5, if_neg (fun h => h5 (h4.1 h))]

theorem flip_guard {a b x : ℝ} (hab : 0 < a + b + 2) (h : (a + 1) / (a + b + 2) < x) : ¬ (b + 1) / (b + a + 2) < 1 - x := by
  rw [not_lt, le_div_iff₀ (by linarith)]
  rw [div_lt_iff₀ hab] at h
  nlinarith

theorem flip_guard' {a b x : ℝ} (hab : 0 < a + b + 2) (h : x < (a + 1) / (a + b + 2)) : (b + 1) / (b + a + 2) < 1 - x := by
  rw [div_lt_iff₀ (by linarith)]
  rw [lt_div_iff₀ hab] at h
  nlinarith

theorem lentz_succ {K : Type} [Field K] [LinearOrder K] (a b x : K) (r i : ℕ) (f c d : K) :
    betaLentz a b x (r + 1) i f c d =
      let d := 1 / (if |1 + betaNumerator a b x i * d| < 1 / 10 ^ 30 then 1 / 10 ^ 30 else 1 + betaNumerator a b x i * d)
      let c := if |1 + betaNumerator a b x i / c| < 1 / 10 ^ 30 then 1 / 10 ^ 30 else 1 + betaNumerator a b x i / c
      if |1 - c * d| < 1 / 10 ^ 8 then some (f * (c * d)) else betaLentz a b x r (i + 1) (f * (c * d)) c d := rfl

theorem lentz_zero (u v : ℝ) (r : ℕ) : betaLentz u v 0 (r + 2) 0 1 1 0 = some 2 := by
  have e0 : betaNumerator u v 0 0 = 1 := rfl
  have e1 : betaNumerator u v 0 1 = 0 := by unfold betaNumerator; norm_num
  rw [lentz_succ, e0]
  norm_num
  rw [lentz_succ, e1]
  norm_num

end BetaFn
open BetaFn

/-- C114. In exact arithmetic `beta_regularized` always ends: the reflection `I_x(a,b) = 1 - I_(1-x)(b,a)` is used at most once, and
exactly when `x` is above `(a+1)/(a+b+2)`. -/
theorem C114_depth (a b x : ℝ) (hab : 0 < a + b + 2) :
    betaRegularized a b x = some (if x < 0 ∨ 1 < x then ⊤ else if (a + 1) / (a + b + 2) < x then 1 - betaFraction b a (1 - x) else betaFraction a b x) := by
  rw [betaRegularized]
  by_cases h0 : x < 0 ∨ 1 < x
  · rw [if_pos h0, if_pos h0]
  · rw [if_neg h0, if_neg h0]
    by_cases h1 : (a + 1) / (a + b + 2) < x
    · rw [if_pos h1, if_pos h1, betaRegularized, if_neg (by push Not at h0 ⊢; constructor <;> linarith), if_neg (flip_guard hab h1)]
      rfl
    · rw [if_neg h1, if_neg h1]

/-- C114. The two values at reflected arguments add up to one (one of them is minus infinity when the loop does not converge), except
at `x = (a+1)/(a+b+2)`. -/
theorem C114_reflection (a b x : ℝ) (hab : 0 < a + b + 2) (h0 : 0 ≤ x) (h1 : x ≤ 1) (hx : x ≠ (a + 1) / (a + b + 2)) :
    ∃ r s, betaRegularized a b x = some r ∧ betaRegularized b a (1 - x) = some s ∧
      (r + s = 1 ∨ (r = ⊤ ∧ s = ⊥) ∨ (r = ⊥ ∧ s = ⊤)) := by
  have hin : ¬ (x < 0 ∨ 1 < x) := by push Not; exact ⟨h0, h1⟩
  have hin' : ¬ (1 - x < 0 ∨ 1 < 1 - x) := by push Not; constructor <;> linarith
  have hsum : ∀ u v w : ℝ, betaFraction u v w = ⊤ ∨ ∃ y : ℝ, betaFraction u v w = (y : EReal) := by
    intro u v w
    unfold betaFraction
    cases betaLentz u v w 201 0 1 1 0 with
    | none => exact Or.inl rfl
    | some f => exact Or.inr ⟨_, rfl⟩
  have key : ∀ t : EReal, (t = ⊤ ∨ ∃ y : ℝ, t = (y : EReal)) → (1 - t) + t = 1 ∨ (1 - t = ⊥ ∧ t = ⊤) := by
    rintro t (rfl | ⟨y, rfl⟩)
    · right; exact ⟨rfl, rfl⟩
    · left
      have : (1 : EReal) - (y : EReal) + (y : EReal) = ((1 - y + y : ℝ) : EReal) := by push_cast; rfl
      rw [this]
      simp
  refine ⟨_, _, C114_depth a b x hab, C114_depth b a (1 - x) (by linarith), ?_⟩
  rw [if_neg hin, if_neg hin']
  rcases lt_or_gt_of_ne hx with h | h
  · rw [if_neg (not_lt.2 h.le), if_pos (flip_guard' hab h), sub_sub_cancel]
    rcases key _ (hsum a b x) with h2 | h2
    · left; rw [add_comm]; exact h2
    · right; left; exact ⟨h2.2, h2.1⟩
  · rw [if_pos h, if_neg (flip_guard hab h)]
    rcases key _ (hsum b a (1 - x)) with h2 | h2
    · left; exact h2
    · right; right; exact h2

/-- C114. At the ends of the interval the value is exact. -/
theorem C114_ends (a b : ℝ) (ha : 0 < a) (hb : 0 < b) : betaRegularized a b 0 = some 0 ∧ betaRegularized a b 1 = some 1 := by
  have hz : ∀ u v : ℝ, betaFraction u v 0 = 0 := by
    intro u v
    unfold betaFraction
    have : betaLentz u v 0 201 0 1 1 0 = some 2 := lentz_zero u v 199
    rw [this]
    simp [betaFront]
  constructor
  · rw [C114_depth a b 0 (by linarith), if_neg (by norm_num), if_neg (not_lt.2 (by positivity)), hz]
  · rw [C114_depth a b 1 (by linarith), if_neg (by norm_num), if_pos (by rw [div_lt_one (by linarith)]; linarith), sub_self, hz]
    simp

-- Concrete arguments: the hypotheses of C114_reflection hold for a = 1, b = 2, x = 1/3.
example : ∃ r s, betaRegularized 1 2 (1 / 3) = some r ∧ betaRegularized 2 1 (1 - 1 / 3) = some s ∧ (r + s = 1 ∨ (r = ⊤ ∧ s = ⊥) ∨ (r = ⊥ ∧ s = ⊤)) :=
  C114_reflection 1 2 (1 / 3) (by norm_num) (by norm_num) (by norm_num) (by norm_num)

/-! #### in doubles -/

/-- C114. In doubles the recursion of `beta_regularized(2.6, 0.2, 0.75)` never ends: `(a+1)/(a+b+2)` rounds to less than 0.75 and
`(b+1)/(b+a+2)` to less than 0.25. -/
theorem C114_double_endless (calls : ℕ) : betaArgumentsFl calls (Fl.rnd (26 / 10)) (Fl.rnd (2 / 10)) (3 / 4) = none := by
  have h : ∀ c, betaArgumentsFl c (Fl.rnd (26 / 10)) (Fl.rnd (2 / 10)) (3 / 4) = none ∧
      betaArgumentsFl c (Fl.rnd (2 / 10)) (Fl.rnd (26 / 10)) (1 / 4) = none := by
    intro c
    induction c with
    | zero => exact ⟨rfl, rfl⟩
    | succ c ih =>
      unfold betaArgumentsFl
      have h1 : Fl.div (Fl.add (Fl.rnd (26 / 10)) 1) (Fl.add (Fl.add (Fl.rnd (26 / 10)) (Fl.rnd (2 / 10))) 2) < 3 / 4 := by decide +kernel
      have h2 : Fl.div (Fl.add (Fl.rnd (2 / 10)) 1) (Fl.add (Fl.add (Fl.rnd (2 / 10)) (Fl.rnd (26 / 10))) 2) < 1 / 4 := by decide +kernel
      have h3 : Fl.sub 1 (3 / 4) = 1 / 4 := by decide +kernel
      have h4 : Fl.sub 1 (1 / 4) = 3 / 4 := by decide +kernel
      rw [if_pos h1, if_pos h2, h3, h4]
      exact ⟨ih.2, ih.1⟩
  exact (h calls).1

/-- C114. When the sums are exact, it ends after at most one reflection in doubles, too. -/
theorem C114_double_depth (a b x : ℚ) (hpos : 0 < a + b + 2) (ha : Fl.add a 1 = a + 1) (hb : Fl.add b 1 = b + 1)
    (hab : Fl.add (Fl.add a b) 2 = a + b + 2) (hx : Fl.rnd x = x) :
    betaArgumentsFl 2 a b x = some (a, b, x) ∨ betaArgumentsFl 2 a b x = some (b, a, Fl.sub 1 x) := by
  unfold betaArgumentsFl
  by_cases h : Fl.div (Fl.add a 1) (Fl.add (Fl.add a b) 2) < x
  · right
    rw [if_pos h]
    unfold betaArgumentsFl
    rw [if_neg]
    have hba : Fl.add (Fl.add b a) 2 = a + b + 2 := by
      rw [← hab]
      unfold Fl.add
      rw [add_comm b a]
    rw [ha, hab] at h
    rw [hb, hba, not_lt]
    have hq : (a + 1) / (a + b + 2) < x := by
      by_contra hle
      have := Fl.rnd_mono (not_lt.1 hle)
      rw [hx] at this
      exact absurd h (not_lt.2 this)
    apply Fl.rnd_mono
    rw [le_div_iff₀ hpos]
    rw [div_lt_iff₀ hpos] at hq
    nlinarith
  · left
    rw [if_neg h]

/-- C114. So it does for all whole and half-integral parameters below 2^50, hence for every F-test and t-test of samples of that size. -/
theorem C114_double_halves (m k : ℕ) (hm : m < 2 ^ 51) (hk : k < 2 ^ 51) (x : ℚ) (hx : Fl.rnd x = x) :
    betaArgumentsFl 2 (m / 2) (k / 2) x = some ((m : ℚ) / 2, (k : ℚ) / 2, x) ∨
    betaArgumentsFl 2 (m / 2) (k / 2) x = some ((k : ℚ) / 2, (m : ℚ) / 2, Fl.sub 1 x) := by
  have hex : ∀ j : ℕ, j ≤ 2 ^ 53 → Fl.rnd ((j : ℚ) / 2) = (j : ℚ) / 2 := by
    intro j hj
    have := Fl.rnd_exact (m := j) (e := -1) hj
    rw [zpow_neg_one] at this
    rwa [div_eq_mul_inv]
  have h1 : ∀ j : ℕ, j < 2 ^ 51 → Fl.add ((j : ℚ) / 2) 1 = (j : ℚ) / 2 + 1 := by
    intro j hj
    have := hex (j + 2) (by omega)
    unfold Fl.add
    rw [show ((j : ℚ) / 2 + 1) = ((j + 2 : ℕ) : ℚ) / 2 by push_cast; ring]
    exact this
  refine C114_double_depth _ _ x (by positivity) (h1 m hm) (h1 k hk) ?_ hx
  have h2 := hex (m + k) (by omega)
  have h3 := hex (m + k + 4) (by omega)
  unfold Fl.add
  rw [show ((m : ℚ) / 2 + (k : ℚ) / 2) = ((m + k : ℕ) : ℚ) / 2 by push_cast; ring, h2,
    show (((m + k : ℕ) : ℚ) / 2 + 2) = ((m + k + 4 : ℕ) : ℚ) / 2 by push_cast; ring]
  exact h3

example : betaArgumentsFl 2 (9 / 2) (1 / 2) (95 / 128) = some (9 / 2, 1 / 2, 95 / 128) ∧
    betaArgumentsFl 2 (9 / 2) (1 / 2) (1 - 1 / 128) = some (1 / 2, 9 / 2, 1 / 128) := by decide +kernel

/-! #### t-test -/

/-- C114. `student_t_cdf` does not depend on the sign of `t` and is 1 at `t = 0`. -/
theorem C114_student (t df : ℝ) (hdf : 0 < df) : studentTCdf (-t) df = studentTCdf t df ∧ studentTCdf 0 df = some 1 := by
  unfold studentTCdf
  refine ⟨by rw [neg_mul_neg], ?_⟩
  rw [mul_zero, add_zero, div_self hdf.ne']
  exact (C114_ends _ _ (by linarith) (by norm_num)).2

/-- C114. The t-test does not depend on the order of the two samples, and equal means give 1. -/
theorem C114_t_test (aN aMean aVar bN bMean bVar : ℝ) (ha : 1 < aN) (hb : 1 < bN) (_hva : 0 < aVar) (_hvb : 0 < bVar) :
    tTest aN aMean aVar bN bMean bVar = tTest bN bMean bVar aN aMean aVar ∧
    (aMean = bMean → tTest aN aMean aVar bN bMean bVar = some 1) ∧
    ∃ r, tTest aN aMean aVar bN bMean bVar = some r := by
  refine ⟨?_, ?_, ?_⟩
  · unfold tTest
    dsimp only
    rw [show aN + bN - 2 = bN + aN - 2 by ring, show (aN - 1) * aVar + (bN - 1) * bVar = (bN - 1) * bVar + (aN - 1) * aVar by ring,
      show 1 / aN + 1 / bN = 1 / bN + 1 / aN by ring, show (aMean - bMean) = -(bMean - aMean) by ring, neg_div]
    exact (C114_student _ _ (by linarith)).1
  · rintro rfl
    unfold tTest
    dsimp only
    rw [sub_self, zero_div]
    exact (C114_student 0 _ (by linarith)).2
  · unfold tTest studentTCdf
    dsimp only
    exact ⟨_, C114_depth _ _ _ (by linarith)⟩

example : tTest 10 (1 / 2) (1 / 100) 12 (1 / 2) (1 / 50) = some 1 :=
  (C114_t_test 10 (1 / 2) (1 / 100) 12 (1 / 2) (1 / 50) (by norm_num) (by norm_num) (by norm_num) (by norm_num)).2.1 rfl

/-- C114. The p-value of a correlation does not depend on its sign, is 1 for the correlation 0 and, below 1, is the regularised beta function
with parameters (n-2)/2 and 1/2 at 1 - r^2. -/
theorem C114_correlation (r n : ℝ) (hn : 2 < n) :
    correlationStudentPValue (-r) n = correlationStudentPValue r n ∧ correlationStudentPValue 0 n = some 1 ∧
      (|r| < 1 → correlationStudentPValue r n = betaRegularized ((n - 2) / 2) (1 / 2) (1 - r ^ 2)) := by
  unfold correlationStudentPValue
  refine ⟨?_, ?_, fun hr => ?_⟩
  · rw [neg_mul, abs_neg, neg_mul_neg]
  · rw [zero_mul, abs_zero]
    exact (C114_student 0 _ (by linarith)).2
  · have hr2 : r ^ 2 < 1 := by rwa [sq_lt_one_iff_abs_lt_one]
    have hpos : 0 < 1 - r * r := by nlinarith
    have hn2 : 0 < n - 2 := by linarith
    unfold studentTCdf
    have harg : (n - 2) / (n - 2 + |r * Real.sqrt ((n - 2) / (1 - r * r))| * |r * Real.sqrt ((n - 2) / (1 - r * r))|) = 1 - r ^ 2 := by
      rw [abs_mul_abs_self]
      have : r * Real.sqrt ((n - 2) / (1 - r * r)) * (r * Real.sqrt ((n - 2) / (1 - r * r))) = r * r * ((n - 2) / (1 - r * r)) := by
        rw [mul_mul_mul_comm, Real.mul_self_sqrt (by positivity)]
      rw [this]
      have hne : n - 2 + r * r * ((n - 2) / (1 - r * r)) ≠ 0 := by
        have : 0 ≤ r * r * ((n - 2) / (1 - r * r)) := mul_nonneg (mul_self_nonneg r) (by positivity)
        linarith
      rw [div_eq_iff hne, mul_add, show (1 - r ^ 2) * (r * r * ((n - 2) / (1 - r * r))) = r * r * ((n - 2) / (1 - r * r) * (1 - r * r)) by ring,
        div_mul_cancel₀ _ hpos.ne']
      ring
    rw [harg, show 1 / 2 * (n - 2) = (n - 2) / 2 by ring]

/-- C114, non-vacuity: correlation 1/2 in twelve pairs. -/
example : correlationStudentPValue (1 / 2) 12 = betaRegularized 5 (1 / 2) (3 / 4) := by
  rw [(C114_correlation (1 / 2) 12 (by norm_num)).2.2 (by rw [abs_of_pos] <;> norm_num)]
  norm_num

/-! #### F-distribution -/

/-- C114. The F-distribution function is 0 at 0, and exchanging the degrees of freedom and inverting the argument gives the complement (one of the
two is minus infinity when the loop does not converge), except where the two sides of the evaluation meet; the p-value of the F-test is twice
the value at the smaller variance over the larger. -/
theorem C114_f_distribution (d1 d2 : ℝ) (h1 : 0 < d1) (h2 : 0 < d2) :
    fDistributionCdf 0 d1 d2 = some 0 ∧
    (∀ f, 0 < f → d1 * f / (d1 * f + d2) ≠ (1 / 2 * d1 + 1) / (1 / 2 * d1 + 1 / 2 * d2 + 2) →
      ∃ p q : EReal, fDistributionCdf f d1 d2 = some p ∧ fDistributionCdf (1 / f) d2 d1 = some q ∧
        (p + q = 1 ∨ (p = ⊤ ∧ q = ⊥) ∨ (p = ⊥ ∧ q = ⊤))) ∧
    ∀ aVar bVar, 0 < bVar → bVar < aVar → fTest (d1 + 1) aVar (d2 + 1) bVar = (fDistributionCdf (bVar / aVar) d2 d1).map fun r => 2 * r := by
  refine ⟨?_, fun f hf hne => ?_, fun aVar bVar hb hab => ?_⟩
  · unfold fDistributionCdf
    rw [mul_zero, zero_add, zero_div]
    exact (C114_ends _ _ (by linarith) (by linarith)).1
  · have hpos : 0 < d1 * f := mul_pos h1 hf
    have hle : d1 * f / (d1 * f + d2) ≤ 1 := by rw [div_le_one (by linarith)]; linarith
    obtain ⟨p, q, hp, hq, h⟩ := C114_reflection (1 / 2 * d1) (1 / 2 * d2) (d1 * f / (d1 * f + d2)) (by linarith) (by positivity) hle hne
    refine ⟨p, q, hp, ?_, h⟩
    unfold fDistributionCdf
    rw [← hq]
    refine congrArg (betaRegularized _ _) ?_
    field_simp
    ring
  · unfold fDistributionCdf fTest
    dsimp only
    have : decide (bVar < aVar) = true := decide_eq_true hab
    simp only [gt_iff_lt, this, if_true, add_sub_cancel_right]
    have : d2 / (d2 + d1 * (aVar / bVar)) = d2 * (bVar / aVar) / (d2 * (bVar / aVar) + d1) := by
      have := hb.trans hab
      field_simp
    rw [this]

/-- C114, non-vacuity: variances 3 and 1 of seven and eleven values. -/
example : fTest 7 3 11 1 = (fDistributionCdf (1 / 3) 10 6).map fun r => 2 * r := by
  have := (C114_f_distribution 6 10 (by norm_num) (by norm_num)).2.2 3 1 (by norm_num) (by norm_num)
  norm_num at this ⊢
  exact this

/-! #### F-test -/

/-- C114. For different variances the F-test does not depend on the order of the samples. -/
theorem C114_f_swap (aN aVar bN bVar : ℝ) (h : aVar ≠ bVar) : fTest aN aVar bN bVar = fTest bN bVar aN aVar := by
  unfold fTest
  dsimp only
  rcases lt_or_gt_of_ne h with h1 | h1
  · have h2 : ¬ bVar < aVar := not_lt.2 h1.le
    simp only [gt_iff_lt, h1, h2, decide_true, decide_false, if_true, Bool.false_eq_true, if_false]
  · have h2 : ¬ aVar < bVar := not_lt.2 h1.le
    simp only [gt_iff_lt, h1, h2, decide_true, decide_false, if_true, Bool.false_eq_true, if_false]

namespace BetaFn

theorem lentz_1_2 : betaLentz (1 : ℝ) 2 (1 / 3) 201 0 1 1 0 = some (23 / 8) := by
  have h : betaLentz (1 : ℚ) 2 (1 / 3) 201 0 1 1 0 = some (23 / 8) := by decide +kernel
  have := lentz_cast 1 2 (1 / 3) 201 0 1 1 0
  rw [h] at this
  push_cast at this
  rw [this]
  norm_num

theorem front_1_2 : |betaFront 1 2 (1 / 3) - 8 / 27| ≤ 1 / 10 ^ 10 := by
  unfold betaFront
  rw [if_neg (by norm_num)]
  dsimp only
  have h1 := C91_log_gamma 1 (by norm_num)
  have h2 := C91_log_gamma 2 (by norm_num)
  have h3 := C91_log_gamma (1 + 2) (by norm_num)
  have g3 : Real.Gamma (1 + 2) = 2 := by
    have := Real.Gamma_nat_eq_factorial 2
    norm_num [Nat.factorial] at this ⊢
  rw [Real.Gamma_one, Real.log_one] at h1
  rw [Real.Gamma_two, Real.log_one] at h2
  rw [g3] at h3
  set e := -(logGamma 1 + logGamma 2 - logGamma (1 + 2)) - Real.log 2 with he
  have hE : Real.exp (Real.log (1 / 3) * 1 + Real.log (1 - 1 / 3) * 2 - (logGamma 1 + logGamma 2 - logGamma (1 + 2))) / 1 = 8 / 27 * Real.exp e := by
    rw [div_one]
    have h27 : (8 / 27 : ℝ) = Real.exp (Real.log (1 / 3) + Real.log (2 / 3) * 2 + Real.log 2) := by
      rw [Real.exp_add, Real.exp_add, Real.exp_log (by norm_num), Real.exp_log (by norm_num), mul_comm (Real.log (2 / 3)) 2]
      rw [show (2 : ℝ) * Real.log (2 / 3) = ((2 : ℕ) : ℝ) * Real.log (2 / 3) by norm_num, Real.exp_nat_mul, Real.exp_log (by norm_num)]
      norm_num
    rw [h27, ← Real.exp_add, he]
    congr 1
    rw [show (1 - 1 / 3 : ℝ) = 2 / 3 by norm_num]
    ring
  rw [hE]
  have hea : |e| ≤ 12 / 10 ^ 12 := by
    rw [abs_le] at h1 h2 h3 ⊢
    have he' : e = -(logGamma 1 + logGamma 2 - logGamma 3) - Real.log 2 := by rw [he, show (1 + 2 : ℝ) = 3 by norm_num]
    norm_num at h1 h2 h3 ⊢
    constructor <;> linarith [h1.1, h1.2, h2.1, h2.2, h3.1, h3.2, he']
  have h4 := Real.abs_exp_sub_one_sub_id_le (x := e) (hea.trans (by norm_num))
  have h5 : e ^ 2 ≤ 12 / 10 ^ 12 := by
    rw [← sq_abs]
    have : |e| ≤ 1 := hea.trans (by norm_num)
    nlinarith [abs_nonneg e]
  rw [abs_le] at h4 hea ⊢
  constructor
  · norm_num at *; linarith [h4.1, hea.1]
  · norm_num at *; linarith [h4.2, hea.2]

theorem fraction_1_2 : ∃ y : ℝ, betaFraction 1 2 (1 / 3) = (y : EReal) ∧ |y - 5 / 9| ≤ 2 / 10 ^ 10 := by
  unfold betaFraction
  rw [lentz_1_2]
  refine ⟨_, rfl, ?_⟩
  have h := front_1_2
  rw [abs_le] at h ⊢
  constructor <;> nlinarith [h.1, h.2]

end BetaFn

/-- C114. For equal variances it depends on the order, and is no p-value: for sample sizes 3 and 5 the result is 10/9 (to 10⁻⁹) one way
round and 8/9 the other. -/
theorem C114_f_ties (v : ℝ) (hv : 0 < v) :
    (∃ y : ℝ, fTest 3 v 5 v = some (y : EReal) ∧ |y - 10 / 9| ≤ 1 / 10 ^ 9) ∧
    (∃ y : ℝ, fTest 5 v 3 v = some (y : EReal) ∧ |y - 8 / 9| ≤ 1 / 10 ^ 9) := by
  obtain ⟨y, hy, h⟩ := fraction_1_2
  have hd : ∀ z : ℝ, (2 : EReal) * (z : EReal) = ((2 * z : ℝ) : EReal) := fun z => by push_cast; rfl
  constructor
  · refine ⟨2 * y, ?_, ?_⟩
    · unfold fTest
      dsimp only
      simp only [gt_iff_lt, lt_self_iff_false, decide_false, Bool.false_eq_true, if_false, div_self hv.ne']
      rw [show (1 / 2 * (3 - 1) : ℝ) = 1 by norm_num, show (1 / 2 * (5 - 1) : ℝ) = 2 by norm_num,
        show ((3 - 1) / ((3 - 1) + (5 - 1) * 1) : ℝ) = 1 / 3 by norm_num]
      rw [C114_depth 1 2 (1 / 3) (by norm_num), if_neg (by norm_num), if_neg (by norm_num), hy, ← hd]
      rfl
    · rw [abs_le] at h ⊢
      constructor <;> linarith [h.1, h.2]
  · refine ⟨2 * (1 - y), ?_, ?_⟩
    · unfold fTest
      dsimp only
      simp only [gt_iff_lt, lt_self_iff_false, decide_false, Bool.false_eq_true, if_false, div_self hv.ne']
      rw [show (1 / 2 * (5 - 1) : ℝ) = 2 by norm_num, show (1 / 2 * (3 - 1) : ℝ) = 1 by norm_num,
        show ((5 - 1) / ((5 - 1) + (3 - 1) * 1) : ℝ) = 2 / 3 by norm_num]
      rw [C114_depth 2 1 (2 / 3) (by norm_num), if_neg (by norm_num), if_pos (by norm_num), show (1 - 2 / 3 : ℝ) = 1 / 3 by norm_num, hy, ← hd]
      push_cast
      rfl
    · rw [abs_le] at h ⊢
      constructor <;> linarith [h.1, h.2]

/-- C114. The F-test of two samples of 100001 values with equal variances is infinite: 201 rounds of the continued fraction are not
enough. -/
theorem C114_f_infinite (v : ℝ) (hv : 0 < v) : fTest 100001 v 100001 v = some ⊤ := by
  have hl : betaLentz (50000 : ℝ) 50000 (1 / 2) 201 0 1 1 0 = none := by
    have h : betaLentz (50000 : ℚ) 50000 (1 / 2) 201 0 1 1 0 = none := by decide +kernel
    have := lentz_cast 50000 50000 (1 / 2) 201 0 1 1 0
    rw [h] at this
    push_cast at this
    rw [this]
    rfl
  unfold fTest
  dsimp only
  simp only [gt_iff_lt, lt_self_iff_false, decide_false, Bool.false_eq_true, if_false, div_self hv.ne']
  rw [show (1 / 2 * (100001 - 1) : ℝ) = 50000 by norm_num, show ((100001 - 1) / ((100001 - 1) + (100001 - 1) * 1) : ℝ) = 1 / 2 by norm_num]
  rw [C114_depth 50000 50000 (1 / 2) (by norm_num), if_neg (by norm_num), if_neg (by norm_num)]
  unfold betaFraction
  rw [hl]
  show some ((2 : EReal) * ⊤) = some ⊤
  rw [EReal.mul_top_of_pos (by norm_num)]

/-! #### beta function and binomial coefficients -/

/-- C114. `beta` has relative error below `2e-11`. -/
theorem C114_beta (a b : ℝ) (ha : 0 < a) (hb : 0 < b) :
    |betaFunction a b - Real.Gamma a * Real.Gamma b / Real.Gamma (a + b)| ≤ 2 / 10 ^ 11 * (Real.Gamma a * Real.Gamma b / Real.Gamma (a + b)) := by
  have h1 := C91_log_gamma a ha
  have h2 := C91_log_gamma b hb
  have h3 := C91_log_gamma (a + b) (by linarith)
  have ga := Real.Gamma_pos_of_pos ha
  have gb := Real.Gamma_pos_of_pos hb
  have gab := Real.Gamma_pos_of_pos (show 0 < a + b by linarith)
  set B := Real.Gamma a * Real.Gamma b / Real.Gamma (a + b) with hB
  have hB0 : 0 < B := by positivity
  have hlog : Real.log B = Real.log (Real.Gamma a) + Real.log (Real.Gamma b) - Real.log (Real.Gamma (a + b)) := by
    rw [hB, Real.log_div (by positivity) gab.ne', Real.log_mul ga.ne' gb.ne']
  set e := logGamma a + logGamma b - logGamma (a + b) - Real.log B with he
  have hE : betaFunction a b = B * Real.exp e := by
    unfold betaFunction
    rw [he, Real.exp_sub _ (Real.log B), Real.exp_log hB0]
    field_simp
  have hea : |e| ≤ 12 / 10 ^ 12 := by
    rw [abs_le] at h1 h2 h3 ⊢
    constructor <;> linarith [h1.1, h1.2, h2.1, h2.2, h3.1, h3.2]
  have h4 := Real.abs_exp_sub_one_sub_id_le (x := e) (hea.trans (by norm_num))
  have h5 : e ^ 2 ≤ 1 / 10 ^ 12 := by
    rw [← sq_abs]
    have : |e| ≤ 1 / 100 := hea.trans (by norm_num)
    nlinarith [abs_nonneg e]
  have h6 : |Real.exp e - 1| ≤ 2 / 10 ^ 11 := by
    rw [abs_le] at h4 hea ⊢
    norm_num at h5 hea ⊢
    constructor <;> linarith [h4.1, h4.2, hea.1, hea.2]
  rw [hE, show B * Real.exp e - B = (Real.exp e - 1) * B by ring, abs_mul, abs_of_pos hB0]
  exact mul_le_mul_of_nonneg_right h6 hB0.le

/-- C114. `binomial_coefficient_reals` is, for whole numbers `k ≤ n`, the binomial coefficient with relative error below `3e-11`. -/
theorem C114_binomial (n k : ℕ) (h : k ≤ n) :
    |binomialCoefficientReals n k - (n.choose k : ℝ)| ≤ 3 / 10 ^ 11 * (n.choose k : ℝ) := by
  have h1 := C114_beta ((n : ℝ) - k + 1) ((k : ℝ) + 1) (by
    have : (k : ℝ) ≤ n := by exact_mod_cast h
    linarith) (by positivity)
  have e1 : (n : ℝ) - k + 1 = ((n - k : ℕ) : ℝ) + 1 := by rw [Nat.cast_sub h]
  have e2 : (n : ℝ) - k + 1 + ((k : ℝ) + 1) = ((n + 1 : ℕ) : ℝ) + 1 := by push_cast; ring
  rw [e2] at h1
  unfold binomialCoefficientReals
  rw [e1] at h1 ⊢
  rw [Real.Gamma_nat_eq_factorial, Real.Gamma_nat_eq_factorial, Real.Gamma_nat_eq_factorial] at h1
  have hC : (0 : ℝ) < n.choose k := by exact_mod_cast Nat.choose_pos h
  have hn1 : (0 : ℝ) < (n : ℝ) + 1 := by positivity
  have hB : ((n - k).factorial : ℝ) * (k.factorial : ℝ) / ((n + 1).factorial : ℝ) = 1 / (((n : ℝ) + 1) * n.choose k) := by
    have hf : (n.choose k : ℝ) * k.factorial * (n - k).factorial = n.factorial := by exact_mod_cast Nat.choose_mul_factorial_mul_factorial h
    rw [Nat.factorial_succ, div_eq_div_iff (by positivity) (by positivity)]
    push_cast
    rw [← hf]
    ring
  rw [hB] at h1
  set β := betaFunction (((n - k : ℕ) : ℝ) + 1) ((k : ℝ) + 1)
  set C := (n.choose k : ℝ)
  have hb : |((n : ℝ) + 1) * β * C - 1| ≤ 2 / 10 ^ 11 := by
    have hm : (0 : ℝ) < ((n : ℝ) + 1) * C := by positivity
    have : ((n : ℝ) + 1) * β * C - 1 = (β - 1 / (((n : ℝ) + 1) * C)) * (((n : ℝ) + 1) * C) := by field_simp
    rw [this, abs_mul, abs_of_pos hm]
    calc _ ≤ 2 / 10 ^ 11 * (1 / (((n : ℝ) + 1) * C)) * (((n : ℝ) + 1) * C) := by gcongr
      _ = 2 / 10 ^ 11 := by field_simp
  set u := ((n : ℝ) + 1) * β with hu
  have hu0 : 0 < u := by
    have : (1 : ℝ) / 2 ≤ u * C := by
      rw [abs_le] at hb
      norm_num at hb ⊢
      linarith [hb.1]
    exact pos_of_mul_pos_left (by linarith : 0 < u * C) hC.le
  rw [abs_le] at hb ⊢
  have h2 : 1 / u - C = (1 - u * C) / u := by field_simp
  rw [h2]
  constructor
  · rw [le_div_iff₀ hu0]
    norm_num at hb ⊢
    nlinarith [hb.1, hb.2]
  · rw [div_le_iff₀ hu0]
    norm_num at hb ⊢
    nlinarith [hb.1, hb.2]

example : |binomialCoefficientReals (31 : ℕ) (17 : ℕ) - 265182525| ≤ 1 / 100 := by
  have h := C114_binomial 31 17 (by norm_num)
  have hc : ((Nat.choose 31 17 : ℕ) : ℝ) = 265182525 := by
    have : Nat.choose 31 17 = 265182525 := by decide +kernel
    rw [this]; norm_num
  rw [hc] at h
  exact h.trans (by norm_num)

end TFR
