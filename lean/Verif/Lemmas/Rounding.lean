import Verif.Lemmas.Float
import Verif.Model.Rounded
import Mathlib.Analysis.SpecialFunctions.Exp
import Mathlib.Analysis.SpecialFunctions.Pow.Real
import Mathlib.Analysis.Real.Sqrt
import Mathlib.Tactic.NormNum
import Mathlib.Tactic.GCongr
/-
Relative errors of non-negative numbers: `Near k x y` says that x and y agree up to a factor (1 + 2^-52)^k.
-/
namespace TFR.Fl

/-- The factor by which one rounding can change a number. -/
noncomputable def B : ℝ := 1 + 1 / 2 ^ 52

theorem one_le_B : 1 ≤ B := by unfold B; norm_num
theorem B_pos : 0 < B := by unfold B; norm_num
theorem one_le_B_pow (k : ℕ) : 1 ≤ B ^ k := one_le_pow₀ one_le_B
theorem B_pow_pos (k : ℕ) : 0 < B ^ k := pow_pos B_pos k
theorem B_pow_mono {a b : ℕ} (h : a ≤ b) : B ^ a ≤ B ^ b := pow_le_pow_right₀ one_le_B h

def Near (k : ℕ) (x y : ℝ) : Prop := 0 ≤ x ∧ 0 ≤ y ∧ x ≤ y * B ^ k ∧ y ≤ x * B ^ k

theorem Near.refl {x : ℝ} (h : 0 ≤ x) : Near 0 x x := ⟨h, h, by simp, by simp⟩

theorem Near.symm {k : ℕ} {x y : ℝ} (h : Near k x y) : Near k y x := ⟨h.2.1, h.1, h.2.2.2, h.2.2.1⟩

theorem Near.mono {a b : ℕ} {x y : ℝ} (h : Near a x y) (hab : a ≤ b) : Near b x y :=
  ⟨h.1, h.2.1, h.2.2.1.trans (mul_le_mul_of_nonneg_left (B_pow_mono hab) h.2.1),
    h.2.2.2.trans (mul_le_mul_of_nonneg_left (B_pow_mono hab) h.1)⟩

theorem Near.trans {a b : ℕ} {x y z : ℝ} (h : Near a x y) (h' : Near b y z) : Near (a + b) x z := by
  refine ⟨h.1, h'.2.1, ?_, ?_⟩
  · calc x ≤ y * B ^ a := h.2.2.1
      _ ≤ (z * B ^ b) * B ^ a := mul_le_mul_of_nonneg_right h'.2.2.1 (B_pow_pos a).le
      _ = z * B ^ (a + b) := by rw [pow_add]; ring
  · calc z ≤ y * B ^ b := h'.2.2.2
      _ ≤ (x * B ^ a) * B ^ b := mul_le_mul_of_nonneg_right h.2.2.2 (B_pow_pos b).le
      _ = x * B ^ (a + b) := by rw [pow_add]; ring

theorem Near.mul {a b : ℕ} {x y x' y' : ℝ} (h : Near a x y) (h' : Near b x' y') : Near (a + b) (x * x') (y * y') := by
  refine ⟨mul_nonneg h.1 h'.1, mul_nonneg h.2.1 h'.2.1, ?_, ?_⟩
  · calc x * x' ≤ (y * B ^ a) * (y' * B ^ b) := mul_le_mul h.2.2.1 h'.2.2.1 h'.1 (mul_nonneg h.2.1 (B_pow_pos a).le)
      _ = _ := by rw [pow_add]; ring
  · calc y * y' ≤ (x * B ^ a) * (x' * B ^ b) := mul_le_mul h.2.2.2 h'.2.2.2 h'.2.1 (mul_nonneg h.1 (B_pow_pos a).le)
      _ = _ := by rw [pow_add]; ring

theorem Near.inv {a : ℕ} {x y : ℝ} (h : Near a x y) (hy : 0 < y) : Near a x⁻¹ y⁻¹ := by
  have hx : 0 < x := by
    by_contra hc
    have : x = 0 := le_antisymm (not_lt.1 hc) h.1
    have := h.2.2.2; rw [‹x = 0›] at this; linarith
  refine ⟨(inv_pos.2 hx).le, (inv_pos.2 hy).le, ?_, ?_⟩
  · rw [inv_mul_eq_div, le_div_iff₀ hy, inv_mul_eq_div, div_le_iff₀ hx]
    linarith [h.2.2.2]
  · rw [inv_mul_eq_div, le_div_iff₀ hx, inv_mul_eq_div, div_le_iff₀ hy]
    linarith [h.2.2.1]

theorem Near.div {a b : ℕ} {x y x' y' : ℝ} (h : Near a x y) (h' : Near b x' y') (hy : 0 < y') : Near (a + b) (x / x') (y / y') := by
  rw [div_eq_mul_inv, div_eq_mul_inv]; exact h.mul (h'.inv hy)

theorem Near.add {a : ℕ} {x y x' y' : ℝ} (h : Near a x y) (h' : Near a x' y') : Near a (x + x') (y + y') :=
  ⟨add_nonneg h.1 h'.1, add_nonneg h.2.1 h'.2.1, by linarith [h.2.2.1, h'.2.2.1, add_mul y y' (B ^ a)],
    by linarith [h.2.2.2, h'.2.2.2, add_mul x x' (B ^ a)]⟩

theorem Near.sqrt {a : ℕ} {x y : ℝ} (h : Near a x y) : Near a (Real.sqrt x) (Real.sqrt y) := by
  have key : ∀ {u v : ℝ}, 0 ≤ v → u ≤ v * B ^ a → Real.sqrt u ≤ Real.sqrt v * B ^ a := by
    intro u v hv huv
    rw [Real.sqrt_le_left (mul_nonneg (Real.sqrt_nonneg _) (B_pow_pos a).le), mul_pow, Real.sq_sqrt hv]
    refine huv.trans (mul_le_mul_of_nonneg_left ?_ hv)
    nlinarith [one_le_B_pow a]
  exact ⟨Real.sqrt_nonneg _, Real.sqrt_nonneg _, key h.2.1 h.2.2.1, key h.1 h.2.2.2⟩

/-- A relative error of at most 2^-53 is one rounding. -/
theorem near_of_abs {x y : ℝ} (hx : 0 ≤ x) (hy : 0 ≤ y) (h : |x - y| ≤ y / 2 ^ 53) : Near 1 x y := by
  obtain ⟨h1, h2⟩ := abs_le.1 h
  refine ⟨hx, hy, ?_, ?_⟩
  · rw [pow_one]; unfold B
    have : y / 2 ^ 53 ≤ y * (1 / 2 ^ 52) := by
      rw [div_eq_mul_one_div]; exact mul_le_mul_of_nonneg_left (by norm_num) hy
    linarith
  · rw [pow_one]
    have h3 : y * (1 - 1 / 2 ^ 53) ≤ x := by linarith [div_eq_mul_one_div y ((2 : ℝ) ^ 53)]
    have h4 : (1 : ℝ) ≤ (1 - 1 / 2 ^ 53) * B := by unfold B; norm_num
    calc y = y * 1 := (mul_one y).symm
      _ ≤ y * ((1 - 1 / 2 ^ 53) * B) := mul_le_mul_of_nonneg_left h4 hy
      _ = y * (1 - 1 / 2 ^ 53) * B := by ring
      _ ≤ x * B := mul_le_mul_of_nonneg_right h3 B_pos.le

theorem near_rnd {x : ℚ} (h : 0 ≤ x) : Near 1 ((rnd x : ℚ) : ℝ) (x : ℝ) := by
  refine near_of_abs (by exact_mod_cast rnd_nonneg h) (by exact_mod_cast h) ?_
  have h1 := abs_rnd_sub_le_rel h
  have : ((|rnd x - x| : ℚ) : ℝ) ≤ ((x / 2 ^ 53 : ℚ) : ℝ) := Rat.cast_le.2 h1
  push_cast at this; exact this

theorem Near.rnd {k : ℕ} {x : ℚ} {y : ℝ} (h : Near k (x : ℝ) y) : Near (k + 1) ((rnd x : ℚ) : ℝ) y := by
  have hx : 0 ≤ x := by exact_mod_cast h.1
  have := (near_rnd hx).trans h
  rwa [Nat.add_comm] at this

theorem near_sqrt {sqrtD : ℚ → ℚ} (hs : SqrtOk sqrtD) {x : ℚ} (h : 0 ≤ x) : Near 1 ((sqrtD x : ℚ) : ℝ) (Real.sqrt (x : ℝ)) :=
  near_of_abs (by exact_mod_cast (hs x h).1) (Real.sqrt_nonneg _) (hs x h).2

theorem Near.sqrtD {k : ℕ} {sqrtD : ℚ → ℚ} (hs : SqrtOk sqrtD) {x : ℚ} {y : ℝ} (h : Near k (x : ℝ) y) :
    Near (k + 1) ((sqrtD x : ℚ) : ℝ) (Real.sqrt y) := by
  have hx : 0 ≤ x := by exact_mod_cast h.1
  have := (near_sqrt hs hx).trans h.sqrt
  rwa [Nat.add_comm] at this

/-- `(1 + v)^k ≤ 1 + 2 k v` for k v ≤ 1. -/
theorem B_pow_le {k : ℕ} (hk : k ≤ 2 ^ 52) : B ^ k ≤ 1 + k / 2 ^ 51 := by
  have h1 : B ≤ Real.exp (1 / 2 ^ 52) := by unfold B; linarith [Real.add_one_le_exp ((1 : ℝ) / 2 ^ 52)]
  have hk' : (k : ℝ) ≤ 2 ^ 52 := by exact_mod_cast hk
  have h0 : (0 : ℝ) ≤ k / 2 ^ 52 := by positivity
  have h2 : (k : ℝ) / 2 ^ 52 ≤ 1 := by rw [div_le_one (by norm_num)]; exact hk'
  calc B ^ k ≤ (Real.exp (1 / 2 ^ 52)) ^ k := pow_le_pow_left₀ B_pos.le h1 k
    _ = Real.exp (k / 2 ^ 52) := by rw [← Real.exp_nat_mul]; congr 1; ring
    _ ≤ 1 + k / 2 ^ 52 + (k / 2 ^ 52) ^ 2 := by
        have := Real.abs_exp_sub_one_sub_id_le (x := (k : ℝ) / 2 ^ 52) (by rw [abs_of_nonneg h0]; exact h2)
        linarith [(abs_le.1 this).2]
    _ ≤ 1 + k / 2 ^ 51 := by
        have : (k : ℝ) / 2 ^ 51 = k / 2 ^ 52 + k / 2 ^ 52 := by ring
        rw [this]; nlinarith

theorem Near.abs_le {k : ℕ} {x y : ℝ} (h : Near k x y) (hk : k ≤ 2 ^ 52) : |x - y| ≤ y * (k / 2 ^ 51) := by
  have hB := B_pow_le hk
  rw [_root_.abs_le]
  constructor
  · have h1 : y ≤ x * (1 + k / 2 ^ 51) := h.2.2.2.trans (mul_le_mul_of_nonneg_left hB h.1)
    by_cases hxy : x ≤ y
    · have : x * (k / 2 ^ 51) ≤ y * (k / 2 ^ 51) := mul_le_mul_of_nonneg_right hxy (by positivity)
      linarith
    · have : 0 ≤ y * ((k : ℝ) / 2 ^ 51) := mul_nonneg h.2.1 (by positivity)
      linarith
  · have h1 : x ≤ y * (1 + k / 2 ^ 51) := h.2.2.1.trans (mul_le_mul_of_nonneg_left hB h.2.1)
    linarith

/-- |rnd x| = rnd |x| -/
theorem abs_rnd (x : ℚ) : |rnd x| = rnd |x| := by
  rcases le_total 0 x with h | h
  · rw [abs_of_nonneg h, abs_of_nonneg (rnd_nonneg h)]
  · have h' : 0 ≤ -x := by linarith
    rw [abs_of_nonpos h, rnd_neg, abs_of_nonpos]
    have := rnd_nonneg h'; rw [rnd_neg] at this; linarith

theorem abs_rnd_sub_le_abs (x : ℚ) : |rnd x - x| ≤ |x| / 2 ^ 53 := by
  rcases le_total 0 x with h | h
  · rw [abs_of_nonneg h]; exact abs_rnd_sub_le_rel h
  · have h' : 0 ≤ -x := by linarith
    have := abs_rnd_sub_le_rel h'
    rw [rnd_neg, show -rnd x - -x = -(rnd x - x) by ring, abs_neg] at this
    rwa [abs_of_nonpos h]

theorem abs_rnd_sub_le_real (x : ℚ) : |((rnd x : ℚ) : ℝ) - (x : ℝ)| ≤ |(x : ℝ)| / 2 ^ 53 := by
  have : ((|rnd x - x| : ℚ) : ℝ) ≤ ((|x| / 2 ^ 53 : ℚ) : ℝ) := Rat.cast_le.2 (abs_rnd_sub_le_abs x)
  push_cast at this; exact this

theorem ofNat_eq {m : ℕ} (hm : m ≤ 2 ^ 53) : ofNat m = m := rnd_natCast hm

theorem near_ofNat (m : ℕ) : Near 1 ((ofNat m : ℚ) : ℝ) (m : ℝ) := by
  have := near_rnd (x := (m : ℚ)) (by positivity)
  simpa [ofNat] using this

/-- A function as `SqrtOk` asks for exists. -/
theorem exists_sqrtOk : ∃ sqrtD : ℚ → ℚ, SqrtOk sqrtD := by
  have : ∀ x : ℚ, ∃ y : ℚ, 0 ≤ x → 0 ≤ y ∧ |((y : ℚ) : ℝ) - Real.sqrt (x : ℝ)| ≤ Real.sqrt (x : ℝ) / 2 ^ 53 := by
    intro x
    by_cases hx : 0 < x
    · have hs : 0 < Real.sqrt (x : ℝ) := Real.sqrt_pos.2 (by exact_mod_cast hx)
      obtain ⟨q, h1, h2⟩ := exists_rat_btwn (show Real.sqrt (x : ℝ) < Real.sqrt (x : ℝ) + Real.sqrt (x : ℝ) / 2 ^ 53 by
        linarith [div_pos hs (show (0 : ℝ) < 2 ^ 53 by norm_num)])
      refine ⟨q, fun _ => ⟨by exact_mod_cast (hs.trans h1).le, ?_⟩⟩
      rw [abs_of_pos (by linarith)]; linarith
    · refine ⟨0, fun h => ⟨le_rfl, ?_⟩⟩
      have : x = 0 := le_antisymm (not_lt.1 hx) h
      subst this; simp
  choose f hf using this
  exact ⟨f, fun x hx => hf x hx⟩

end TFR.Fl
