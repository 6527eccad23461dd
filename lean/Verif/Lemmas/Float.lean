import Verif.Model.Float
import Mathlib.Tactic.Linarith
import Mathlib.Tactic.Ring
import Mathlib.Tactic.FieldSimp
import Mathlib.Tactic.Positivity
import Mathlib.Algebra.Order.Field.Power
/-
Facts about rounding to binary64.
-/
namespace TFR.Fl

theorem roundEven_int (n : ℤ) : roundEven (n : ℚ) = n := by
  unfold roundEven
  rw [if_pos (by simp)]
  simp

theorem floor_le_roundEven (x : ℚ) : ⌊x⌋ ≤ roundEven x := by
  unfold roundEven
  split_ifs <;> omega

theorem roundEven_le_floor_add_one (x : ℚ) : roundEven x ≤ ⌊x⌋ + 1 := by
  unfold roundEven
  split_ifs <;> omega

theorem roundEven_mono {x y : ℚ} (h : x ≤ y) : roundEven x ≤ roundEven y := by
  rcases lt_or_eq_of_le (Int.floor_mono h) with hlt | heq
  · exact le_trans (roundEven_le_floor_add_one x) (le_trans hlt (floor_le_roundEven y))
  · unfold roundEven
    rw [heq]
    split_ifs <;> first | omega | (exfalso; linarith)

theorem abs_roundEven_sub_le (x : ℚ) : |(roundEven x : ℚ) - x| ≤ 1 / 2 := by
  have h0 := Int.floor_le x
  have h1 := Int.lt_floor_add_one x
  rw [abs_le]
  unfold roundEven
  split_ifs <;> push_cast <;> constructor <;> linarith

theorem ulp_pos (x : ℚ) : 0 < ulp x := by unfold ulp; positivity

theorem le_div_ulp {x : ℚ} (h : 0 < x) : (2 : ℚ) ^ 52 ≤ x / ulp x := by
  rw [le_div_iff₀ (ulp_pos x)]
  unfold ulp
  rw [← zpow_natCast, ← zpow_add₀ (by norm_num)]
  have := Int.zpow_log_le_self (b := 2) (by norm_num) h
  calc (2 : ℚ) ^ (((52 : ℕ) : ℤ) + (Int.log 2 x - 52)) = (2 : ℚ) ^ (Int.log 2 x) := by congr 1; push_cast; ring
    _ ≤ x := by exact_mod_cast this

theorem div_ulp_lt {x : ℚ} (_h : 0 < x) : x / ulp x < (2 : ℚ) ^ 53 := by
  rw [div_lt_iff₀ (ulp_pos x)]
  unfold ulp
  rw [← zpow_natCast, ← zpow_add₀ (by norm_num)]
  have := Int.lt_zpow_succ_log_self (b := 2) (by norm_num) x
  calc x < (2 : ℚ) ^ (Int.log 2 x + 1) := by exact_mod_cast this
    _ = _ := by congr 1; push_cast; ring

theorem rndPos_le_two_zpow {x : ℚ} (h : 0 < x) : rndPos x ≤ (2 : ℚ) ^ (Int.log 2 x + 1) := by
  unfold rndPos
  rw [if_neg h.ne']
  have h1 : roundEven (x / ulp x) ≤ (2 : ℤ) ^ 53 := by
    rw [← roundEven_int ((2 : ℤ) ^ 53)]
    exact roundEven_mono (by push_cast; exact (div_ulp_lt h).le)
  have h2 : (roundEven (x / ulp x) : ℚ) ≤ (2 : ℚ) ^ 53 := by exact_mod_cast h1
  calc (roundEven (x / ulp x) : ℚ) * ulp x ≤ (2 : ℚ) ^ 53 * ulp x := mul_le_mul_of_nonneg_right h2 (ulp_pos x).le
    _ = _ := by
      unfold ulp
      rw [← zpow_natCast, ← zpow_add₀ (by norm_num)]
      congr 1; push_cast; ring

theorem two_zpow_le_rndPos {x : ℚ} (h : 0 < x) : (2 : ℚ) ^ (Int.log 2 x) ≤ rndPos x := by
  unfold rndPos
  rw [if_neg h.ne']
  have h1 : (2 : ℤ) ^ 52 ≤ roundEven (x / ulp x) := by
    rw [← roundEven_int ((2 : ℤ) ^ 52)]
    exact roundEven_mono (by push_cast; exact le_div_ulp h)
  have h2 : (2 : ℚ) ^ 52 ≤ (roundEven (x / ulp x) : ℚ) := by exact_mod_cast h1
  calc (2 : ℚ) ^ (Int.log 2 x) = (2 : ℚ) ^ 52 * ulp x := by
        unfold ulp
        rw [← zpow_natCast, ← zpow_add₀ (by norm_num)]
        congr 1; push_cast; ring
    _ ≤ _ := mul_le_mul_of_nonneg_right h2 (ulp_pos x).le

theorem rndPos_pos {x : ℚ} (h : 0 < x) : 0 < rndPos x := lt_of_lt_of_le (by positivity) (two_zpow_le_rndPos h)

@[simp] theorem rndPos_zero : rndPos 0 = 0 := by simp [rndPos]

theorem rndPos_nonneg {x : ℚ} (h : 0 ≤ x) : 0 ≤ rndPos x := by
  rcases h.eq_or_lt with h | h
  · subst h; simp
  · exact (rndPos_pos h).le

theorem rndPos_mono {x y : ℚ} (hx : 0 ≤ x) (h : x ≤ y) : rndPos x ≤ rndPos y := by
  rcases hx.eq_or_lt with h0 | h0
  · subst h0; simpa using rndPos_nonneg h
  · have hy := lt_of_lt_of_le h0 h
    rcases (Int.log_mono_right (b := 2) h0 h).eq_or_lt with he | hl
    · have hu : ulp x = ulp y := by unfold ulp; rw [he]
      unfold rndPos
      rw [if_neg h0.ne', if_neg hy.ne', hu]
      apply mul_le_mul_of_nonneg_right _ (ulp_pos y).le
      exact_mod_cast roundEven_mono (div_le_div_of_nonneg_right h (ulp_pos y).le)
    · calc rndPos x ≤ (2 : ℚ) ^ (Int.log 2 x + 1) := rndPos_le_two_zpow h0
        _ ≤ (2 : ℚ) ^ (Int.log 2 y) := zpow_le_zpow_right₀ (by norm_num) hl
        _ ≤ _ := two_zpow_le_rndPos hy

theorem rnd_of_nonneg {x : ℚ} (h : 0 ≤ x) : rnd x = rndPos x := by unfold rnd; rw [if_neg (not_lt.2 h)]

@[simp] theorem rnd_zero : rnd 0 = 0 := by rw [rnd_of_nonneg le_rfl]; simp

theorem rnd_neg (x : ℚ) : rnd (-x) = -rnd x := by
  rcases lt_trichotomy x 0 with h | h | h
  · rw [rnd_of_nonneg (by linarith)]
    unfold rnd
    rw [if_pos h]; simp
  · subst h; simp
  · rw [rnd_of_nonneg h.le]
    unfold rnd
    rw [if_pos (by linarith)]; simp

/-- Rounding is monotone. -/
theorem rnd_mono {x y : ℚ} (h : x ≤ y) : rnd x ≤ rnd y := by
  rcases lt_or_ge x 0 with hx | hx
  · rcases lt_or_ge y 0 with hy | hy
    · have := rndPos_mono (x := -y) (y := -x) (by linarith) (by linarith)
      unfold rnd
      rw [if_pos hx, if_pos hy]; linarith
    · have h1 := rndPos_nonneg hy
      have h2 := rndPos_nonneg (x := -x) (by linarith)
      rw [rnd_of_nonneg hy]
      unfold rnd
      rw [if_pos hx]; linarith
  · rw [rnd_of_nonneg hx, rnd_of_nonneg (hx.trans h)]
    exact rndPos_mono hx h

theorem rnd_nonneg {x : ℚ} (h : 0 ≤ x) : 0 ≤ rnd x := by rw [rnd_of_nonneg h]; exact rndPos_nonneg h

/-- A number with a significand of at most 53 bits is not changed. -/
theorem rndPos_exact {m : ℕ} {e : ℤ} (hm : m ≤ 2 ^ 53) : rndPos ((m : ℚ) * 2 ^ e) = (m : ℚ) * 2 ^ e := by
  rcases Nat.eq_zero_or_pos m with h | h
  · subst h; simp
  have hx : (0 : ℚ) < (m : ℚ) * 2 ^ e := by positivity
  rcases hm.eq_or_lt with hm | hm
  · -- a power of two
    have hl : Int.log 2 ((m : ℚ) * 2 ^ e) = 53 + e := by
      have : (m : ℚ) * 2 ^ e = ((2 : ℕ) : ℚ) ^ (53 + e) := by
        rw [hm]; push_cast; rw [zpow_add₀ (by norm_num)]; norm_num
      rw [this, Int.log_zpow (by norm_num)]
    unfold rndPos
    rw [if_neg hx.ne']
    have hq : (m : ℚ) * 2 ^ e / ulp ((m : ℚ) * 2 ^ e) = ((2 ^ 52 : ℤ) : ℚ) := by
      rw [div_eq_iff (ulp_pos _).ne']
      unfold ulp
      rw [hl, hm]
      have h1 : (53 + e - 52 : ℤ) = 1 + e := by ring
      rw [h1, zpow_add₀ (by norm_num)]
      norm_num
      ring
    rw [hq, roundEven_int]
    rw [← hq, div_mul_cancel₀ _ (ulp_pos _).ne']
  · have hl : Int.log 2 ((m : ℚ) * 2 ^ e) - 52 ≤ e := by
      have h1 : (m : ℚ) * 2 ^ e < ((2 : ℕ) : ℚ) ^ (53 + e) := by
        push_cast
        rw [zpow_add₀ (by norm_num)]
        apply mul_lt_mul_of_pos_right _ (by positivity)
        exact_mod_cast hm
      have := (Int.lt_zpow_iff_log_lt (b := 2) (by norm_num) hx).1 h1
      omega
    unfold rndPos
    rw [if_neg hx.ne']
    obtain ⟨k, hk⟩ : ∃ k : ℕ, e = (Int.log 2 ((m : ℚ) * 2 ^ e) - 52) + k := ⟨(e - (Int.log 2 ((m : ℚ) * 2 ^ e) - 52)).toNat, by omega⟩
    have hq : (m : ℚ) * 2 ^ e / ulp ((m : ℚ) * 2 ^ e) = (((m : ℤ) * 2 ^ k : ℤ) : ℚ) := by
      rw [div_eq_iff (ulp_pos _).ne']
      unfold ulp
      conv_lhs => rw [hk]
      rw [zpow_add₀ (by norm_num)]
      rw [zpow_natCast]
      push_cast
      ring
    rw [hq, roundEven_int]
    rw [← hq, div_mul_cancel₀ _ (ulp_pos _).ne']

theorem rnd_exact {m : ℕ} {e : ℤ} (hm : m ≤ 2 ^ 53) : rnd ((m : ℚ) * 2 ^ e) = (m : ℚ) * 2 ^ e := by
  rw [rnd_of_nonneg (by positivity)]; exact rndPos_exact hm

theorem rnd_natCast {m : ℕ} (hm : m ≤ 2 ^ 53) : rnd (m : ℚ) = m := by
  simpa using rnd_exact (m := m) (e := 0) hm

theorem rnd_one : rnd 1 = 1 := by simpa using rnd_natCast (m := 1) (by norm_num)

theorem rnd_two_zpow (e : ℤ) : rnd ((2 : ℚ) ^ e) = 2 ^ e := by
  simpa using rnd_exact (m := 1) (e := e) (by norm_num)

theorem rnd_two_pow (e : ℕ) : rnd ((2 : ℚ) ^ e) = 2 ^ e := by
  have := rnd_two_zpow (e : ℤ)
  simpa using this

/-- The error is at most half a unit in the last place. -/
theorem abs_rnd_sub_le {x : ℚ} (h : 0 < x) : |rnd x - x| ≤ ulp x / 2 := by
  rw [rnd_of_nonneg h.le]
  unfold rndPos
  rw [if_neg h.ne']
  have h1 := abs_roundEven_sub_le (x / ulp x)
  have h2 : (roundEven (x / ulp x) : ℚ) * ulp x - x = ((roundEven (x / ulp x) : ℚ) - x / ulp x) * ulp x := by
    rw [sub_mul, div_mul_cancel₀ _ (ulp_pos x).ne']
  rw [h2, abs_mul, abs_of_pos (ulp_pos x)]
  calc _ ≤ 1 / 2 * ulp x := mul_le_mul_of_nonneg_right h1 (ulp_pos x).le
    _ = _ := by ring

/-- Relative error at most 2^-53. -/
theorem abs_rnd_sub_le_rel {x : ℚ} (h : 0 ≤ x) : |rnd x - x| ≤ x / 2 ^ 53 := by
  rcases h.eq_or_lt with h | h
  · subst h; simp
  · refine (abs_rnd_sub_le h).trans ?_
    have := le_div_ulp h
    rw [le_div_iff₀ (ulp_pos x)] at this
    rw [div_le_div_iff₀ (by norm_num) (by norm_num)]
    nlinarith

end TFR.Fl
