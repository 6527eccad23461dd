import Verif.Lemmas.Numbers
import Mathlib.Algebra.Order.Field.Power
import Mathlib.Data.Rat.Cast.Order
/-
C127: the numbers the tool prints.
-/
namespace TFR
open Spec

variable {K : Type} [Field K] [LinearOrder K] [IsStrictOrderedRing K] [FloorRing K]

/-- The value of the six digits of style `e`. -/
private def sciValue (x : K) : K := (roundHalfEven (x / 10 ^ (Int.log 10 x - 5)) : K) * 10 ^ (Int.log 10 x - 5)

private theorem ten_pos (e : ℤ) : (0 : K) < 10 ^ e := zpow_pos (by norm_num) e

private theorem log_bounds (x : K) (hx : 0 < x) : (10 : K) ^ Int.log 10 x ≤ x ∧ x < 10 ^ (Int.log 10 x + 1) := by
  have h1 := Int.zpow_log_le_self (b := 10) (by norm_num) hx
  have h2 := Int.lt_zpow_succ_log_self (b := 10) (by norm_num) x
  push_cast at h1 h2
  exact ⟨h1, h2⟩

private theorem scaled_bounds (x : K) (hx : 0 < x) :
    ((100000 : Nat) : K) ≤ x / 10 ^ (Int.log 10 x - 5) ∧ x / 10 ^ (Int.log 10 x - 5) < ((1000000 : Nat) : K) := by
  obtain ⟨h1, h2⟩ := log_bounds x hx
  rw [le_div_iff₀ (ten_pos _), div_lt_iff₀ (ten_pos _)]
  rw [zpow_add₀ (by norm_num), zpow_one] at h2
  rw [zpow_sub₀ (by norm_num)]
  push_cast
  constructor
  · calc (100000 : K) * (10 ^ Int.log 10 x / 10 ^ (5 : ℤ)) = 10 ^ Int.log 10 x := by
          rw [show (10 : K) ^ (5 : ℤ) = 100000 by norm_num]; field_simp
      _ ≤ x := h1
  · calc x < 10 ^ Int.log 10 x * 10 := h2
      _ = 1000000 * (10 ^ Int.log 10 x / 10 ^ (5 : ℤ)) := by
          rw [show (10 : K) ^ (5 : ℤ) = 100000 by norm_num]; field_simp; norm_num

private theorem digits_bounds (x : K) (hx : 0 < x) :
    100000 ≤ roundHalfEven (x / 10 ^ (Int.log 10 x - 5)) ∧ roundHalfEven (x / 10 ^ (Int.log 10 x - 5)) ≤ 1000000 := by
  obtain ⟨h1, h2⟩ := scaled_bounds x hx
  have a := roundHalfEven_mono _ _ h1
  have b := roundHalfEven_mono _ _ h2.le
  rw [roundHalfEven_natCast] at a b
  exact ⟨a, b⟩

private theorem scientific_spec (x : K) (hx : 0 < x) :
    100000 ≤ (scientific x).1 ∧ (scientific x).1 < 1000000 ∧ ((scientific x).1 : K) * 10 ^ ((scientific x).2 - 5) = sciValue x := by
  obtain ⟨h1, h2⟩ := digits_bounds x hx
  unfold scientific sciValue
  simp only
  generalize roundHalfEven (x / 10 ^ (Int.log 10 x - 5)) = m at h1 h2
  split
  · rename_i h
    refine ⟨le_rfl, by norm_num, ?_⟩
    rw [h, show Int.log 10 x + 1 - 5 = (Int.log 10 x - 5) + 1 by ring, zpow_add₀ (by norm_num), zpow_one]
    push_cast
    ring
  · exact ⟨h1, by simp only; omega, rfl⟩

private theorem sciValue_near (x : K) (hx : 0 < x) : |sciValue x - x| ≤ 5 / 10 ^ 6 * x := by
  obtain ⟨h1, _⟩ := log_bounds x hx
  have h := roundHalfEven_near (x / 10 ^ (Int.log 10 x - 5)) (div_nonneg hx.le (ten_pos _).le)
  have e : sciValue x - x = ((roundHalfEven (x / 10 ^ (Int.log 10 x - 5)) : K) - x / 10 ^ (Int.log 10 x - 5)) * 10 ^ (Int.log 10 x - 5) := by
    have := (ten_pos (K := K) (Int.log 10 x - 5)).ne'
    unfold sciValue
    field_simp
  rw [e, abs_mul, abs_of_pos (ten_pos (K := K) _)]
  calc _ ≤ 1 / 2 * (10 : K) ^ (Int.log 10 x - 5) := mul_le_mul_of_nonneg_right h (ten_pos _).le
    _ = 5 / 10 ^ 6 * 10 ^ Int.log 10 x := by
      rw [zpow_sub₀ (by norm_num), show (10 : K) ^ (5 : ℤ) = 100000 by norm_num]; ring
    _ ≤ 5 / 10 ^ 6 * x := by
      apply mul_le_mul_of_nonneg_left h1; positivity

private theorem sciValue_mono (x y : K) (hx : 0 < x) (h : x ≤ y) : sciValue x ≤ sciValue y := by
  have hy := hx.trans_le h
  rcases (Int.log_mono_right (b := 10) hx h).lt_or_eq with hl | hl
  · have hb := (digits_bounds x hx).2
    have ha := (digits_bounds y hy).1
    calc sciValue x ≤ (1000000 : K) * 10 ^ (Int.log 10 x - 5) := by
          apply mul_le_mul_of_nonneg_right _ (ten_pos _).le
          exact_mod_cast hb
      _ = 10 ^ (Int.log 10 x + 1) := by
          rw [zpow_sub₀ (by norm_num), zpow_add₀ (by norm_num), show (10 : K) ^ (5 : ℤ) = 100000 by norm_num]
          norm_num; ring
      _ ≤ 10 ^ Int.log 10 y := zpow_le_zpow_right₀ (by norm_num) (by omega)
      _ = (100000 : K) * 10 ^ (Int.log 10 y - 5) := by
          rw [zpow_sub₀ (by norm_num), show (10 : K) ^ (5 : ℤ) = 100000 by norm_num]; field_simp
      _ ≤ sciValue y := by
          apply mul_le_mul_of_nonneg_right _ (ten_pos _).le
          exact_mod_cast ha
  · unfold sciValue
    rw [← hl]
    apply mul_le_mul_of_nonneg_right _ (ten_pos _).le
    exact_mod_cast roundHalfEven_mono _ _ (div_le_div_of_nonneg_right h (ten_pos _).le)

/-- What is read from the text of a number. -/
private theorem read_pos (x : K) (hx : 0 < x) : ∃ q : ℚ, readDecimal (formatDouble x) = some q ∧ (q : K) = sciValue x := by
  obtain ⟨h1, h2, h3⟩ := scientific_spec x hx
  refine ⟨((scientific x).1 : ℚ) * 10 ^ ((scientific x).2 - 5), ?_, ?_⟩
  · rw [formatDouble, if_neg hx.ne', if_neg hx.not_gt]
    exact read_generalText _ _ (by omega)
  · rw [← h3]; push_cast; rfl

private theorem sciValue_pos (x : K) (hx : 0 < x) : 0 < sciValue x := by
  have := (digits_bounds x hx).1
  exact mul_pos (by exact_mod_cast (by omega : 0 < roundHalfEven (x / 10 ^ (Int.log 10 x - 5)))) (ten_pos _)

/-- C127. The text of a number (non-negative; a minus sign is put in front of negative ones) can be read back as a decimal number, which
differs from the number by at most five millionths of it. -/
theorem C127_number (x : K) (hx : 0 ≤ x) : ∃ q : ℚ, readDecimal (formatDouble x) = some q ∧ |(q : K) - x| ≤ 5 / 10 ^ 6 * x := by
  rcases hx.eq_or_lt with rfl | hx
  · exact ⟨0, by rw [formatDouble, if_pos rfl]; decide +kernel, by simp⟩
  · obtain ⟨q, h1, h2⟩ := read_pos x hx
    exact ⟨q, h1, by rw [h2]; exact sciValue_near x hx⟩

/-- C127. Negative numbers. -/
theorem C127_negative (x : K) (hx : 0 < x) : formatDouble (-x) = '-' :: formatDouble x := by
  rw [formatDouble, if_neg (by simpa using hx.ne'), if_pos (by simpa using hx), neg_neg, formatDouble, if_neg hx.ne', if_neg hx.not_gt]

/-- C127. Numbers of at most six significant digits are printed exactly. -/
theorem C127_exact (m : Nat) (k : ℤ) (hm : m < 10 ^ 6) :
    readDecimal (formatDouble ((m : K) * 10 ^ k)) = some ((m : ℚ) * 10 ^ k) := by
  rcases Nat.eq_zero_or_pos m with rfl | h0
  · rw [Nat.cast_zero, zero_mul, formatDouble, if_pos rfl]
    simp only [Nat.cast_zero, zero_mul]
    decide +kernel
  have hx : (0 : K) < (m : K) * 10 ^ k := mul_pos (by exact_mod_cast h0) (ten_pos k)
  obtain ⟨q, h1, h2⟩ := read_pos _ hx
  rw [h1]
  congr 1
  have : (q : K) = (m : K) * 10 ^ k := by
    rw [h2]
    obtain ⟨a, b⟩ := scaled_bounds _ hx
    have hs : ∀ e : ℤ, (m : K) * 10 ^ k / 10 ^ (e - 5) = (m : K) * 10 ^ (k - e + 5) := by
      intro e
      rw [mul_div_assoc, ← zpow_sub₀ (by norm_num)]
      congr 2
      ring
    unfold sciValue
    generalize Int.log 10 ((m : K) * 10 ^ k) = e at a b ⊢
    rw [hs] at a b ⊢
    have hnn : 0 ≤ k - e + 5 := by
      by_contra hneg
      have h3 : (10 : K) ^ (k - e + 5) ≤ 10 ^ (-1 : ℤ) := zpow_le_zpow_right₀ (by norm_num) (by omega)
      have h4 : (m : K) < 1000000 := by exact_mod_cast hm
      have h5 : (m : K) * 10 ^ (k - e + 5) < 100000 := by
        calc (m : K) * 10 ^ (k - e + 5) ≤ (m : K) * 10 ^ (-1 : ℤ) := mul_le_mul_of_nonneg_left h3 (by positivity)
          _ < 1000000 * 10 ^ (-1 : ℤ) := mul_lt_mul_of_pos_right h4 (ten_pos _)
          _ = 100000 := by norm_num
      push_cast at a
      linarith
    obtain ⟨j, hj⟩ := Int.eq_ofNat_of_zero_le hnn
    have hn : (m : K) * 10 ^ (k - e + 5) = ((m * 10 ^ j : Nat) : K) := by
      rw [hj]; push_cast; rw [zpow_natCast]
    rw [hn, roundHalfEven_natCast, ← hn, mul_assoc, ← zpow_add₀ (by norm_num)]
    congr 2
    ring
  have h3 : (q : K) = (((m : ℚ) * 10 ^ k : ℚ) : K) := by rw [this]; push_cast; rfl
  exact_mod_cast h3

/-- C127. A larger number is never printed as a smaller one. -/
theorem C127_monotone (x y : K) (hx : 0 ≤ x) (h : x ≤ y) (p q : ℚ) (hp : readDecimal (formatDouble x) = some p)
    (hq : readDecimal (formatDouble y) = some q) : p ≤ q := by
  rcases hx.eq_or_lt with rfl | hx
  · rw [formatDouble, if_pos rfl, show readDecimal ['0'] = some 0 by decide +kernel] at hp
    obtain rfl := Option.some_injective _ hp
    rcases h.eq_or_lt with rfl | hy
    · rw [formatDouble, if_pos rfl, show readDecimal ['0'] = some 0 by decide +kernel] at hq
      exact (Option.some_injective _ hq).le
    · obtain ⟨q', h1, h2⟩ := read_pos y hy
      rw [h1] at hq
      obtain rfl := Option.some_injective _ hq
      have := sciValue_pos y hy
      rw [← h2] at this
      exact_mod_cast this.le
  · obtain ⟨p', h1, h2⟩ := read_pos x hx
    obtain ⟨q', h3, h4⟩ := read_pos y (hx.trans_le h)
    rw [h1] at hp
    rw [h3] at hq
    obtain rfl := Option.some_injective _ hp
    obtain rfl := Option.some_injective _ hq
    have := sciValue_mono x y hx h
    rw [← h2, ← h4] at this
    exact_mod_cast this

/-- C127. Only zero is printed as 0. -/
theorem C127_zero (x : K) (hx : 0 ≤ x) : formatDouble x = ['0'] ↔ x = 0 := by
  constructor
  · intro h
    by_contra hne
    obtain ⟨q, h1, h2⟩ := read_pos x (lt_of_le_of_ne hx (Ne.symm hne))
    rw [h, show readDecimal ['0'] = some 0 by decide +kernel] at h1
    obtain rfl := Option.some_injective _ h1
    have := sciValue_pos x (lt_of_le_of_ne hx (Ne.symm hne))
    rw [← h2] at this
    simp at this
  · rintro rfl; rw [formatDouble, if_pos rfl]

/-- The text is "1" exactly if the digits say one. -/
private theorem one_iff (x : K) (hx : 0 < x) : formatDouble x = ['1'] ↔ sciValue x = 1 := by
  obtain ⟨h1, h2, h3⟩ := scientific_spec x hx
  obtain ⟨q, h4, h5⟩ := read_pos x hx
  constructor
  · intro h
    rw [h, show readDecimal ['1'] = some 1 by decide +kernel] at h4
    obtain rfl := Option.some_injective _ h4
    rw [← h5]; simp
  · intro h
    rw [formatDouble, if_neg hx.ne', if_neg hx.not_gt]
    rw [h] at h3
    generalize (scientific x).1 = m at *
    generalize (scientific x).2 = e at *
    have hm1 : (100000 : K) ≤ m := by exact_mod_cast h1
    have hm2 : (m : K) < 1000000 := by exact_mod_cast h2
    have he : e = 0 := by
      have hp := ten_pos (K := K) (e - 5)
      have h6 : (10 : K) ^ (e - 5) ≤ 10 ^ (-5 : ℤ) := by
        rw [show (10 : K) ^ (-5 : ℤ) = 1 / 100000 by norm_num, le_div_iff₀ (by norm_num)]
        calc _ = 100000 * (10 : K) ^ (e - 5) := by ring
          _ ≤ m * 10 ^ (e - 5) := mul_le_mul_of_nonneg_right hm1 hp.le
          _ = 1 := h3
      have h7 : (10 : K) ^ (-6 : ℤ) < 10 ^ (e - 5) := by
        rw [show (10 : K) ^ (-6 : ℤ) = 1 / 1000000 by norm_num, div_lt_iff₀ (by norm_num)]
        calc (1 : K) = m * 10 ^ (e - 5) := h3.symm
          _ < 1000000 * 10 ^ (e - 5) := mul_lt_mul_of_pos_right hm2 hp
          _ = _ := by ring
      have a := (zpow_le_zpow_iff_right₀ (by norm_num : (1 : K) < 10)).1 h6
      have b := (zpow_lt_zpow_iff_right₀ (by norm_num : (1 : K) < 10)).1 h7
      omega
    have hm : m = 100000 := by
      rw [he, show (10 : K) ^ ((0 : ℤ) - 5) = 1 / 100000 by norm_num] at h3
      have : (m : K) = 100000 := by linarith
      exact_mod_cast this
    rw [he, hm]
    decide +kernel

private theorem one_threshold (p : K) (h0 : 0 < p) (h1 : p < 1) : sciValue p = 1 ↔ 9999995 / 10 ^ 7 ≤ p := by
  constructor
  · intro h
    by_contra hlt
    have hlt := not_le.1 hlt
    -- five decimals are not enough to get there
    obtain ⟨ha, hb⟩ := log_bounds p h0
    have hlog : Int.log 10 p < 0 := by
      have : (10 : K) ^ Int.log 10 p < 10 ^ (0 : ℤ) := by rw [zpow_zero]; exact ha.trans_lt h1
      exact (zpow_lt_zpow_iff_right₀ (by norm_num : (1 : K) < 10)).1 this
    unfold sciValue at h
    have hd := (digits_bounds p h0).2
    have hnear := roundHalfEven_near (p / 10 ^ (Int.log 10 p - 5)) (div_nonneg h0.le (ten_pos _).le)
    rcases (show Int.log 10 p ≤ -1 by omega).lt_or_eq with hl | hl
    · have : (roundHalfEven (p / 10 ^ (Int.log 10 p - 5)) : K) * 10 ^ (Int.log 10 p - 5) ≤ 1000000 * 10 ^ (-7 : ℤ) := by
        apply mul_le_mul (by exact_mod_cast hd) (zpow_le_zpow_right₀ (by norm_num) (by omega)) (ten_pos _).le (by norm_num)
      rw [h] at this
      norm_num at this
    · rw [hl] at h hnear
      rw [show (10 : K) ^ ((-1 : ℤ) - 5) = 1 / 1000000 by norm_num] at h hnear
      rw [show p / (1 / 1000000) = p * 1000000 by ring] at h hnear
      have hr : (roundHalfEven (p * 1000000) : K) = 1000000 := by linarith
      rw [hr, abs_le] at hnear
      have : (9999995 : K) / 10 ^ 7 * 1000000 ≤ p * 1000000 := by
        have := hnear.2
        norm_num
        linarith
      have := le_of_mul_le_mul_right this (by norm_num)
      exact absurd this (not_le.2 hlt)
  · intro h
    have hl : Int.log 10 p = -1 := by
      obtain ⟨ha, hb⟩ := log_bounds p h0
      have a : Int.log 10 p < 0 := by
        have : (10 : K) ^ Int.log 10 p < 10 ^ (0 : ℤ) := by rw [zpow_zero]; exact ha.trans_lt h1
        exact (zpow_lt_zpow_iff_right₀ (by norm_num : (1 : K) < 10)).1 this
      have b : -1 < Int.log 10 p + 1 := by
        have : (10 : K) ^ (-1 : ℤ) < 10 ^ (Int.log 10 p + 1) := by
          refine lt_of_lt_of_le ?_ (h.trans hb.le)
          norm_num
        exact (zpow_lt_zpow_iff_right₀ (by norm_num : (1 : K) < 10)).1 this
      omega
    have hr : roundHalfEven (p * 1000000) = 1000000 := by
      have hf : ⌊p * 1000000⌋₊ = 999999 := by
        rw [Nat.floor_eq_iff (by positivity)]
        push_cast
        constructor
        · have : (9999995 : K) / 10 ^ 7 * 1000000 ≤ p * 1000000 := mul_le_mul_of_nonneg_right h (by norm_num)
          norm_num at this ⊢
          linarith
        · linarith
      have hge : (1 : K) / 2 ≤ p * 1000000 - (999999 : Nat) := by
        have : (9999995 : K) / 10 ^ 7 * 1000000 ≤ p * 1000000 := mul_le_mul_of_nonneg_right h (by norm_num)
        norm_num at this ⊢
        linarith
      unfold roundHalfEven
      simp only [hf]
      rw [if_neg (not_lt.2 hge)]
      split <;> simp
    unfold sciValue
    rw [hl, show (10 : K) ^ ((-1 : ℤ) - 5) = 1 / 1000000 by norm_num, show p / (1 / 1000000) = p * 1000000 by ring, hr]
    norm_num

private theorem one_text : formatDouble (1 : K) = ['1'] := by
  rw [one_iff _ one_pos]
  have := C127_exact (K := K) 1 0 (by norm_num)
  rw [Nat.cast_one, zpow_zero, mul_one] at this
  obtain ⟨q, h1, h2⟩ := read_pos (1 : K) one_pos
  rw [h1] at this
  have := Option.some_injective _ this
  rw [← h2, this]; simp

/-- C127. The text of a p-value.  Up to 0.9999995 it is the number itself, to within five millionths of its value.  Above, where six digits
would show a plain 1, it is "1 - " followed by the distance to one, to within five millionths of this distance. -/
theorem C127_p_value (p : K) (h0 : 0 ≤ p) (h1 : p ≤ 1) :
    (p < 9999995 / 10 ^ 7 → ∃ q : ℚ, readDecimal (pValueToString p) = some q ∧ |(q : K) - p| ≤ 5 / 10 ^ 6 * p) ∧
    (9999995 / 10 ^ 7 ≤ p → p < 1 → ∃ (t : List Char) (q : ℚ), pValueToString p = "1 - ".toList ++ t ∧ readDecimal t = some q ∧
      |(q : K) - (1 - p)| ≤ 5 / 10 ^ 6 * (1 - p)) ∧
    (p = 1 → pValueToString p = "1".toList) := by
  refine ⟨fun h => ?_, fun h hlt => ?_, ?_⟩
  · have hp : pValueToString p = formatDouble p := by
      unfold pValueToString
      simp only
      rw [if_pos]
      rcases h0.eq_or_lt with rfl | h0
      · rw [(C127_zero (0 : K) le_rfl).2 rfl]; decide
      · rw [Ne, one_iff p h0, one_threshold p h0 (h.trans (by norm_num))]
        exact not_le.2 h
    rw [hp]
    exact C127_number p h0
  · have hpos : 0 < p := lt_of_lt_of_le (by norm_num) h
    obtain ⟨q, h2, h3⟩ := C127_number (1 - p) (by linarith)
    refine ⟨formatDouble (1 - p), q, ?_, h2, h3⟩
    unfold pValueToString
    simp only
    rw [if_neg (by rw [not_not, one_iff p hpos, one_threshold p hpos hlt]; exact h),
      if_pos (by rw [Ne, C127_zero _ (by linarith)]; intro h; linarith)]
    rfl
  · rintro rfl
    unfold pValueToString
    simp only
    rw [one_text, if_neg (by simp), sub_self, (C127_zero (0 : K) le_rfl).2 rfl, if_neg (by simp)]
    rfl

/-- C127. Only the p-value one is printed as 1 and only zero as 0. -/
theorem C127_p_value_ends (p : K) (h0 : 0 ≤ p) (h1 : p ≤ 1) :
    (pValueToString p = "1".toList ↔ p = 1) ∧ (pValueToString p = "0".toList ↔ p = 0) := by
  constructor
  · refine ⟨fun h => ?_, (C127_p_value p h0 h1).2.2⟩
    by_contra hne
    have hlt : p < 1 := lt_of_le_of_ne h1 hne
    by_cases hs : p < 9999995 / 10 ^ 7
    · have hp : formatDouble p ≠ ['1'] := by
        rcases h0.eq_or_lt with rfl | h0
        · rw [(C127_zero (0 : K) le_rfl).2 rfl]; decide
        · rw [Ne, one_iff p h0, one_threshold p h0 hlt]; exact not_le.2 hs
      unfold pValueToString at h
      simp only at h
      rw [if_pos hp] at h
      exact hp h
    · obtain ⟨t, q, h2, _⟩ := (C127_p_value p h0 h1).2.1 (not_lt.1 hs) hlt
      rw [h2] at h
      simp at h
  · constructor
    · intro h
      by_cases hs : p < 9999995 / 10 ^ 7
      · have hp : formatDouble p ≠ ['1'] := by
          rcases h0.eq_or_lt with rfl | h0
          · rw [(C127_zero (0 : K) le_rfl).2 rfl]; decide
          · rw [Ne, one_iff p h0, one_threshold p h0 (hs.trans (by norm_num))]; exact not_le.2 hs
        unfold pValueToString at h
        simp only at h
        rw [if_pos hp] at h
        exact (C127_zero p h0).1 h
      · rcases h1.eq_or_lt with rfl | hlt
        · rw [(C127_p_value (1 : K) h0 le_rfl).2.2 rfl] at h
          simp at h
        · obtain ⟨t, q, h2, _⟩ := (C127_p_value p h0 h1).2.1 (not_lt.1 hs) hlt
          rw [h2] at h
          simp at h
    · rintro rfl
      unfold pValueToString
      simp only
      rw [(C127_zero (0 : K) le_rfl).2 rfl, if_pos (by decide)]
      rfl

-- Concrete numbers, among them ties and both styles.
example : formatDouble (1 / 3 : ℚ) = "0.333333".toList := by decide +kernel
example : formatDouble (1 / 30000 : ℚ) = "3.33333e-05".toList := by decide +kernel
example : formatDouble (1234565 / 10 : ℚ) = "123456".toList := by decide +kernel
example : formatDouble (-12345678 : ℚ) = "-1.23457e+07".toList := by decide +kernel
example : formatDouble (1 / 10000 : ℚ) = "0.0001".toList := by decide +kernel
example : pValueToString (1 - 1 / 10 ^ 12 : ℚ) = "1 - 1e-12".toList := by decide +kernel
example : pValueToString (999999 / 10 ^ 6 : ℚ) = "0.999999".toList := by decide +kernel
example : readDecimal "1.5e+06".toList = some 1500000 := by decide +kernel

end TFR
