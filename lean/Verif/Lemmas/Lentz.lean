import Verif.Lemmas.IncGamma
import Mathlib.Analysis.SpecialFunctions.Exp
import Mathlib.Analysis.Complex.ExponentialBounds
/-
The continued fraction of the upper incomplete gamma function, evaluated by Lentz's algorithm without clamping: bounds,
error after the stopping test, and the number of iterations.
-/
namespace TFR.IncGamma
variable {s z : ℝ}

/-- Partial numerators and denominators. -/
noncomputable def ca (s : ℝ) (j : Nat) : ℝ := (j : ℝ) * (s - j)
noncomputable def cb (s z : ℝ) (j : Nat) : ℝ := 2 * (j : ℝ) + 1 + z - s

noncomputable def lC (s z : ℝ) : Nat → ℝ
  | 0 => 1 + z - s
  | j + 1 => cb s z (j + 1) + ca s (j + 1) / lC s z j

noncomputable def lD (s z : ℝ) : Nat → ℝ
  | 0 => 0
  | j + 1 => 1 / (cb s z (j + 1) + ca s (j + 1) * lD s z j)

noncomputable def lF (s z : ℝ) : Nat → ℝ
  | 0 => 1 + z - s
  | j + 1 => lF s z j * (lC s z (j + 1) * lD s z (j + 1))

/-- One step of either recurrence keeps the lower bounds. -/
private theorem step_ge (hzs : s ≤ z) (hz : 1 ≤ z) (j : Nat) (y : ℝ) (hy0 : 0 ≤ y) (hy : y ≤ 1 / ((j : ℝ) + 1)) :
    (j : ℝ) + 2 ≤ cb s z (j + 1) + ca s (j + 1) * y ∧ (s < (j : ℝ) + 1 → (j : ℝ) + 2 + z ≤ cb s z (j + 1) + ca s (j + 1) * y) ∧
    ((j : ℝ) + 1 ≤ s → cb s z (j + 1) ≤ cb s z (j + 1) + ca s (j + 1) * y) := by
  have hj : (0 : ℝ) < (j : ℝ) + 1 := by positivity
  unfold cb ca
  push_cast
  have h2 : s < (j : ℝ) + 1 → (j : ℝ) + 2 + z ≤ 2 * ((j : ℝ) + 1) + 1 + z - s + ((j : ℝ) + 1) * (s - ((j : ℝ) + 1)) * y := by
    intro h
    have h1 : ((j : ℝ) + 1) * y ≤ 1 := by rwa [le_div_iff₀ hj, mul_comm] at hy
    nlinarith
  have h3 : (j : ℝ) + 1 ≤ s → 0 ≤ ((j : ℝ) + 1) * (s - ((j : ℝ) + 1)) * y := by
    intro h
    have : 0 ≤ s - ((j : ℝ) + 1) := by linarith
    positivity
  refine ⟨?_, h2, fun h => by linarith [h3 h]⟩
  rcases lt_or_ge s ((j : ℝ) + 1) with h | h
  · linarith [h2 h]
  · have := h3 h
    linarith

theorem lC_ge (hzs : s ≤ z) (hz : 1 ≤ z) : ∀ j : Nat, (j : ℝ) + 1 ≤ lC s z j
  | 0 => by simp only [lC, Nat.cast_zero]; linarith
  | j + 1 => by
    have ih := lC_ge hzs hz j
    have hpos : (0 : ℝ) < lC s z j := lt_of_lt_of_le (by positivity) ih
    have := (step_ge hzs hz j (1 / lC s z j) (by positivity) (by gcongr)).1
    rw [lC, div_eq_mul_one_div]
    push_cast
    linarith

theorem lC_pos (hzs : s ≤ z) (hz : 1 ≤ z) (j : Nat) : 0 < lC s z j := lt_of_lt_of_le (by positivity) (lC_ge hzs hz j)

theorem lD_bounds (hzs : s ≤ z) (hz : 1 ≤ z) : ∀ j : Nat, 0 ≤ lD s z j ∧ lD s z j ≤ 1 / ((j : ℝ) + 1)
  | 0 => by simp [lD]
  | j + 1 => by
    obtain ⟨h0, h1⟩ := lD_bounds hzs hz j
    have h2 := (step_ge hzs hz j (lD s z j) h0 h1).1
    have hp : (0 : ℝ) < (j : ℝ) + 2 := by positivity
    rw [lD]
    have h3 : 0 < cb s z (j + 1) + ca s (j + 1) * lD s z j := by linarith
    refine ⟨by positivity, ?_⟩
    push_cast
    rw [show (j : ℝ) + 1 + 1 = j + 2 by ring]
    gcongr

theorem den_ge (hzs : s ≤ z) (hz : 1 ≤ z) (j : Nat) : (j : ℝ) + 2 ≤ cb s z (j + 1) + ca s (j + 1) * lD s z j :=
  (step_ge hzs hz j _ (lD_bounds hzs hz j).1 (lD_bounds hzs hz j).2).1

theorem lD_pos (hzs : s ≤ z) (hz : 1 ≤ z) (j : Nat) : 0 < lD s z (j + 1) := by
  have := den_ge hzs hz j
  rw [lD]
  have h : (0 : ℝ) < (j : ℝ) + 2 := by positivity
  have : 0 < cb s z (j + 1) + ca s (j + 1) * lD s z j := by linarith
  positivity

theorem lF_pos (hzs : s ≤ z) (hz : 1 ≤ z) : ∀ j : Nat, 0 < lF s z j
  | 0 => by simp only [lF]; linarith
  | j + 1 => by
    have := lF_pos hzs hz j
    have := lD_pos hzs hz j
    have := lC_pos hzs hz (j + 1)
    rw [lF]; positivity

/-- Distance of the last factor from one. -/
noncomputable def lE (s z : ℝ) (j : Nat) : ℝ := |lC s z j * lD s z j - 1|

theorem lE_zero : lE s z 0 = 1 := by simp [lE, lD]

theorem lE_succ (hzs : s ≤ z) (hz : 1 ≤ z) (j : Nat) :
    lE s z (j + 1) = |ca s (j + 1)| * lD s z (j + 1) / lC s z j * lE s z j := by
  have h1 := den_ge hzs hz j
  have h2 : (0 : ℝ) < (j : ℝ) + 2 := by positivity
  have hd : 0 < cb s z (j + 1) + ca s (j + 1) * lD s z j := by linarith
  have hC := lC_pos hzs hz j
  have hD := lD_pos hzs hz j
  have hD' : lD s z (j + 1) * (cb s z (j + 1) + ca s (j + 1) * lD s z j) = 1 := by
    rw [lD]; field_simp
  have key : lC s z (j + 1) * lD s z (j + 1) - 1 = -(ca s (j + 1) * lD s z (j + 1) / lC s z j * (lC s z j * lD s z j - 1)) := by
    rw [lC]
    field_simp
    linear_combination lC s z j * hD'
  unfold lE
  rw [key, abs_neg, abs_mul, abs_div, abs_mul, abs_of_pos hD, abs_of_pos hC]

/-- The true value of the fraction, and its tails. -/
noncomputable def fTrue (s z : ℝ) : ℝ := z ^ s * Real.exp (-z) / J s z 0
noncomputable def tail (s z : ℝ) (j : Nat) : ℝ := (s - ((j : ℝ) + 1)) * (J s z (j + 1) / J s z j)

theorem tail_rec (hz : 0 < z) (j : Nat) :
    tail s z j * (cb s z (j + 1) + tail s z (j + 1)) = ca s (j + 1) ∧ 0 < cb s z (j + 1) + tail s z (j + 1) := by
  have h := J_succ (s := s) hz j
  have h0 := J_pos (s := s) hz j
  have h1 := J_pos (s := s) hz (j + 1)
  have e : cb s z (j + 1) + tail s z (j + 1) = ((j : ℝ) + 1) * J s z j / J s z (j + 1) := by
    unfold cb tail
    rw [eq_div_iff h1.ne']
    push_cast at h ⊢
    rw [h]
    field_simp
    ring
  rw [e]
  refine ⟨?_, by positivity⟩
  unfold tail ca
  push_cast
  field_simp

/-- Lentz's algorithm approximates the fraction. -/
theorem lentz_inv (hzs : s ≤ z) (hz : 1 ≤ z) (j : Nat) :
    fTrue s z * (1 + tail s z j * lD s z j) = lF s z j * (1 + tail s z j / lC s z j) := by
  have hz0 : 0 < z := by linarith
  induction j with
  | zero =>
    have h := J_first (s := s) hz0
    have h0 := J_pos (s := s) hz0 0
    have hb : 0 < 1 + z - s := by linarith
    simp only [lD, lF, lC]
    unfold fTrue tail
    rw [h]
    push_cast
    field_simp
    ring
  | succ j ih =>
    obtain ⟨h1, hT⟩ := tail_rec (s := s) hz0 j
    have hC := lC_pos hzs hz j
    have hC' := lC_pos hzs hz (j + 1)
    have hD' := lD_pos hzs hz j
    have hden : 0 < cb s z (j + 1) + ca s (j + 1) * lD s z j := by
      have := den_ge hzs hz j
      have h2 : (0 : ℝ) < (j : ℝ) + 2 := by positivity
      linarith
    have hDd : lD s z (j + 1) * (cb s z (j + 1) + ca s (j + 1) * lD s z j) = 1 := by rw [lD]; field_simp
    have hCC : lC s z (j + 1) * lC s z j = cb s z (j + 1) * lC s z j + ca s (j + 1) := by rw [lC]; field_simp
    set T := cb s z (j + 1) + tail s z (j + 1) with hTdef
    -- multiply the hypothesis by T
    have e1 : fTrue s z * (T + ca s (j + 1) * lD s z j) * lC s z j = lF s z j * (T * lC s z j + ca s (j + 1)) := by
      have := congrArg (fun x => x * T * lC s z j) ih
      rw [show fTrue s z * (1 + tail s z j * lD s z j) * T * lC s z j =
        fTrue s z * (T + (tail s z j * T) * lD s z j) * lC s z j by ring, h1,
        show lF s z j * (1 + tail s z j / lC s z j) * T * lC s z j = lF s z j * (T * lC s z j + tail s z j * T * (lC s z j / lC s z j)) by
          field_simp, h1, div_self hC.ne', mul_one] at this
      exact this
    rw [lF]
    have hbT : T = cb s z (j + 1) + tail s z (j + 1) := hTdef
    have e2 : fTrue s z * (1 + tail s z (j + 1) * lD s z (j + 1)) * lC s z j =
        lF s z j * lD s z (j + 1) * (lC s z (j + 1) * lC s z j + tail s z (j + 1) * lC s z j) := by
      rw [hCC]
      have : 1 + tail s z (j + 1) * lD s z (j + 1) = lD s z (j + 1) * (T + ca s (j + 1) * lD s z j) := by
        rw [hbT, ← hDd]; ring
      rw [this]
      calc fTrue s z * (lD s z (j + 1) * (T + ca s (j + 1) * lD s z j)) * lC s z j =
          lD s z (j + 1) * (fTrue s z * (T + ca s (j + 1) * lD s z j) * lC s z j) := by ring
        _ = lD s z (j + 1) * (lF s z j * (T * lC s z j + ca s (j + 1))) := by rw [e1]
        _ = _ := by rw [hbT]; ring
    apply mul_right_cancel₀ hC.ne'
    rw [e2]
    field_simp

/-- Lower bounds used where the tail is negative. -/
private theorem late_ge (hs : 0 < s) (hzs : s ≤ z) (hz : 1 ≤ z) (j : Nat) (hj : s < (j : ℝ) + 2) :
    ((j : ℝ) + 1 + z ≤ lC s z (j + 1) ∧ lD s z (j + 1) * ((j : ℝ) + 1 + z) ≤ 1) ∧
    (s < (j : ℝ) + 1 → (j : ℝ) + 2 + z ≤ lC s z (j + 1) ∧ lD s z (j + 1) * ((j : ℝ) + 2 + z) ≤ 1) := by
  have hC := lC_ge hzs hz j
  have hCp := lC_pos hzs hz j
  have hp : (0 : ℝ) < (j : ℝ) + 1 := by positivity
  obtain ⟨hD0, hD1⟩ := lD_bounds hzs hz j
  have a1 := step_ge hzs hz j (1 / lC s z j) (by positivity) (by gcongr)
  have a2 := step_ge hzs hz j (lD s z j) hD0 hD1
  have hlate : s < (j : ℝ) + 1 → (j : ℝ) + 2 + z ≤ lC s z (j + 1) ∧ lD s z (j + 1) * ((j : ℝ) + 2 + z) ≤ 1 := by
    intro h
    have b1 := a1.2.1 h
    have b2 := a2.2.1 h
    refine ⟨by rw [lC, div_eq_mul_one_div]; exact b1, ?_⟩
    rw [lD, one_div, inv_mul_le_iff₀ (by linarith), mul_one]; exact b2
  refine ⟨?_, hlate⟩
  rcases lt_or_ge s ((j : ℝ) + 1) with h | h
  · obtain ⟨b1, b2⟩ := hlate h
    have := lD_pos hzs hz j
    exact ⟨by linarith, by nlinarith⟩
  · have b1 := a1.2.2 h
    have b2 := a2.2.2 h
    have b3 : (j : ℝ) + 1 + z ≤ cb s z (j + 1) := by
      unfold cb; push_cast; linarith
    refine ⟨by rw [lC, div_eq_mul_one_div]; linarith, ?_⟩
    rw [lD, one_div, inv_mul_le_iff₀ (by linarith), mul_one]; linarith

/-- Relative error after the stopping test. -/
theorem lentz_error (hs : 0 < s) (hzs : s ≤ z) (hz : 1 ≤ z) (j : Nat) (ε : ℝ) (hε : ε ≤ 1 / 2) (he : lE s z (j + 1) < ε) :
    |fTrue s z / lF s z (j + 1) - 1| ≤ ε * ((j : ℝ) + 2) := by
  have hz0 : 0 < z := by linarith
  have hinv := lentz_inv hzs hz (j + 1)
  have hF := lF_pos hzs hz (j + 1)
  have hC := lC_pos hzs hz (j + 1)
  have hD := lD_pos hzs hz j
  set R := tail s z (j + 1) with hR
  set C := lC s z (j + 1)
  set D := lD s z (j + 1)
  have hCD : |1 - C * D| < ε := by rw [abs_sub_comm]; exact he
  have hε0 : 0 < ε := lt_of_le_of_lt (abs_nonneg _) hCD
  have hρ0 : 0 < J s z (j + 1 + 1) / J s z (j + 1) := div_pos (J_pos hz0 _) (J_pos hz0 _)
  have hρ1 : J s z (j + 1 + 1) / J s z (j + 1) ≤ 1 := by
    rw [div_le_one (J_pos hz0 _)]; exact J_anti hz0 _
  have hRdef : R = (s - ((j : ℝ) + 2)) * (J s z (j + 1 + 1) / J s z (j + 1)) := by
    rw [hR, tail]; push_cast; ring
  set ρ := J s z (j + 1 + 1) / J s z (j + 1)
  -- a bound on `|R / C| / (1 + R D)`
  have main : 0 < 1 + R * D ∧ |R| ≤ ((j : ℝ) + 2) * (C * (1 + R * D)) := by
    rcases le_or_gt ((j : ℝ) + 2) s with h | h
    · have hR0 : 0 ≤ R := by
        rw [hRdef]; exact mul_nonneg (by linarith) hρ0.le
      have : 0 ≤ R * D := by positivity
      refine ⟨by linarith, ?_⟩
      rw [abs_of_nonneg hR0]
      have h1 : 1 / 2 ≤ C * D := by
        have := (abs_lt.1 hCD).2
        linarith
      have h2 : R ≤ 2 * (C * (1 + R * D)) := by nlinarith
      refine h2.trans ?_
      have : 0 ≤ C * (1 + R * D) := by positivity
      have : (0 : ℝ) ≤ j := by positivity
      nlinarith
    · have hRle : |R| ≤ (j : ℝ) + 2 - s := by
        rw [hRdef, abs_mul, abs_of_pos hρ0, abs_of_neg (by linarith)]
        nlinarith
      have hRneg : -|R| ≤ R := neg_abs_le R
      obtain ⟨⟨hC1, hD1⟩, hlate⟩ := late_ge hs hzs hz j (by linarith)
      obtain ⟨m, hCm, hDm, hm, hm0⟩ : ∃ m : ℝ, m ≤ C ∧ D * m ≤ 1 ∧ z ≤ m - ((j : ℝ) + 2 - s) ∧ 0 < m := by
        rcases lt_or_ge s ((j : ℝ) + 1) with h' | h'
        · obtain ⟨h1, h2⟩ := hlate h'
          exact ⟨_, h1, h2, by linarith, by positivity⟩
        · refine ⟨_, hC1, hD1, ?_, by positivity⟩
          have : (0 : ℝ) ≤ j := by positivity
          linarith
      have h1 : z ≤ m * (1 + R * D) := by
        have i1 : 0 ≤ |R| * (1 - D * m) := mul_nonneg (abs_nonneg _) (by linarith)
        have i2 : 0 ≤ (R + |R|) * (D * m) := mul_nonneg (by linarith) (by positivity)
        nlinarith
      have h2 : 0 < 1 + R * D := by
        by_contra hcon
        push Not at hcon
        nlinarith
      refine ⟨h2, hRle.trans ?_⟩
      have h3 : 1 ≤ C * (1 + R * D) := by nlinarith
      have : (0 : ℝ) ≤ j := by positivity
      nlinarith
  obtain ⟨hpos, hle⟩ := main
  have hfrac : fTrue s z / lF s z (j + 1) - 1 = R * (1 - C * D) / (C * (1 + R * D)) := by
    have : fTrue s z = lF s z (j + 1) * (1 + R / C) / (1 + R * D) := by
      rw [eq_div_iff hpos.ne']; exact hinv
    rw [this]
    field_simp
    ring
  have hCp : 0 < C * (1 + R * D) := by positivity
  rw [hfrac, abs_div, abs_mul, abs_of_pos hCp, div_le_iff₀ hCp]
  calc |R| * |1 - C * D| ≤ ((j : ℝ) + 2) * (C * (1 + R * D)) * ε := by
        apply mul_le_mul hle hCD.le (abs_nonneg _) (by positivity)
    _ = _ := by ring

end TFR.IncGamma
