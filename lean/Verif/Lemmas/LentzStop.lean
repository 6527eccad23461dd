import Verif.Lemmas.Lentz
import Mathlib.Algebra.Order.Floor.Semiring
/-
Both iterations for the incomplete gamma function meet their stopping test within 9999 rounds.
-/
namespace TFR.IncGamma
variable {s z : ℝ}

private theorem cb_ge (hzs : s ≤ z) (j : Nat) : 2 * (j : ℝ) + 1 ≤ cb s z j := by unfold cb; linarith

private theorem ca_nonneg (j : Nat) (h : (j : ℝ) ≤ s) : 0 ≤ ca s j := by
  unfold ca; exact mul_nonneg (by positivity) (by linarith)

private theorem lC_ge_cb (hzs : s ≤ z) (hz : 1 ≤ z) (j : Nat) (h : (j : ℝ) ≤ s) : cb s z j ≤ lC s z j := by
  cases j with
  | zero => simp [lC, cb]
  | succ j =>
    rw [lC]
    have := div_nonneg (ca_nonneg (j + 1) h) (lC_pos hzs hz j).le
    linarith

/-- Two rounds with non-negative numerators. -/
private theorem pair (hs : 0 < s) (hzs : s ≤ z) (hz : 1 ≤ z) (j : Nat) (h : (j : ℝ) + 2 ≤ s) :
    lE s z (j + 2) ≤ (s / (s + 3 * ((j : ℝ) + 2))) * (s / (s + 3 * ((j : ℝ) + 1))) * lE s z j := by
  have hj : (0 : ℝ) ≤ j := by positivity
  rw [show j + 2 = j + 1 + 1 from rfl, lE_succ hzs hz, lE_succ hzs hz]
  have a1 := ca_nonneg (s := s) (j + 1) (by push_cast; linarith)
  have a2 := ca_nonneg (s := s) (j + 1 + 1) (by push_cast; linarith)
  rw [abs_of_nonneg a1, abs_of_nonneg a2]
  have hC0 := lC_pos hzs hz j
  have hC1 := lC_pos hzs hz (j + 1)
  have hD1 := lD_pos hzs hz j
  have hD2 := lD_pos hzs hz (j + 1)
  have b0 := cb_ge hzs (s := s) j
  have b1 := cb_ge hzs (s := s) (j + 1)
  have b2 := cb_ge hzs (s := s) (j + 1 + 1)
  push_cast at b1 b2
  have hle : ∀ (i : ℝ) (a bb : ℝ), 0 ≤ a → 1 ≤ i → a ≤ i * s → (2 * i + 1) * (2 * i - 1) ≤ bb → a * (s + 3 * i) ≤ s * (a + bb) := by
    intro i a bb _ hi ha hb
    have : 3 * i * a ≤ 3 * i * (i * s) := by nlinarith
    have : 3 * i * i ≤ bb := by nlinarith
    nlinarith
  -- denominators
  have d1 : ca s (j + 1) + cb s z (j + 1) * cb s z j ≤ lC s z (j + 1) * lC s z j := by
    have e : lC s z (j + 1) * lC s z j = cb s z (j + 1) * lC s z j + ca s (j + 1) := by rw [lC]; field_simp
    rw [e]
    have := lC_ge_cb hzs hz j (by linarith)
    nlinarith
  have d2 : (ca s (j + 1 + 1) + cb s z (j + 1 + 1) * cb s z (j + 1)) * (lD s z (j + 1 + 1) * lD s z (j + 1)) ≤ 1 := by
    have hD1' : lD s z (j + 1) * (cb s z (j + 1) + ca s (j + 1) * lD s z j) = 1 := by
      have := den_ge hzs hz j
      have h2 : (0 : ℝ) < (j : ℝ) + 2 := by positivity
      have : 0 < cb s z (j + 1) + ca s (j + 1) * lD s z j := by linarith
      rw [lD]; field_simp
    have hD2' : lD s z (j + 1 + 1) * (cb s z (j + 1 + 1) + ca s (j + 1 + 1) * lD s z (j + 1)) = 1 := by
      have := den_ge hzs hz (j + 1)
      have h2 : (0 : ℝ) < ((j + 1 : ℕ) : ℝ) + 2 := by positivity
      have : 0 < cb s z (j + 1 + 1) + ca s (j + 1 + 1) * lD s z (j + 1) := by linarith
      rw [lD]; field_simp
    have hD0 := (lD_bounds hzs hz j).1
    have f1 : cb s z (j + 1) * lD s z (j + 1) ≤ 1 := by
      have : 0 ≤ ca s (j + 1) * lD s z j * lD s z (j + 1) := by positivity
      nlinarith
    have f2 : cb s z (j + 1 + 1) * lD s z (j + 1 + 1) * (cb s z (j + 1) * lD s z (j + 1)) ≤ cb s z (j + 1 + 1) * lD s z (j + 1 + 1) := by
      have : 0 ≤ cb s z (j + 1 + 1) * lD s z (j + 1 + 1) := mul_nonneg (by linarith) hD2.le
      nlinarith
    nlinarith
  have g1 := hle ((j : ℝ) + 1) (ca s (j + 1)) (cb s z (j + 1) * cb s z j) a1 (by linarith)
    (by unfold ca; push_cast; nlinarith) (by nlinarith)
  have g2 := hle ((j : ℝ) + 2) (ca s (j + 1 + 1)) (cb s z (j + 1 + 1) * cb s z (j + 1)) a2 (by linarith)
    (by unfold ca; push_cast; nlinarith) (by nlinarith)
  have p1 : 0 < s + 3 * ((j : ℝ) + 1) := by positivity
  have p2 : 0 < s + 3 * ((j : ℝ) + 2) := by positivity
  have r1 : ca s (j + 1) / (lC s z (j + 1) * lC s z j) ≤ s / (s + 3 * ((j : ℝ) + 1)) := by
    rw [div_le_div_iff₀ (by positivity) p1]
    exact g1.trans (mul_le_mul_of_nonneg_left d1 hs.le)
  have r2 : ca s (j + 1 + 1) * (lD s z (j + 1 + 1) * lD s z (j + 1)) ≤ s / (s + 3 * ((j : ℝ) + 2)) := by
    rw [le_div_iff₀ p2]
    have hDD : 0 < lD s z (j + 1 + 1) * lD s z (j + 1) := by positivity
    calc ca s (j + 1 + 1) * (lD s z (j + 1 + 1) * lD s z (j + 1)) * (s + 3 * ((j : ℝ) + 2))
        = ca s (j + 1 + 1) * (s + 3 * ((j : ℝ) + 2)) * (lD s z (j + 1 + 1) * lD s z (j + 1)) := by ring
      _ ≤ s * (ca s (j + 1 + 1) + cb s z (j + 1 + 1) * cb s z (j + 1)) * (lD s z (j + 1 + 1) * lD s z (j + 1)) :=
          mul_le_mul_of_nonneg_right g2 hDD.le
      _ = s * ((ca s (j + 1 + 1) + cb s z (j + 1 + 1) * cb s z (j + 1)) * (lD s z (j + 1 + 1) * lD s z (j + 1))) := by ring
      _ ≤ s * 1 := mul_le_mul_of_nonneg_left d2 hs.le
      _ = s := mul_one s
  have hE : 0 ≤ lE s z j := abs_nonneg _
  calc ca s (j + 1 + 1) * lD s z (j + 1 + 1) / lC s z (j + 1) * (ca s (j + 1) * lD s z (j + 1) / lC s z j * lE s z j)
      = (ca s (j + 1 + 1) * (lD s z (j + 1 + 1) * lD s z (j + 1))) * (ca s (j + 1) / (lC s z (j + 1) * lC s z j)) * lE s z j := by
        field_simp
    _ ≤ (s / (s + 3 * ((j : ℝ) + 2))) * (s / (s + 3 * ((j : ℝ) + 1))) * lE s z j := by
        apply mul_le_mul_of_nonneg_right _ hE
        exact mul_le_mul r2 r1 (by positivity) (by positivity)

private theorem even_le_one (hs : 0 < s) (hzs : s ≤ z) (hz : 1 ≤ z) (m : Nat) (h : 2 * (m : ℝ) ≤ s) : lE s z (2 * m) ≤ 1 := by
  induction m with
  | zero => rw [Nat.mul_zero, lE_zero]
  | succ m ih =>
    push_cast at h
    have h1 := pair hs hzs hz (2 * m) (by push_cast; linarith)
    have hE : 0 ≤ lE s z (2 * m) := abs_nonneg _
    have h2 := ih (by linarith)
    have : (0 : ℝ) ≤ m := by positivity
    push_cast at h1
    have q1 : s / (s + 3 * (2 * (m : ℝ) + 2)) ≤ 1 := by rw [div_le_one (by positivity)]; linarith
    have q2 : s / (s + 3 * (2 * (m : ℝ) + 1)) ≤ 1 := by rw [div_le_one (by positivity)]; linarith
    have q3 : 0 ≤ s / (s + 3 * (2 * (m : ℝ) + 2)) := by positivity
    have q4 : s / (s + 3 * (2 * (m : ℝ) + 2)) * (s / (s + 3 * (2 * (m : ℝ) + 1))) ≤ 1 := mul_le_one₀ q1 (by positivity) q2
    rw [show 2 * (m + 1) = 2 * m + 2 by ring]
    refine h1.trans ?_
    exact (mul_le_mul q4 h2 hE (by norm_num)).trans (by norm_num)

private theorem even_geom (hs : 0 < s) (hzs : s ≤ z) (hz : 1 ≤ z) (q k : Nat) (h : 2 * (q : ℝ) + 2 * k ≤ s) :
    lE s z (2 * (q + k)) ≤ (s / (s + 6 * q)) ^ (2 * k) := by
  induction k with
  | zero => simpa using even_le_one hs hzs hz q (by simpa using h)
  | succ k ih =>
    push_cast at h
    have h1 := pair hs hzs hz (2 * (q + k)) (by push_cast; linarith)
    have h2 := ih (by linarith)
    have hE : 0 ≤ lE s z (2 * (q + k)) := abs_nonneg _
    have : (0 : ℝ) ≤ q := by positivity
    have : (0 : ℝ) ≤ k := by positivity
    push_cast at h1
    have q1 : s / (s + 3 * (2 * ((q : ℝ) + k) + 2)) ≤ s / (s + 6 * q) := by
      apply div_le_div_of_nonneg_left hs.le (by positivity); linarith
    have q2 : s / (s + 3 * (2 * ((q : ℝ) + k) + 1)) ≤ s / (s + 6 * q) := by
      apply div_le_div_of_nonneg_left hs.le (by positivity); linarith
    rw [show 2 * (q + (k + 1)) = 2 * (q + k) + 2 by ring, show 2 * (k + 1) = 2 * k + 2 by ring, pow_add, pow_two,
      mul_comm (_ ^ (2 * k))]
    refine h1.trans ?_
    have r0 : 0 ≤ s / (s + 6 * q) := by positivity
    exact mul_le_mul (mul_le_mul q1 q2 (by positivity) r0) h2 hE (by positivity)

/-- Many numerators are non-negative. -/
private theorem stop_large (hs : 100 ≤ s) (hs2 : s ≤ 550000) (hzs : s ≤ z) (hz : 1 ≤ z) :
    ∃ j, j + 1 ≤ 9999 ∧ lE s z (j + 1) < 1 / 10 ^ 14 := by
  have hs0 : 0 < s := by linarith
  obtain ⟨q, hq1, hq2, hq3, hx⟩ : ∃ q : Nat, 25 ≤ q ∧ q ≤ 2499 ∧ 4 * (q : ℝ) ≤ s ∧ (2 : ℝ) ^ 50 ≤ ((s + 6 * q) / s) ^ (2 * q) := by
    rcases le_or_gt 9996 s with h | h
    · refine ⟨2499, by norm_num, by norm_num, by push_cast; linarith, ?_⟩
      have h1 : (1 + 1 / 37 : ℝ) ≤ (s + 6 * (2499 : ℕ)) / s := by
        rw [le_div_iff₀ hs0]; push_cast; linarith
      have h2 : (2 : ℝ) ≤ (1 + 1 / 37) ^ 37 := by
        have := one_add_mul_le_pow (a := (1 / 37 : ℝ)) (by norm_num) 37
        norm_num at this ⊢
      calc (2 : ℝ) ^ 50 ≤ ((1 + 1 / 37) ^ 37) ^ 50 := pow_le_pow_left₀ (by norm_num) h2 50
        _ = (1 + 1 / 37) ^ 1850 := by rw [← pow_mul]
        _ ≤ (1 + 1 / 37) ^ (2 * 2499) := pow_le_pow_right₀ (by norm_num) (by norm_num)
        _ ≤ _ := pow_le_pow_left₀ (by norm_num) h1 _
    · have hf1 := Nat.floor_le (a := s / 4) (by positivity)
      have hf2 := Nat.lt_floor_add_one (s / 4)
      have hq : 25 ≤ ⌊s / 4⌋₊ := Nat.le_floor (by push_cast; linarith)
      refine ⟨⌊s / 4⌋₊, hq, ?_, by linarith, ?_⟩
      · have : ⌊s / 4⌋₊ < 2500 := by
          rw [Nat.floor_lt (by positivity)]; push_cast; linarith
        omega
      · have hqr : (25 : ℝ) ≤ (⌊s / 4⌋₊ : ℕ) := by exact_mod_cast hq
        have h1 : (2 : ℝ) ≤ (s + 6 * (⌊s / 4⌋₊ : ℕ)) / s := by
          rw [le_div_iff₀ hs0]; linarith
        calc (2 : ℝ) ^ 50 ≤ 2 ^ (2 * ⌊s / 4⌋₊) := pow_le_pow_right₀ (by norm_num) (by omega)
          _ ≤ _ := pow_le_pow_left₀ (by norm_num) h1 _
  have h := even_geom hs0 hzs hz q q (by linarith)
  refine ⟨2 * (q + q) - 1, by omega, ?_⟩
  rw [show 2 * (q + q) - 1 + 1 = 2 * (q + q) by omega]
  refine lt_of_le_of_lt h ?_
  have hq0 : (0 : ℝ) ≤ q := by positivity
  rw [show s / (s + 6 * q) = ((s + 6 * q) / s)⁻¹ by rw [inv_div], inv_pow]
  calc (((s + 6 * q) / s) ^ (2 * q))⁻¹ ≤ ((2 : ℝ) ^ 50)⁻¹ := by gcongr
    _ < 1 / 10 ^ 14 := by norm_num

/-! ### Few non-negative numerators -/

private theorem ratio_le (hs : 0 < s) (hzs : s ≤ z) (hz : 1 ≤ z) (j : Nat) (h : s < (j : ℝ) + 2) :
    |ca s (j + 1)| * lD s z (j + 1) / lC s z j ≤ 1 := by
  have hC := lC_ge hzs hz j
  have hCp := lC_pos hzs hz j
  have hD := (lD_bounds hzs hz (j + 1)).2
  have hD0 := lD_pos hzs hz j
  have hj : (0 : ℝ) ≤ j := by positivity
  rw [div_le_one hCp]
  push_cast at hD
  have hD' : lD s z (j + 1) * ((j : ℝ) + 2) ≤ 1 := by
    rw [show (j : ℝ) + 1 + 1 = j + 2 by ring, le_div_iff₀ (by positivity)] at hD; exact hD
  have ha : |ca s (j + 1)| ≤ ((j : ℝ) + 1) * ((j : ℝ) + 2) := by
    unfold ca
    push_cast
    rw [abs_mul, abs_of_nonneg (show (0 : ℝ) ≤ (j : ℝ) + 1 by positivity)]
    apply mul_le_mul_of_nonneg_left _ (by positivity)
    rw [abs_le]; constructor <;> linarith
  calc |ca s (j + 1)| * lD s z (j + 1) ≤ ((j : ℝ) + 1) * ((j : ℝ) + 2) * lD s z (j + 1) :=
        mul_le_mul_of_nonneg_right ha hD0.le
    _ = ((j : ℝ) + 1) * (lD s z (j + 1) * ((j : ℝ) + 2)) := by ring
    _ ≤ ((j : ℝ) + 1) * 1 := mul_le_mul_of_nonneg_left hD' (by positivity)
    _ ≤ lC s z j := by linarith

private theorem late_le_one (hs : 0 < s) (hzs : s ≤ z) (hz : 1 ≤ z) (k : Nat) : lE s z (2 * ⌊s / 2⌋₊ + k) ≤ 1 := by
  have hf1 := Nat.floor_le (a := s / 2) (by positivity)
  have hf2 := Nat.lt_floor_add_one (s / 2)
  induction k with
  | zero => exact even_le_one hs hzs hz _ (by linarith)
  | succ k ih =>
    rw [← add_assoc, lE_succ hzs hz]
    have : (0 : ℝ) ≤ k := by positivity
    have h1 := ratio_le hs hzs hz (2 * ⌊s / 2⌋₊ + k) (by push_cast; linarith)
    exact mul_le_one₀ h1 (abs_nonneg _) ih

/-- Growth of the denominators. -/
private theorem grow_step (hzs : s ≤ z) (hz : 1 ≤ z) (j : Nat) (hj : 2100 ≤ j) (hsj : s < j) (g y : ℝ) (hg1 : 1 ≤ g) (hg2 : g ≤ 40)
    (hy0 : 0 ≤ y) (hy : y * ((j : ℝ) + g) ≤ 1) : (j : ℝ) + 1 + (g + 1 / 5) ≤ cb s z j + ca s j * y := by
  have hj' : (2100 : ℝ) ≤ j := by exact_mod_cast hj
  unfold cb ca
  have hp : 0 < (j : ℝ) + g := by linarith
  have key : (g + z / 5) * ((j : ℝ) + g) ≤ ((j : ℝ) + z - s) * ((j : ℝ) + g) - j * (j - s) := by nlinarith
  -- multiply out
  have h1 : (j : ℝ) * (j - s) * y ≤ ((j : ℝ) + z - s) - (g + z / 5) := by
    have h2 : (j : ℝ) * (j - s) * (y * ((j : ℝ) + g)) ≤ j * (j - s) := by
      have : 0 ≤ (j : ℝ) * (j - s) := mul_nonneg (by linarith) (by linarith)
      nlinarith
    by_contra hcon
    push Not at hcon
    nlinarith
  nlinarith

private theorem grow (hs : 0 < s) (hs2 : s < 100) (hzs : s ≤ z) (hz : 1 ≤ z) (k : Nat) :
    2099 + (k : ℝ) + 1 + min 40 (1 + (k : ℝ) / 5) ≤ lC s z (2099 + k) ∧
    lD s z (2099 + k) * (2099 + (k : ℝ) + 1 + min 40 (1 + (k : ℝ) / 5)) ≤ 1 := by
  induction k with
  | zero =>
    have hC := lC_ge hzs hz 2098
    have hCp := lC_pos hzs hz 2098
    obtain ⟨hD0, hD1⟩ := lD_bounds hzs hz 2098
    have hmin : min (40 : ℝ) (1 + ((0 : ℕ) : ℝ) / 5) = 1 := by norm_num
    rw [hmin]
    have st : ∀ y : ℝ, 0 ≤ y → y * 2099 ≤ 1 → (2101 : ℝ) ≤ cb s z 2099 + ca s 2099 * y := by
      intro y h0 h1
      unfold cb ca
      push_cast
      nlinarith
    push_cast at hC hD1
    have h1 : (2101 : ℝ) ≤ lC s z 2099 := by
      have e : lC s z 2099 = cb s z 2099 + ca s 2099 / lC s z 2098 := rfl
      rw [e, div_eq_mul_one_div]
      apply st _ (by positivity)
      rw [one_div, inv_mul_le_iff₀ hCp]; linarith
    refine ⟨by push_cast; linarith, ?_⟩
    have h2 := st (lD s z 2098) hD0 (by
      rw [le_div_iff₀ (by norm_num)] at hD1; linarith)
    have h3 : lD s z (2099 + 0) = 1 / (cb s z 2099 + ca s 2099 * lD s z 2098) := rfl
    rw [h3, one_div, inv_mul_le_iff₀ (by linarith)]
    push_cast
    linarith
  | succ k ih =>
    obtain ⟨h1, h2⟩ := ih
    have hk : (0 : ℝ) ≤ k := by positivity
    have hg1 : 1 ≤ min (40 : ℝ) (1 + (k : ℝ) / 5) := le_min (by norm_num) (by linarith [div_nonneg hk (by norm_num : (0 : ℝ) ≤ 5)])
    have hg2 : min (40 : ℝ) (1 + (k : ℝ) / 5) ≤ 40 := min_le_left _ _
    have hmono : min (40 : ℝ) (1 + ((k + 1 : ℕ) : ℝ) / 5) ≤ min (40 : ℝ) (1 + (k : ℝ) / 5) + 1 / 5 := by
      push_cast
      rcases le_total (40 : ℝ) (1 + (k : ℝ) / 5) with h | h
      · rw [min_eq_left h]
        exact (min_le_left _ _).trans (by norm_num)
      · rw [min_eq_right h]
        exact (min_le_right _ _).trans (by linarith)
    set g := min (40 : ℝ) (1 + (k : ℝ) / 5)
    have hCp := lC_pos hzs hz (2099 + k)
    have hD0 := (lD_bounds hzs hz (2099 + k)).1
    have a1 := grow_step hzs hz (2099 + k + 1) (by omega) (by push_cast; linarith) g (1 / lC s z (2099 + k)) hg1 hg2 (by positivity)
      (by rw [one_div, inv_mul_le_iff₀ hCp]; push_cast; linarith)
    have a2 := grow_step hzs hz (2099 + k + 1) (by omega) (by push_cast; linarith) g (lD s z (2099 + k)) hg1 hg2 hD0
      (by push_cast; linarith)
    rw [← add_assoc]
    refine ⟨?_, ?_⟩
    · rw [lC, div_eq_mul_one_div (ca s _)]
      push_cast at a1 hmono ⊢
      linarith
    · push_cast at a2 hmono ⊢
      rw [lD, one_div, inv_mul_le_iff₀ (by linarith)]
      linarith

private theorem late_ratio (hs : 0 < s) (hs2 : s < 100) (hzs : s ≤ z) (hz : 1 ≤ z) (j : Nat) (h1 : 2299 ≤ j) (h2 : j ≤ 9998) :
    |ca s (j + 1)| * lD s z (j + 1) / lC s z j ≤ (9999 / 10039) ^ 2 := by
  obtain ⟨k, rfl⟩ : ∃ k, j = 2099 + k := ⟨j - 2099, by omega⟩
  have hk : (200 : ℝ) ≤ k := by exact_mod_cast (show 200 ≤ k by omega)
  have hk2 : (k : ℝ) ≤ 7899 := by exact_mod_cast (show k ≤ 7899 by omega)
  have g1 := (grow hs hs2 hzs hz k).1
  have g2 := (grow hs hs2 hzs hz (k + 1)).2
  have hm1 : min (40 : ℝ) (1 + (k : ℝ) / 5) = 40 := min_eq_left (by linarith)
  have hm2 : min (40 : ℝ) (1 + ((k + 1 : ℕ) : ℝ) / 5) = 40 := min_eq_left (by push_cast; linarith)
  rw [hm1] at g1
  rw [hm2, ← add_assoc] at g2
  push_cast at g2
  have hCp := lC_pos hzs hz (2099 + k)
  have hDp := lD_pos hzs hz (2099 + k)
  rw [div_le_iff₀ hCp]
  have ha : |ca s (2099 + k + 1)| ≤ (2100 + (k : ℝ)) ^ 2 := by
    unfold ca
    push_cast
    rw [abs_mul, abs_of_nonneg (by positivity), abs_of_neg (by linarith)]
    nlinarith
  have hx : (2100 + (k : ℝ)) ≤ 9999 / 10039 * (2140 + k) := by linarith
  have e1 : (2100 + (k : ℝ)) * lD s z (2099 + k + 1) ≤ 9999 / 10039 := by
    have : (2140 + (k : ℝ)) * lD s z (2099 + k + 1) ≤ 1 := by nlinarith
    nlinarith
  calc |ca s (2099 + k + 1)| * lD s z (2099 + k + 1) ≤ (2100 + (k : ℝ)) ^ 2 * lD s z (2099 + k + 1) :=
        mul_le_mul_of_nonneg_right ha hDp.le
    _ = (2100 + (k : ℝ)) * ((2100 + (k : ℝ)) * lD s z (2099 + k + 1)) := by ring
    _ ≤ (9999 / 10039 * (2140 + k)) * (9999 / 10039) := mul_le_mul hx e1 (by positivity) (by positivity)
    _ = (9999 / 10039) ^ 2 * (2140 + k) := by ring
    _ ≤ (9999 / 10039) ^ 2 * lC s z (2099 + k) := by
        apply mul_le_mul_of_nonneg_left _ (by norm_num); linarith

private theorem stop_small (hs : 0 < s) (hs2 : s < 100) (hzs : s ≤ z) (hz : 1 ≤ z) : lE s z 9999 < 1 / 10 ^ 14 := by
  have hgeom : ∀ k : Nat, k ≤ 7700 → lE s z (2299 + k) ≤ (9999 / 10039) ^ (2 * k) := by
    intro k
    induction k with
    | zero =>
      intro _
      have hf : ⌊s / 2⌋₊ < 50 := by rw [Nat.floor_lt (by positivity)]; push_cast; linarith
      have := late_le_one hs hzs hz (2299 - 2 * ⌊s / 2⌋₊)
      rw [show 2 * ⌊s / 2⌋₊ + (2299 - 2 * ⌊s / 2⌋₊) = 2299 + 0 by omega] at this
      simpa using this
    | succ k ih =>
      intro hk
      rw [← add_assoc, lE_succ hzs hz, show 2 * (k + 1) = 2 * k + 2 by ring, pow_add, mul_comm]
      have h1 := late_ratio hs hs2 hzs hz (2299 + k) (by omega) (by omega)
      exact mul_le_mul (ih (by omega)) h1
        (div_nonneg (mul_nonneg (abs_nonneg _) (lD_pos hzs hz _).le) (lC_pos hzs hz _).le) (by positivity)
  have h := hgeom 7700 (le_refl _)
  refine lt_of_le_of_lt h ?_
  have h2 : (2 : ℝ) ≤ (1 + 40 / 9999) ^ 250 := by
    have := one_add_mul_le_pow (a := (40 / 9999 : ℝ)) (by norm_num) 250
    refine le_trans ?_ this
    norm_num
  have h3 : (2 : ℝ) ^ 50 ≤ (1 + 40 / 9999) ^ (2 * 7700) := by
    calc (2 : ℝ) ^ 50 ≤ ((1 + 40 / 9999) ^ 250) ^ 50 := pow_le_pow_left₀ (by norm_num) h2 50
      _ = (1 + 40 / 9999) ^ 12500 := by rw [← pow_mul]
      _ ≤ _ := pow_le_pow_right₀ (by norm_num) (by norm_num)
  rw [show (9999 / 10039 : ℝ) = (1 + 40 / 9999)⁻¹ by norm_num, inv_pow]
  calc (((1 : ℝ) + 40 / 9999) ^ (2 * 7700))⁻¹ ≤ ((2 : ℝ) ^ 50)⁻¹ := by gcongr
    _ < 1 / 10 ^ 14 := by norm_num

/-- The stopping test of the continued fraction is met within 9999 rounds. -/
theorem fraction_stops (hs : 0 < s) (hs2 : s ≤ 550000) (hzs : s ≤ z) (hz : 1 ≤ z) :
    ∃ j, j + 1 ≤ 9999 ∧ lE s z (j + 1) < 1 / 10 ^ 14 := by
  rcases lt_or_ge s 100 with h | h
  · exact ⟨9998, le_refl _, stop_small hs h hzs hz⟩
  · exact stop_large h hs2 hzs hz

/-! ### The series -/

theorem term_le_one (hs : 0 < s) (hz0 : 0 ≤ z) (hz : z ≤ 1 ∨ z < s) (k : Nat) : term s z k ≤ 1 := by
  induction k with
  | zero => exact le_refl _
  | succ k ih =>
    unfold term
    have h1 : z / (s + (k + 1 : ℕ)) ≤ 1 := by
      rw [div_le_one (by positivity)]
      push_cast
      have : (0 : ℝ) ≤ k := by positivity
      rcases hz with h | h <;> linarith
    exact mul_le_one₀ ih (by positivity) h1

theorem psum_le (hs : 0 < s) (hz0 : 0 ≤ z) (hz : z ≤ 1 ∨ z < s) (k : Nat) : psum s z k ≤ k + 1 := by
  induction k with
  | zero => simp [psum]
  | succ k ih =>
    have := term_le_one hs hz0 hz (k + 1)
    rw [psum]; push_cast; linarith

private theorem term_exp (hs : 0 < s) (hs2 : s ≤ 550000) (hz0 : 0 ≤ z) (hz : z ≤ 1 ∨ z < s) (k : Nat) (hk : k ≤ 9999) :
    term s z k ≤ Real.exp (-((k : ℝ) * (k - 1) / 2 / 560000)) := by
  induction k with
  | zero => simp [term]
  | succ k ih =>
    have h1 := ih (by omega)
    have hk' : (k : ℝ) ≤ 9998 := by exact_mod_cast (show k ≤ 9998 by omega)
    have hk0 : (0 : ℝ) ≤ k := by positivity
    have e : -((((k + 1 : ℕ) : ℝ)) * (((k + 1 : ℕ) : ℝ) - 1) / 2 / 560000) = -((k : ℝ) * (k - 1) / 2 / 560000) + -((k : ℝ) / 560000) := by
      push_cast; ring
    rw [e, Real.exp_add]
    unfold term
    apply mul_le_mul h1 _ (by positivity) (Real.exp_pos _).le
    have h2 := Real.add_one_le_exp (-((k : ℝ) / 560000))
    have hp : (0 : ℝ) < s + (k + 1 : ℕ) := by positivity
    refine le_trans ?_ h2
    rw [div_le_iff₀ hp]
    push_cast
    rcases hz with h | h
    · rcases Nat.eq_zero_or_pos k with rfl | hkp
      · simp; linarith
      · have : (1 : ℝ) ≤ k := by exact_mod_cast hkp
        nlinarith
    · nlinarith

/-- The stopping test of the series is met within 9999 rounds. -/
theorem series_stops (hs : 0 < s) (hs2 : s ≤ 550000) (hz0 : 0 ≤ z) (hz : z ≤ 1 ∨ z < s) : term s z 9999 / psum s z 9999 < 1 / 10 ^ 14 := by
  have h1 := term_exp hs hs2 hz0 hz 9999 (le_refl _)
  have h2 := one_le_psum hs hz0 9999
  have h3 : term s z 9999 / psum s z 9999 ≤ term s z 9999 := div_le_self (term_nonneg hs hz0 _) h2
  refine lt_of_le_of_lt (h3.trans h1) ?_
  have h4 : (2 : ℝ) ≤ Real.exp 1 := by linarith [Real.add_one_le_exp (1 : ℝ)]
  have h5 : Real.exp (-(((9999 : ℕ) : ℝ) * (((9999 : ℕ) : ℝ) - 1) / 2 / 560000)) ≤ Real.exp (-((50 : ℕ) * (1 : ℝ))) := by
    apply Real.exp_le_exp.2
    push_cast
    norm_num
  refine lt_of_le_of_lt h5 ?_
  rw [Real.exp_neg, Real.exp_nat_mul]
  calc (Real.exp 1 ^ 50)⁻¹ ≤ ((2 : ℝ) ^ 50)⁻¹ := by gcongr
    _ < 1 / 10 ^ 14 := by norm_num

/-- Relative error of the series after the stopping test. -/
theorem series_error (hs : 0 < s) (hz0 : 0 < z) (hz : z ≤ 1 ∨ z < s) (k : Nat) (hk : k + 1 ≤ 9999)
    (h : term s z (k + 1) / psum s z (k + 1) < 1 / 10 ^ 14) :
    z ^ s * Real.exp (-z) * psum s z (k + 1) ≤ s * lower s z ∧
    s * lower s z ≤ z ^ s * Real.exp (-z) * psum s z (k + 1) * (1 + 5 / 10 ^ 12) := by
  have hk0 : (0 : ℝ) ≤ k := by positivity
  have hk9 : (k : ℝ) + 1 ≤ 9999 := by exact_mod_cast hk
  have hzk : z < s + (k + 1 : ℕ) := by
    push_cast
    rcases hz with h | h <;> linarith
  have hb := lower_bounds hs hz0 (k + 1) (by linarith)
  refine ⟨hb.1, hb.2.trans ?_⟩
  have hp1 := one_le_psum hs hz0.le (k + 1)
  have hpk := psum_le hs hz0.le hz (k + 1)
  have ht := term_pos hs hz0 (k + 1)
  rw [div_lt_iff₀ (by linarith)] at h
  push_cast at hpk
  have hsmall : term s z (k + 1) < 1 / 10 ^ 10 := by
    refine h.trans_le ?_
    have : psum s z (k + 1) ≤ 10000 := by linarith
    linarith
  have hge := term_ge hs hz0 (k + 1)
  have hexp : Real.exp (-(((k + 1 : ℕ) : ℝ) * (s + (k + 1 : ℕ) - z) / z)) < Real.exp (-20) := by
    refine lt_of_le_of_lt hge (hsmall.trans_le ?_)
    rw [Real.exp_neg, one_div]
    apply inv_anti₀ (Real.exp_pos _)
    have h1 : Real.exp 20 = Real.exp 1 ^ 20 := by rw [← Real.exp_nat_mul]; norm_num
    rw [h1]
    have h2 : Real.exp 1 ≤ 3 := by linarith [Real.exp_one_lt_d9]
    calc Real.exp 1 ^ 20 ≤ 3 ^ 20 := pow_le_pow_left₀ (Real.exp_pos _).le h2 20
      _ ≤ 10 ^ 10 := by norm_num
  have hlt := Real.exp_lt_exp.1 hexp
  have hA : 20 * z < ((k + 1 : ℕ) : ℝ) * (s + (k + 1 : ℕ) - z) := by
    have : 20 < ((k + 1 : ℕ) : ℝ) * (s + (k + 1 : ℕ) - z) / z := by linarith
    rwa [lt_div_iff₀ hz0] at this
  have hpos : 0 < s + ((k + 1 : ℕ) : ℝ) + 1 - z := by linarith
  have hr : z / (s + ((k + 1 : ℕ) : ℝ) + 1 - z) ≤ 500 := by
    rw [div_le_iff₀ hpos]
    push_cast at hA hzk ⊢
    nlinarith
  have hW : 0 < z ^ s * Real.exp (-z) := mul_pos (Real.rpow_pos_of_pos hz0 _) (Real.exp_pos _)
  rw [mul_assoc (z ^ s * Real.exp (-z))]
  apply mul_le_mul_of_nonneg_left _ hW.le
  have : term s z (k + 1) * (z / (s + ((k + 1 : ℕ) : ℝ) + 1 - z)) ≤ term s z (k + 1) * 500 := mul_le_mul_of_nonneg_left hr ht.le
  nlinarith

end TFR.IncGamma
