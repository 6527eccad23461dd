import Verif.Props.AndersonDarling
import Mathlib.Analysis.SpecialFunctions.Sqrt
/-
C93: the p-values of the Anderson-Darling test against the published critical values.
-/
namespace TFR

/-- The first branch, for statistics below 2. -/
private noncomputable def polyP (z : ℝ) : ℝ :=
  200012 / 10 ^ 5 + (247105 / 10 ^ 6 - (649821 / 10 ^ 7 - (347962 / 10 ^ 7 - (11672 / 10 ^ 6 - 168691 / 10 ^ 8 * z) * z) * z) * z) * z
private noncomputable def polyQ (z : ℝ) : ℝ :=
  10776 / 10 ^ 4 - (230695 / 10 ^ 5 - (43424 / 10 ^ 5 - (82433 / 10 ^ 6 - (8056 / 10 ^ 6 - 3146 / 10 ^ 7 * z) * z) * z) * z) * z
private noncomputable def lowF (z : ℝ) : ℝ := Real.exp (-(12337141 / 10 ^ 7) / z) / Real.sqrt z * polyP z
private noncomputable def highF (z : ℝ) : ℝ := Real.exp (-Real.exp (polyQ z))

private theorem inf_eq (z : ℝ) : andersonDarlingInf z = if z < 2 then lowF z else highF z := rfl

private theorem polyP_pos {z : ℝ} (h0 : 0 ≤ z) (h2 : z ≤ 2) : 2 ≤ polyP z := by
  unfold polyP
  nlinarith [mul_nonneg h0 (sub_nonneg.2 h2), mul_nonneg (mul_nonneg h0 h0) (sub_nonneg.2 h2),
    mul_nonneg (mul_nonneg (mul_nonneg h0 h0) h0) (sub_nonneg.2 h2), mul_nonneg (mul_nonneg (mul_nonneg h0 h0) (mul_nonneg h0 h0)) (sub_nonneg.2 h2)]

private theorem polyP_mono {z y : ℝ} (h0 : 0 ≤ z) (hzy : z ≤ y) (h2 : y ≤ 2) : polyP z ≤ polyP y := by
  have hd : MonotoneOn polyP (Set.Icc 0 2) := by
    apply monotoneOn_of_deriv_nonneg (convex_Icc _ _)
    · unfold polyP; fun_prop
    · unfold polyP; fun_prop
    · intro x hx
      rw [interior_Icc] at hx
      obtain ⟨hx0, hx2⟩ := hx
      have hder : HasDerivAt polyP (247105 / 10 ^ 6 - 2 * (649821 / 10 ^ 7) * x + 3 * (347962 / 10 ^ 7) * x ^ 2 - 4 * (11672 / 10 ^ 6) * x ^ 3 +
          5 * (168691 / 10 ^ 8) * x ^ 4) x := by
        have e : polyP = fun z => 200012 / 10 ^ 5 + 247105 / 10 ^ 6 * z - 649821 / 10 ^ 7 * z ^ 2 + 347962 / 10 ^ 7 * z ^ 3 - 11672 / 10 ^ 6 * z ^ 4
            + 168691 / 10 ^ 8 * z ^ 5 := by
          funext z; unfold polyP; ring
        rw [e]
        have h1 := hasDerivAt_id x
        have := ((((((hasDerivAt_const x (200012 / 10 ^ 5 : ℝ)).add (h1.const_mul (247105 / 10 ^ 6 : ℝ))).sub
          ((hasDerivAt_pow 2 x).const_mul (649821 / 10 ^ 7 : ℝ))).add ((hasDerivAt_pow 3 x).const_mul (347962 / 10 ^ 7 : ℝ))).sub
          ((hasDerivAt_pow 4 x).const_mul (11672 / 10 ^ 6 : ℝ))).add ((hasDerivAt_pow 5 x).const_mul (168691 / 10 ^ 8 : ℝ)))
        refine this.congr_deriv ?_
        norm_num
        ring
      rw [hder.deriv]
      nlinarith [mul_pos hx0 (sub_pos.2 hx2), mul_pos (mul_pos hx0 hx0) (sub_pos.2 hx2), sq_nonneg (x - 1), sq_nonneg (x ^ 2 - 2 * x),
        sq_nonneg (x ^ 2 - 27 / 10 * x + 1), mul_nonneg hx0.le (sq_nonneg (x - 1))]
  exact hd ⟨h0, hzy.trans h2⟩ ⟨h0.trans hzy, h2⟩ hzy

private theorem lowF_mono {z y : ℝ} (h0 : 0 < z) (hzy : z ≤ y) (h2 : y ≤ 2) : lowF z ≤ lowF y := by
  have hy : 0 < y := lt_of_lt_of_le h0 hzy
  unfold lowF
  refine mul_le_mul ?_ (polyP_mono h0.le hzy h2) (le_trans (by norm_num) (polyP_pos h0.le (hzy.trans h2))) (by positivity)
  have e : ∀ u : ℝ, 0 < u → Real.exp (-(12337141 / 10 ^ 7) / u) / Real.sqrt u = Real.exp (-(12337141 / 10 ^ 7) / u - Real.log u / 2) := by
    intro u hu
    rw [Real.exp_sub, Real.exp_half, Real.exp_log hu]
  rw [e z h0, e y hy]
  apply Real.exp_le_exp.2
  have hlog : Real.log y - Real.log z ≤ (y - z) / z := by
    rw [← Real.log_div hy.ne' h0.ne']
    have := Real.log_le_sub_one_of_pos (div_pos hy h0)
    rw [sub_div, div_self h0.ne']
    exact this
  have hfrac : (12337141 / 10 ^ 7 : ℝ) / z - 12337141 / 10 ^ 7 / y = 12337141 / 10 ^ 7 / y * ((y - z) / z) := by
    field_simp
  have hge : (1 / 2 : ℝ) ≤ 12337141 / 10 ^ 7 / y := by
    rw [le_div_iff₀ hy]; linarith
  have hnn : 0 ≤ (y - z) / z := div_nonneg (by linarith) h0.le
  have := mul_le_mul_of_nonneg_right hge hnn
  rw [neg_div, neg_div]
  linarith

private theorem highF_mono {z y : ℝ} (hzy : z ≤ y) : highF z ≤ highF y := by
  have hd : Antitone polyQ := by
    apply antitone_of_deriv_nonpos
    · unfold polyQ; fun_prop
    · intro x
      have hder : HasDerivAt polyQ (-(230695 / 10 ^ 5) + 2 * (43424 / 10 ^ 5) * x - 3 * (82433 / 10 ^ 6) * x ^ 2 + 4 * (8056 / 10 ^ 6) * x ^ 3 -
          5 * (3146 / 10 ^ 7) * x ^ 4) x := by
        have e : polyQ = fun z => 10776 / 10 ^ 4 - 230695 / 10 ^ 5 * z + 43424 / 10 ^ 5 * z ^ 2 - 82433 / 10 ^ 6 * z ^ 3 + 8056 / 10 ^ 6 * z ^ 4
            - 3146 / 10 ^ 7 * z ^ 5 := by
          funext z; unfold polyQ; ring
        rw [e]
        have h1 := hasDerivAt_id x
        have := ((((((hasDerivAt_const x (10776 / 10 ^ 4 : ℝ)).sub (h1.const_mul (230695 / 10 ^ 5 : ℝ))).add
          ((hasDerivAt_pow 2 x).const_mul (43424 / 10 ^ 5 : ℝ))).sub ((hasDerivAt_pow 3 x).const_mul (82433 / 10 ^ 6 : ℝ))).add
          ((hasDerivAt_pow 4 x).const_mul (8056 / 10 ^ 6 : ℝ))).sub ((hasDerivAt_pow 5 x).const_mul (3146 / 10 ^ 7 : ℝ)))
        refine this.congr_deriv ?_
        norm_num
        ring
      rw [hder.deriv]
      nlinarith [sq_nonneg (x ^ 2 - 10243 / 1000 * x + 255 / 10), sq_nonneg (x - 11)]
  unfold highF
  exact Real.exp_le_exp.2 (neg_le_neg (Real.exp_le_exp.2 (hd hzy)))

/-! ### Numbers -/

private theorem exp_near {x : ℝ} (hx : |x| ≤ 1) :
    |Real.exp x - (1 + x + x ^ 2 / 2 + x ^ 3 / 6 + x ^ 4 / 24 + x ^ 5 / 120 + x ^ 6 / 720 + x ^ 7 / 5040 + x ^ 8 / 40320 + x ^ 9 / 362880 +
      x ^ 10 / 3628800 + x ^ 11 / 39916800)| ≤ 1 / 10 ^ 8 := by
  have h := Real.exp_bound hx (n := 12) (by norm_num)
  have e : ∑ m ∈ Finset.range 12, x ^ m / (m.factorial : ℝ) = 1 + x + x ^ 2 / 2 + x ^ 3 / 6 + x ^ 4 / 24 + x ^ 5 / 120 + x ^ 6 / 720 +
      x ^ 7 / 5040 + x ^ 8 / 40320 + x ^ 9 / 362880 + x ^ 10 / 3628800 + x ^ 11 / 39916800 := by
    simp [Finset.sum_range_succ, Nat.factorial]
  rw [e] at h
  refine h.trans ?_
  have h1 : |x| ^ 12 ≤ 1 := pow_le_one₀ (abs_nonneg _) hx
  have h2 : (((12 : ℕ).succ : ℝ) / ((Nat.factorial 12 : ℝ) * ((12 : ℕ) : ℝ))) ≤ 1 / 10 ^ 8 := by norm_num [Nat.factorial]
  calc |x| ^ 12 * (((12 : ℕ).succ : ℝ) / ((Nat.factorial 12 : ℝ) * ((12 : ℕ) : ℝ))) ≤ 1 * (1 / 10 ^ 8) :=
        mul_le_mul h1 h2 (by positivity) (by norm_num)
    _ = _ := by norm_num

private theorem low_1248 : |lowF (1248 / 1000) - 75 / 100| ≤ 1 / 10 ^ 4 := by
  have h := abs_le.1 (exp_near (x := -(12337141 / 10 ^ 7) / (1248 / 1000)) (by norm_num [abs_le]))
  unfold lowF
  have hP : polyP (1248 / 1000) = 2.25172562677738478501888 := by unfold polyP; norm_num
  have s1 : (11171392 / 10 ^ 7 : ℝ) ≤ Real.sqrt (1248 / 1000) := Real.le_sqrt_of_sq_le (by norm_num)
  have s2 : Real.sqrt (1248 / 1000) ≤ 11171393 / 10 ^ 7 := Real.sqrt_le_iff.2 ⟨by norm_num, by norm_num⟩
  generalize Real.exp (-(12337141 / 10 ^ 7) / (1248 / 1000)) = E at h
  generalize Real.sqrt (1248 / 1000) = S at s1 s2
  have e1 : 3721147 / 10 ^ 7 ≤ E := by norm_num at h; linarith [h.1]
  have e2 : E ≤ 3721149 / 10 ^ 7 := by norm_num at h; linarith [h.2]
  have hS : 0 < S := by linarith
  rw [hP, abs_le]
  constructor
  · rw [le_sub_iff_add_le, div_mul_eq_mul_div, le_div_iff₀ hS]; nlinarith
  · rw [sub_le_iff_le_add, div_mul_eq_mul_div, div_le_iff₀ hS]; nlinarith

private theorem low_1933 : |lowF (1933 / 1000) - 90 / 100| ≤ 1 / 10 ^ 4 := by
  have h := abs_le.1 (exp_near (x := -(12337141 / 10 ^ 7) / (1933 / 1000)) (by norm_num [abs_le]))
  unfold lowF
  have hP : polyP (1933 / 1000) = 2.36885750481284560485063 := by unfold polyP; norm_num
  have s1 : (13903237 / 10 ^ 7 : ℝ) ≤ Real.sqrt (1933 / 1000) := Real.le_sqrt_of_sq_le (by norm_num)
  have s2 : Real.sqrt (1933 / 1000) ≤ 13903238 / 10 ^ 7 := Real.sqrt_le_iff.2 ⟨by norm_num, by norm_num⟩
  generalize Real.exp (-(12337141 / 10 ^ 7) / (1933 / 1000)) = E at h
  generalize Real.sqrt (1933 / 1000) = S at s1 s2
  have e1 : 5282222 / 10 ^ 7 ≤ E := by norm_num at h; linarith [h.1]
  have e2 : E ≤ 5282224 / 10 ^ 7 := by norm_num at h; linarith [h.2]
  have hS : 0 < S := by linarith
  rw [hP, abs_le]
  constructor
  · rw [le_sub_iff_add_le, div_mul_eq_mul_div, le_div_iff₀ hS]; nlinarith
  · rw [sub_le_iff_le_add, div_mul_eq_mul_div, div_le_iff₀ hS]; nlinarith

private theorem low_2 : |lowF 2 - 9081642 / 10 ^ 7| ≤ 3 / 10 ^ 7 := by
  have h := abs_le.1 (exp_near (x := -(12337141 / 10 ^ 7) / 2) (by norm_num [abs_le]))
  unfold lowF
  have hP : polyP 2 = 2.38000032 := by unfold polyP; norm_num
  have s1 : (141421356 / 10 ^ 8 : ℝ) ≤ Real.sqrt 2 := Real.le_sqrt_of_sq_le (by norm_num)
  have s2 : Real.sqrt 2 ≤ 141421357 / 10 ^ 8 := Real.sqrt_le_iff.2 ⟨by norm_num, by norm_num⟩
  generalize Real.exp (-(12337141 / 10 ^ 7) / 2) = E at h
  generalize Real.sqrt 2 = S at s1 s2
  have e1 : 53963781 / 10 ^ 8 ≤ E := by norm_num at h; linarith [h.1]
  have e2 : E ≤ 53963785 / 10 ^ 8 := by norm_num at h; linarith [h.2]
  have hS : 0 < S := by linarith
  rw [hP, abs_le]
  constructor
  · rw [le_sub_iff_add_le, div_mul_eq_mul_div, le_div_iff₀ hS]; nlinarith
  · rw [sub_le_iff_le_add, div_mul_eq_mul_div, div_le_iff₀ hS]; nlinarith

private theorem high_bounds {q lo hi a b A B : ℝ} (h1 : a ≤ Real.exp (q / 8)) (h2 : Real.exp (q / 8) ≤ b) (ha : 0 ≤ a)
    (hA : A ≤ a ^ 8) (hB : b ^ 8 ≤ B) (hlo : lo ≤ Real.exp (-B)) (hhi : Real.exp (-A) ≤ hi) :
    lo ≤ Real.exp (-Real.exp q) ∧ Real.exp (-Real.exp q) ≤ hi := by
  have e : Real.exp q = Real.exp (q / 8) ^ 8 := by rw [← Real.exp_nat_mul]; congr 1; push_cast; ring
  have h3 : A ≤ Real.exp q := by rw [e]; exact hA.trans (pow_le_pow_left₀ ha h1 8)
  have h4 : Real.exp q ≤ B := by rw [e]; exact (pow_le_pow_left₀ (Real.exp_pos _).le h2 8).trans hB
  exact ⟨hlo.trans (Real.exp_le_exp.2 (neg_le_neg h4)), (Real.exp_le_exp.2 (neg_le_neg h3)).trans hhi⟩

private theorem high_2 : |highF 2 - 9081642 / 10 ^ 7| ≤ 3 / 10 ^ 7 := by
  have hQ : polyQ 2 = -2.3399752 := by unfold polyQ; norm_num
  unfold highF
  rw [hQ]
  have h := abs_le.1 (exp_near (x := (-2.3399752) / 8) (by norm_num [abs_le]))
  have hA := abs_le.1 (exp_near (x := -(963299 / 10 ^ 7 : ℝ)) (by norm_num [abs_le]))
  have hB := abs_le.1 (exp_near (x := -(963302 / 10 ^ 7 : ℝ)) (by norm_num [abs_le]))
  obtain ⟨g1, g2⟩ := high_bounds (q := -2.3399752) (lo := 9081642 / 10 ^ 7 - 3 / 10 ^ 7) (hi := 9081642 / 10 ^ 7 + 3 / 10 ^ 7)
    (a := 74639753 / 10 ^ 8) (b := 74639758 / 10 ^ 8) (A := 963299 / 10 ^ 7) (B := 963302 / 10 ^ 7)
    (by norm_num at h ⊢; linarith [h.1]) (by norm_num at h ⊢; linarith [h.2]) (by norm_num) (by norm_num) (by norm_num)
    (by norm_num at hB ⊢; linarith [hB.1]) (by norm_num at hA ⊢; linarith [hA.2])
  rw [abs_le]
  constructor <;> linarith

private theorem high_2492 : |highF (2492 / 1000) - 95 / 100| ≤ 1 / 10 ^ 4 := by
  have hQ : polyQ (2492 / 1000) = -2.9699068457869238351872 := by unfold polyQ; norm_num
  unfold highF
  rw [hQ]
  have h := abs_le.1 (exp_near (x := (-2.9699068457869238351872) / 8) (by norm_num [abs_le]))
  have hA := abs_le.1 (exp_near (x := -(51307 / 10 ^ 6 : ℝ)) (by norm_num [abs_le]))
  have hB := abs_le.1 (exp_near (x := -(51309 / 10 ^ 6 : ℝ)) (by norm_num [abs_le]))
  obtain ⟨g1, g2⟩ := high_bounds (q := -2.9699068457869238351872) (lo := 95 / 100 - 1 / 10 ^ 4) (hi := 95 / 100 + 1 / 10 ^ 4)
    (a := 6898794 / 10 ^ 7) (b := 6898796 / 10 ^ 7) (A := 51307 / 10 ^ 6) (B := 51309 / 10 ^ 6)
    (by norm_num at h ⊢; linarith [h.1]) (by norm_num at h ⊢; linarith [h.2]) (by norm_num) (by norm_num) (by norm_num)
    (by norm_num at hB ⊢; linarith [hB.1]) (by norm_num at hA ⊢; linarith [hA.2])
  rw [abs_le]
  constructor <;> linarith

private theorem high_3880 : |highF (3880 / 1000) - 99 / 100| ≤ 1 / 10 ^ 4 := by
  have hQ : polyQ (3880 / 1000) = -4.6020135194447052800000 := by unfold polyQ; norm_num
  unfold highF
  rw [hQ]
  have h := abs_le.1 (exp_near (x := (-4.6020135194447052800000) / 8) (by norm_num [abs_le]))
  have hA := abs_le.1 (exp_near (x := -(10031 / 10 ^ 6 : ℝ)) (by norm_num [abs_le]))
  have hB := abs_le.1 (exp_near (x := -(10032 / 10 ^ 6 : ℝ)) (by norm_num [abs_le]))
  obtain ⟨g1, g2⟩ := high_bounds (q := -4.6020135194447052800000) (lo := 99 / 100 - 1 / 10 ^ 4) (hi := 99 / 100 + 1 / 10 ^ 4)
    (a := 5625632 / 10 ^ 7) (b := 5625633 / 10 ^ 7) (A := 10031 / 10 ^ 6) (B := 10032 / 10 ^ 6)
    (by norm_num at h ⊢; linarith [h.1]) (by norm_num at h ⊢; linarith [h.2]) (by norm_num) (by norm_num) (by norm_num)
    (by norm_num at hB ⊢; linarith [hB.1]) (by norm_num at hA ⊢; linarith [hA.2])
  rw [abs_le]
  constructor <;> linarith

/-! ### The limiting distribution -/

private theorem inf_pos {z : ℝ} (hz : 0 < z) : 0 < andersonDarlingInf z := by
  rw [inf_eq]
  split_ifs with h
  · have := polyP_pos hz.le h.le
    unfold lowF
    have := Real.sqrt_pos.2 hz
    positivity
  · exact Real.exp_pos _

private theorem inf_mono {z y : ℝ} (h0 : 0 < z) (hzy : z ≤ y) : andersonDarlingInf z ≤ andersonDarlingInf y + 1 / 10 ^ 6 := by
  have a := abs_le.1 low_2
  have b := abs_le.1 high_2
  rw [inf_eq, inf_eq]
  by_cases hz : z < 2
  · rw [if_pos hz]
    by_cases hy : y < 2
    · rw [if_pos hy]
      have := lowF_mono h0 hzy hy.le
      linarith
    · rw [if_neg hy]
      have h1 := lowF_mono h0 hz.le le_rfl
      have h2 := highF_mono (not_lt.1 hy)
      linarith [a.2, b.1]
  · rw [if_neg hz, if_neg (by linarith)]
    have := highF_mono hzy
    linarith

private theorem inf_low {q z c : ℝ} (hq0 : 0 < q) (hq : q < 2) (hc : |lowF q - c| ≤ 1 / 10 ^ 4) (h0 : 0 < z) :
    (q ≤ z → c - 2 / 10 ^ 4 ≤ andersonDarlingInf z) ∧ (z ≤ q → andersonDarlingInf z ≤ c + 2 / 10 ^ 4) := by
  have h := abs_le.1 hc
  have e : andersonDarlingInf q = lowF q := by rw [inf_eq, if_pos hq]
  constructor
  · intro hz
    have := inf_mono hq0 hz
    rw [e] at this
    linarith [h.1]
  · intro hz
    have := inf_mono h0 hz
    rw [e] at this
    linarith [h.2]

private theorem inf_high {q z c : ℝ} (hq : 2 ≤ q) (hc : |highF q - c| ≤ 1 / 10 ^ 4) (h0 : 0 < z) :
    (q ≤ z → c - 2 / 10 ^ 4 ≤ andersonDarlingInf z) ∧ (z ≤ q → andersonDarlingInf z ≤ c + 2 / 10 ^ 4) := by
  have h := abs_le.1 hc
  have e : andersonDarlingInf q = highF q := by rw [inf_eq, if_neg (not_lt.2 hq)]
  constructor
  · intro hz
    have := inf_mono (by linarith) hz
    rw [e] at this
    linarith [h.1]
  · intro hz
    have := inf_mono h0 hz
    rw [e] at this
    linarith [h.2]

/-! ### The correction for the number of values -/

/-- Above 0.8 the correction is at most `0.02 / n`. -/
private theorem fix_high {n : ℕ} (hn : 2 ≤ n) {x e : ℝ} (h8 : 8 / 10 < x) (hx : x ≤ 1) (h : andersonDarlingErrFix n x = .ok e) :
    |e| ≤ 2 / 100 / (n : ℝ) := by
  have hN : (2 : ℝ) ≤ n := by exact_mod_cast hn
  unfold andersonDarlingErrFix at h
  rw [if_pos h8] at h
  cases h
  rw [abs_div, abs_of_pos (by linarith : (0 : ℝ) < n)]
  refine div_le_div_of_nonneg_right ?_ (by linarith)
  have a : 0 ≤ x - 8 / 10 := by linarith
  have b : 0 ≤ 1 - x := by linarith
  have p0 := pow_nonneg a 5
  have p1 := mul_nonneg (pow_nonneg a 4) b
  have p2 := mul_nonneg (pow_nonneg a 3) (pow_nonneg b 2)
  have p3 := mul_nonneg (pow_nonneg a 2) (pow_nonneg b 3)
  have p4 := mul_nonneg a (pow_nonneg b 4)
  have p5 := pow_nonneg b 5
  rw [abs_le]
  constructor <;> nlinarith

/-- Below, it is at most `0.07 / n`. -/
private theorem fix_any {n : ℕ} (hn : 2 ≤ n) {x e : ℝ} (h0 : 0 ≤ x) (hx : x ≤ 1) (h : andersonDarlingErrFix n x = .ok e) :
    |e| ≤ 7 / 100 / (n : ℝ) := by
  have hN : (2 : ℝ) ≤ n := by exact_mod_cast hn
  have hN0 : (0 : ℝ) < n := by linarith
  by_cases h8 : 8 / 10 < x
  · refine (fix_high hn h8 hx h).trans (div_le_div_of_nonneg_right (by norm_num) hN0.le)
  unfold andersonDarlingErrFix at h
  rw [if_neg h8] at h
  simp only at h
  have hinv : 1 / (n : ℝ) ≤ 1 / 2 := one_div_le_one_div_of_le (by norm_num) hN
  have hinv0 : 0 < 1 / (n : ℝ) := by positivity
  set c : ℝ := 1265 / 10 ^ 5 + 1757 / 10 ^ 4 / (n : ℝ) with hc
  have hc1 : c ≤ 2 / 10 := by
    rw [hc, show (1757 / 10 ^ 4 / (n : ℝ)) = 1757 / 10 ^ 4 * (1 / (n : ℝ)) by ring]
    linarith
  have hc0 : 0 < c := by positivity
  by_cases hxc : x < c
  · rw [if_pos hxc] at h
    by_cases hov : 2 ^ 31 ≤ n * n
    · rw [if_pos hov] at h; cases h
    rw [if_neg hov] at h
    cases h
    have ht0 : 0 ≤ x / c := div_nonneg h0 hc0.le
    have ht1 : x / c ≤ 1 := ((div_lt_one hc0).2 hxc).le
    set t := x / c
    clear_value t
    rw [abs_div, abs_of_pos hN0]
    refine div_le_div_of_nonneg_right ?_ hN0.le
    have hs : Real.sqrt t * (1 - t) ≤ 385 / 1000 := by
      have hsq := Real.mul_self_sqrt ht0
      have h1 : (Real.sqrt t * (1 - t)) ^ 2 ≤ (385 / 1000) ^ 2 := by
        rw [mul_pow, sq (Real.sqrt t), hsq]
        nlinarith [mul_nonneg (sub_nonneg.2 ht1) (sq_nonneg (t - 1 / 3)), sq_nonneg (t - 1 / 3), mul_nonneg ht0 (sq_nonneg (t - 1 / 3))]
      exact (sq_le_sq₀ (mul_nonneg (Real.sqrt_nonneg _) (by linarith)) (by norm_num)).1 h1
    have hs0 : 0 ≤ Real.sqrt t * (1 - t) := mul_nonneg (Real.sqrt_nonneg _) (by linarith)
    have hk : 37 / 10 ^ 4 / ((n * n : ℕ) : ℝ) + 78 / 10 ^ 5 / (n : ℝ) + 6 / 10 ^ 5 ≤ 14 / 10 ^ 4 := by
      rw [show 37 / 10 ^ 4 / ((n * n : ℕ) : ℝ) = 37 / 10 ^ 4 * (1 / (n : ℝ) * (1 / (n : ℝ))) by push_cast; field_simp,
        show 78 / 10 ^ 5 / (n : ℝ) = 78 / 10 ^ 5 * (1 / (n : ℝ)) by ring]
      nlinarith
    have hk0 : 0 ≤ 37 / 10 ^ 4 / ((n * n : ℕ) : ℝ) + 78 / 10 ^ 5 / (n : ℝ) + 6 / 10 ^ 5 := by positivity
    rw [abs_mul, abs_mul, abs_of_nonneg hs0, abs_of_nonneg hk0, abs_of_nonpos (by linarith : 49 * t - 102 ≤ 0)]
    calc Real.sqrt t * (1 - t) * -(49 * t - 102) * _ ≤ 385 / 1000 * 102 * (14 / 10 ^ 4) := by
          refine mul_le_mul (mul_le_mul hs (by linarith) (by linarith) (by norm_num)) hk hk0 (by norm_num)
      _ ≤ _ := by norm_num
  · rw [if_neg hxc] at h
    cases h
    push Not at hxc h8
    have hd : 0 < 8 / 10 - c := by linarith
    have ht0 : 0 ≤ (x - c) / (8 / 10 - c) := div_nonneg (by linarith) hd.le
    have ht1 : (x - c) / (8 / 10 - c) ≤ 1 := (div_le_one hd).2 (by linarith)
    set t := (x - c) / (8 / 10 - c)
    clear_value t
    rw [abs_div, abs_of_pos hN0]
    refine div_le_div_of_nonneg_right ?_ hN0.le
    have hk : 4213 / 10 ^ 5 + 1365 / 10 ^ 5 / (n : ℝ) ≤ 49 / 10 ^ 3 := by
      rw [show 1365 / 10 ^ 5 / (n : ℝ) = 1365 / 10 ^ 5 * (1 / (n : ℝ)) by ring]
      linarith
    have hk0 : 0 ≤ 4213 / 10 ^ 5 + 1365 / 10 ^ 5 / (n : ℝ) := by positivity
    have hp : |-(22633 / 10 ^ 8) +
        (654034 / 10 ^ 5 - (146538 / 10 ^ 4 - (14458 / 10 ^ 3 - (8259 / 10 ^ 3 - 191864 / 10 ^ 5 * t) * t) * t) * t) * t| ≤ 14 / 10 := by
      have b : 0 ≤ 1 - t := by linarith
      have p0 := pow_nonneg ht0 5
      have p1 := mul_nonneg (pow_nonneg ht0 4) b
      have p2 := mul_nonneg (pow_nonneg ht0 3) (pow_nonneg b 2)
      have p3 := mul_nonneg (pow_nonneg ht0 2) (pow_nonneg b 3)
      have p4 := mul_nonneg ht0 (pow_nonneg b 4)
      have p5 := pow_nonneg b 5
      rw [abs_le]
      constructor <;> nlinarith
    rw [abs_mul, abs_of_nonneg hk0]
    calc _ ≤ 14 / 10 * (49 / 10 ^ 3 : ℝ) := mul_le_mul hp hk hk0 (by norm_num)
      _ ≤ _ := by norm_num

/-! ### C93: the levels of the test -/

private theorem inf_le {z : ℝ} (hz : 0 < z) : andersonDarlingInf z ≤ 1 := by
  rw [inf_eq]
  split_ifs with h
  · have := lowF_mono hz h.le le_rfl
    have := (abs_le.1 low_2).2
    linarith
  · unfold highF
    rw [Real.exp_le_one_iff]
    have := Real.exp_pos (polyQ z)
    linarith

private theorem clamp_le {y b : ℝ} (h : y ≤ b) (h0 : 0 ≤ b) : clamp01 y ≤ b := by
  unfold clamp01; split_ifs <;> linarith

private theorem le_clamp {y b : ℝ} (h : b ≤ y) (h1 : b ≤ 1) : b ≤ clamp01 y := by
  unfold clamp01; split_ifs <;> linarith

/-- What a result consists of. -/
private theorem result_parts {data : List ℝ} (hd : ∀ x ∈ data, 1 / 10 ^ 16 ≤ x ∧ x ≤ 1 - 1 / 10 ^ 16) (hn : 2 ≤ data.length)
    {st : Statistic ℝ} (h : andersonDarlingStats data = .ok (some st)) :
    0 < st.value ∧ ∃ e, andersonDarlingErrFix data.length (andersonDarlingInf st.value) = .ok e ∧
      st.pValue = 1 - clamp01 (andersonDarlingInf st.value + e) := by
  have hne : data ≠ [] := by intro h0; rw [h0] at hn; simp at hn
  have hlen : (sortReals data).length = data.length := (sortReals_perm data).length_eq
  have hlt : data.length < 2 ^ 31 := by
    by_contra hc
    unfold andersonDarlingStats andersonDarlingCdf at h
    rw [if_neg hne] at h
    simp only at h
    rw [hlen, if_pos (by omega)] at h
    cases h
  obtain ⟨hpos, hcase⟩ := C93_statistic data hne hd hlt
  have hv : st.value = Spec.andersonDarling data := by
    rcases hcase with ⟨p, hp, -⟩ | ⟨hp, -⟩
    · rw [hp] at h; cases h; rfl
    · rw [hp] at h; cases h
  rw [← hv] at hpos
  refine ⟨hpos, ?_⟩
  unfold andersonDarlingStats andersonDarlingCdf andersonDarlingPValue at h
  rw [if_neg hne] at h
  simp only at h
  rw [hlen, if_neg (by omega)] at h
  rcases he : andersonDarlingErrFix data.length (andersonDarlingInf (-(data.length : ℝ) - andersonDarlingSum (sortReals data) / (data.length : ℝ)))
    with er | e
  · rw [he] at h; cases h
  · rw [he] at h
    cases h
    exact ⟨e, he, rfl⟩

/-- C93. The p-value at the published critical values: at a statistic of at least 1.933, 2.492 or 3.880 the p-value reported is at
most 0.1, 0.05 or 0.01, and at a smaller statistic at least that, up to `0.0002 + 0.02 / n` for `n` values. -/
theorem C93_levels (data : List ℝ) (hd : ∀ x ∈ data, 1 / 10 ^ 16 ≤ x ∧ x ≤ 1 - 1 / 10 ^ 16) (hn : 2 ≤ data.length)
    (st : Statistic ℝ) (h : andersonDarlingStats data = .ok (some st)) (q α : ℝ) (hq : (q, α) ∈ Spec.andersonDarlingCritical) :
    (q ≤ st.value → st.pValue ≤ α + (2 / 10 ^ 4 + 2 / 100 / (data.length : ℝ))) ∧
    (st.value ≤ q → α - (2 / 10 ^ 4 + 2 / 100 / (data.length : ℝ)) ≤ st.pValue) := by
  obtain ⟨hpos, e, he, hp⟩ := result_parts hd hn h
  have hN : (2 : ℝ) ≤ (data.length : ℝ) := by exact_mod_cast hn
  have hN0 : (0 : ℝ) < (data.length : ℝ) := by linarith
  have key : α ≤ 10 / 100 ∧ 0 ≤ α ∧ (q ≤ st.value → (1 - α) - 2 / 10 ^ 4 ≤ andersonDarlingInf st.value) ∧
      (st.value ≤ q → andersonDarlingInf st.value ≤ (1 - α) + 2 / 10 ^ 4) := by
    simp only [Spec.andersonDarlingCritical, List.mem_cons, List.not_mem_nil, or_false, Prod.mk.injEq] at hq
    rcases hq with ⟨rfl, rfl⟩ | ⟨rfl, rfl⟩ | ⟨rfl, rfl⟩
    · exact ⟨by norm_num, by norm_num, inf_low (c := 1 - 10 / 100) (by norm_num) (by norm_num)
        (by have := low_1933; norm_num at this ⊢; exact this) hpos⟩
    · exact ⟨by norm_num, by norm_num, inf_high (c := 1 - 5 / 100) (by norm_num)
        (by have := high_2492; norm_num at this ⊢; exact this) hpos⟩
    · exact ⟨by norm_num, by norm_num, inf_high (c := 1 - 1 / 100) (by norm_num)
        (by have := high_3880; norm_num at this ⊢; exact this) hpos⟩
  obtain ⟨hα, hα0, k1, k2⟩ := key
  have hx1 := inf_le hpos
  have hx0 := inf_pos hpos
  have hany := abs_le.1 (fix_any hn hx0.le hx1 he)
  have hhigh := fun h8 => abs_le.1 (fix_high hn h8 hx1 he)
  have t1 : (2 / 100 : ℝ) / (data.length : ℝ) ≤ 1 / 100 := by rw [div_le_iff₀ hN0]; linarith
  have t2 : (7 / 100 : ℝ) / (data.length : ℝ) ≤ 35 / 1000 := by rw [div_le_iff₀ hN0]; linarith
  have t0 : (0 : ℝ) < 2 / 100 / (data.length : ℝ) := by positivity
  rw [hp]
  generalize andersonDarlingInf st.value = x at *
  generalize (2 / 100 : ℝ) / (data.length : ℝ) = a at *
  generalize (7 / 100 : ℝ) / (data.length : ℝ) = b at *
  constructor
  · intro hz
    have := k1 hz
    have h8 := hhigh (by linarith)
    have := le_clamp (y := x + e) (b := 1 - α - (2 / 10 ^ 4 + a)) (by linarith [h8.1]) (by linarith)
    linarith
  · intro hz
    have := k2 hz
    have : x + e ≤ 1 - α + (2 / 10 ^ 4 + a) := by
      by_cases h8 : 8 / 10 < x
      · linarith [(hhigh h8).2]
      · linarith [hany.2]
    have := clamp_le this (by linarith)
    linarith

/-- C93. At the upper quartile 1.248 the p-value is one quarter, up to `0.0002 + 0.07 / n`. -/
theorem C93_quartile (data : List ℝ) (hd : ∀ x ∈ data, 1 / 10 ^ 16 ≤ x ∧ x ≤ 1 - 1 / 10 ^ 16) (hn : 2 ≤ data.length)
    (st : Statistic ℝ) (h : andersonDarlingStats data = .ok (some st)) :
    (Spec.andersonDarlingQuartile ≤ st.value → st.pValue ≤ 1 / 4 + (2 / 10 ^ 4 + 7 / 100 / (data.length : ℝ))) ∧
    (st.value ≤ Spec.andersonDarlingQuartile → 1 / 4 - (2 / 10 ^ 4 + 7 / 100 / (data.length : ℝ)) ≤ st.pValue) := by
  obtain ⟨hpos, e, he, hp⟩ := result_parts hd hn h
  have hN : (2 : ℝ) ≤ (data.length : ℝ) := by exact_mod_cast hn
  have hN0 : (0 : ℝ) < (data.length : ℝ) := by linarith
  have k := inf_low (q := Spec.andersonDarlingQuartile) (c := 75 / 100) (by norm_num [Spec.andersonDarlingQuartile])
    (by norm_num [Spec.andersonDarlingQuartile]) low_1248 hpos
  have hany := abs_le.1 (fix_any hn (inf_pos hpos).le (inf_le hpos) he)
  have t2 : (7 / 100 : ℝ) / (data.length : ℝ) ≤ 35 / 1000 := by rw [div_le_iff₀ hN0]; linarith
  have t0 : (0 : ℝ) < 7 / 100 / (data.length : ℝ) := by positivity
  rw [hp]
  constructor
  · intro hz
    have := k.1 hz
    have := le_clamp (y := andersonDarlingInf st.value + e) (b := 3 / 4 - (2 / 10 ^ 4 + 7 / 100 / (data.length : ℝ)))
      (by linarith [hany.1]) (by linarith)
    linarith
  · intro hz
    have := k.2 hz
    have := clamp_le (y := andersonDarlingInf st.value + e) (b := 3 / 4 + (2 / 10 ^ 4 + 7 / 100 / (data.length : ℝ)))
      (by linarith [hany.2]) (by linarith)
    linarith

/-- C93. A worse fit does not get a better p-value: between two data sets of `n` values the p-value falls with the statistic,
up to `0.000001 + 0.14 / n`. -/
theorem C93_monotone (data data' : List ℝ) (hd : ∀ x ∈ data, 1 / 10 ^ 16 ≤ x ∧ x ≤ 1 - 1 / 10 ^ 16)
    (hd' : ∀ x ∈ data', 1 / 10 ^ 16 ≤ x ∧ x ≤ 1 - 1 / 10 ^ 16) (hn : 2 ≤ data.length) (hn' : data'.length = data.length)
    (st st' : Statistic ℝ) (h : andersonDarlingStats data = .ok (some st)) (h' : andersonDarlingStats data' = .ok (some st'))
    (hle : st.value ≤ st'.value) :
    st'.pValue ≤ st.pValue + (1 / 10 ^ 6 + 14 / 100 / (data.length : ℝ)) := by
  obtain ⟨hpos, e, he, hp⟩ := result_parts hd hn h
  obtain ⟨hpos', e', he', hp'⟩ := result_parts hd' (by omega) h'
  have a := abs_le.1 (fix_any hn (inf_pos hpos).le (inf_le hpos) he)
  have b := abs_le.1 (fix_any (by omega) (inf_pos hpos').le (inf_le hpos') he')
  have m := inf_mono hpos hle
  have hN : (2 : ℝ) ≤ (data.length : ℝ) := by exact_mod_cast hn
  have t0 : (0 : ℝ) < 7 / 100 / (data.length : ℝ) := by positivity
  rw [hn'] at b
  rw [show (14 / 100 : ℝ) / (data.length : ℝ) = 7 / 100 / (data.length : ℝ) + 7 / 100 / (data.length : ℝ) by ring, hp, hp']
  have hc : clamp01 (andersonDarlingInf st.value + e) ≤ clamp01 (andersonDarlingInf st'.value + e') +
      (1 / 10 ^ 6 + (7 / 100 / (data.length : ℝ) + 7 / 100 / (data.length : ℝ))) := by
    have : andersonDarlingInf st.value + e ≤ andersonDarlingInf st'.value + e' +
      (1 / 10 ^ 6 + (7 / 100 / (data.length : ℝ) + 7 / 100 / (data.length : ℝ))) := by linarith [a.2, b.1]
    unfold clamp01
    split_ifs <;> linarith
  linarith

/-- Two thousand copies of one half are anything but uniform: the statistic is 772, and the test says so. -/
example : ∃ st, andersonDarlingStats (List.replicate 2000 (1 / 2)) = .ok (some st) ∧ st.pValue ≤ 2 / 100 := by
  have hd : ∀ x ∈ List.replicate 2000 (1 / 2 : ℝ), 1 / 10 ^ 16 ≤ x ∧ x ≤ 1 - 1 / 10 ^ 16 := by
    intro x hx; rw [List.eq_of_mem_replicate hx]; norm_num
  have hne : List.replicate 2000 (1 / 2 : ℝ) ≠ [] := by rw [Ne, List.replicate_eq_nil_iff]; norm_num
  obtain ⟨-, hc⟩ := C93_statistic _ hne hd (by rw [List.length_replicate]; norm_num)
  rcases hc with ⟨p, hp, -⟩ | ⟨-, h2⟩
  · refine ⟨_, hp, ?_⟩
    have hl := (C93_levels _ hd (by rw [List.length_replicate]; norm_num) _ hp (3880 / 1000) (1 / 100)
      (by simp [Spec.andersonDarlingCritical])).1
    have hv : 3880 / 1000 ≤ Spec.andersonDarling (List.replicate 2000 (1 / 2 : ℝ)) := by
      rw [andersonDarling_eq _ hne (fun x hx => by rw [List.eq_of_mem_replicate hx]; norm_num)]
      have hl2 := Real.log_two_gt_d9
      have e : ∀ i ∈ Finset.range 2000, (List.replicate 2000 (1 / 2 : ℝ)).getD i 0 = 1 / 2 := by
        intro i hi
        rw [Finset.mem_range] at hi
        rw [List.getD_eq_getElem _ _ (by rw [List.length_replicate]; exact hi), List.getElem_replicate]
      rw [List.length_replicate]
      have hlog : Real.log (1 / 2 : ℝ) = -Real.log 2 := by rw [one_div, Real.log_inv]
      rw [Finset.sum_congr rfl (g := fun _ => ∑ _j ∈ Finset.range 2000, (-1 + 2 * Real.log 2)) (fun i hi =>
        Finset.sum_congr rfl fun j hj => by
          rw [e i hi, e j hj, min_self, max_self, show (1 : ℝ) - 1 / 2 = 1 / 2 by norm_num, hlog]; ring)]
      simp only [Finset.sum_const, Finset.card_range, nsmul_eq_mul]
      norm_num
      linarith
    have := hl hv
    rw [List.length_replicate] at this
    refine this.trans ?_
    norm_num
  · rw [List.length_replicate] at h2
    norm_num at h2

end TFR
