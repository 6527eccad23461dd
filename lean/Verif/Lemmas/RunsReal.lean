import Verif.Lemmas.RunsTail
/-
The z-score of the runs test in terms of the signs and the products of neighbouring signs.
-/
namespace TFR
open Spec Finset
variable {w : Nat}

theorem blocks_single (x : Bool) : blocks [x] = 1 := by simp [blocks]

theorem blocks_cons_cons (x y : Bool) (l : List Bool) : blocks (x :: y :: l) = (if x = y then 0 else 1) + blocks (y :: l) := by
  unfold blocks
  rw [List.length_cons, List.range_succ_eq_map, List.countP_cons, List.countP_map]
  simp only [List.length_cons]
  rw [List.range_succ_eq_map (n := l.length), List.countP_cons, List.countP_cons, List.countP_map, List.countP_map]
  simp only [decide_true, Bool.true_or, if_true, Function.comp]
  have : (List.range l.length).countP (fun i => decide (i.succ.succ = 0) || (x :: y :: l)[i.succ.succ]? != (x :: y :: l)[i.succ.succ - 1]?) =
      (List.range l.length).countP (fun i => decide (i.succ = 0) || (y :: l)[i.succ]? != (y :: l)[i.succ - 1]?) := by
    apply List.countP_congr
    intro i _
    simp
  rw [show (List.range l.length).countP (((fun i => decide (i = 0) || (x :: y :: l)[i]? != (x :: y :: l)[i - 1]?) ∘ Nat.succ) ∘ Nat.succ) =
    (List.range l.length).countP ((fun i => decide (i = 0) || (y :: l)[i]? != (y :: l)[i - 1]?) ∘ Nat.succ) from this]
  generalize (List.range l.length).countP ((fun i => decide (i = 0) || (y :: l)[i]? != (y :: l)[i - 1]?) ∘ Nat.succ) = c
  cases x <;> cases y <;> simp <;> omega

/-- Signs as `±1`. -/
noncomputable def pm (b : Bool) : ℝ := if b then 1 else -1

theorem pairSum_signs (β : ℝ) (x : Bool) (l : List Bool) : ∃ last : Bool,
    pairSum ((x :: l).map (signVal β)) = l.length - 2 * ((blocks (x :: l) : ℝ) - 1) -
      β * (2 * (((x :: l).countP id : ℝ) - ((x :: l).countP (!·) : ℝ)) - pm x - pm last) + β ^ 2 * l.length := by
  induction l generalizing x with
  | nil =>
    refine ⟨x, ?_⟩
    rw [blocks_single]
    cases x <;> norm_num [pairSum, pm]
  | cons y l ih =>
    obtain ⟨last, h⟩ := ih y
    refine ⟨last, ?_⟩
    have e : pairSum ((x :: y :: l).map (signVal β)) = signVal β x * signVal β y + pairSum ((y :: l).map (signVal β)) := rfl
    rw [e, h, blocks_cons_cons, List.countP_cons (a := x), List.countP_cons (a := x), List.length_cons]
    generalize (List.countP id (y :: l) : ℕ) = a
    generalize (List.countP (!·) (y :: l) : ℕ) = b
    generalize blocks (y :: l) = k
    cases x <;> cases y <;> simp [signVal, pm] <;> ring

theorem sum_signs (β : ℝ) (l : List Bool) :
    (l.map (signVal β)).sum = ((l.countP id : ℝ) - (l.countP (!·) : ℝ)) - β * l.length := by
  induction l with
  | nil => simp
  | cons x l ih =>
    rw [List.map_cons, List.sum_cons, ih, List.countP_cons, List.countP_cons, List.length_cons]
    cases x <;> simp [signVal] <;> ring

theorem count_signs (l : List Bool) : l.countP id + l.countP (!·) = l.length := by
  induction l with
  | nil => rfl
  | cons x l ih =>
    rw [List.countP_cons, List.countP_cons, List.length_cons, ← ih]
    cases x <;> simp <;> omega

theorem runs_real (β m D G H k q u T S S0 h2 g r : ℝ) (hβ0 : 0 ≤ β) (hβ1 : β ≤ 1 / 255) (hq0 : 0 ≤ q) (hq' : q ≤ 1) (hh : 0 ≤ h2)
    (hS0 : 30 ≤ S0) (hnum : g * S0 + 12 * (h2 + 1) / S0 + h2 + 2 ≤ (6 - 1 / 1000) * S0) (hg6 : g ≤ 59 / 10) (hsmall : 12 * (h2 + 1) ≤ S0 ^ 2)
    (hl : S0 ^ 2 ≤ m) (hHd : H = D - β * m) (hH : H ^ 2 ≤ h2 * m) (hu : |u| ≤ 2) (hS : S = Real.sqrt m) (hTD : T = (m - D ^ 2 / m) / 2)
    (hG : G = (m - 1) - 2 * (k - 1) - β * (2 * D - u) + β ^ 2 * (m - 1)) (hr' : r = k + q)
    (hz : 6 ≤ |(r - (T + 1)) / Real.sqrt ((T + 1 - 1) * (T + 1 - 2) / m)|) : g * S ≤ |G| := by
  have hm900 : 900 ≤ m := by
    have : (30 : ℝ) ^ 2 ≤ S0 ^ 2 := pow_le_pow_left₀ (by norm_num) hS0 2
    linarith
  have hm0 : 0 < m := by linarith
  have hSS : S ^ 2 = m := by rw [hS]; exact Real.sq_sqrt hm0.le
  have hSS0 : S0 ≤ S := by rw [hS]; exact Real.le_sqrt_of_sq_le hl
  have hS1 : 0 < S := by linarith
  have hH2 : H ^ 2 / m ≤ h2 := by rw [div_le_iff₀ hm0]; exact hH
  have hDH : D ^ 2 / m ≤ 2 * (H ^ 2 / m) + 2 * β ^ 2 * m := by
    have e : D = H + β * m := by rw [hHd]; ring
    rw [e, div_le_iff₀ hm0, add_mul, mul_assoc 2, div_mul_cancel₀ _ hm0.ne']
    nlinarith [sq_nonneg (H - β * m)]
  have hβ2 : β ^ 2 ≤ 1 / 65025 := by nlinarith
  have hβm : β ^ 2 * m ≤ 1 / 65025 * m := mul_le_mul_of_nonneg_right hβ2 hm0.le
  have hTlow : m / 2 - h2 - m / 65025 ≤ T := by
    rw [hTD]
    linarith
  have hsm : 12 * (h2 + 1) ≤ m := hsmall.trans hl
  have hT1 : 1 < T := by linarith
  have hdev : 2 * (r - (T + 1)) = 2 * q - 1 - (G - H ^ 2 / m + β ^ 2 - β * u) := by
    have e : 2 * (k - 1) = (m - 1) - G - β * (2 * D - u) + β ^ 2 * (m - 1) := by
      rw [hG]; ring
    have e2 : H ^ 2 / m = D ^ 2 / m - 2 * β * D + β ^ 2 * m := by rw [hHd]; field_simp; ring
    rw [hr', hTD, e2]
    linarith
  have hV : ((T + 1 - 1) * (T + 1 - 2) / m) = T * (T - 1) / m := by ring
  rw [hV] at hz
  have hVpos : 0 < T * (T - 1) / m := by
    apply div_pos _ hm0
    apply mul_pos <;> linarith
  rw [abs_div, abs_of_nonneg (Real.sqrt_nonneg _), le_div_iff₀ (Real.sqrt_pos.2 hVpos)] at hz
  have hsq : (T - 1) / S ≤ Real.sqrt (T * (T - 1) / m) := by
    apply Real.le_sqrt_of_sq_le
    rw [div_pow, hSS]
    apply div_le_div_of_nonneg_right _ hm0.le
    rw [sq]
    apply mul_le_mul_of_nonneg_right <;> linarith
  have hz2 : 12 * ((T - 1) / S) ≤ |2 * (r - (T + 1))| := by
    rw [abs_mul, abs_of_pos (by norm_num : (0 : ℝ) < 2)]; linarith
  rw [hdev] at hz2
  have hHm : 0 ≤ H ^ 2 / m := by positivity
  have hβu : |β * u| ≤ 2 / 255 := by
    rw [abs_mul, abs_of_nonneg hβ0]
    calc β * |u| ≤ 1 / 255 * 2 := mul_le_mul hβ1 hu (abs_nonneg u) (by norm_num)
      _ = _ := by norm_num
  have hbound : |2 * (q : ℝ) - 1 - (G - H ^ 2 / m + β ^ 2 - β * u)| ≤ |G| + h2 + 2 := by
    obtain ⟨u1, u2⟩ := abs_le.1 hβu
    have g1 := le_abs_self G
    have g2 := neg_abs_le G
    have b0 := sq_nonneg β
    rw [abs_le]
    constructor <;> linarith
  have hmain : 12 * ((T - 1) / S) ≤ |G| + h2 + 2 := hz2.trans hbound
  have hTS : (6 - 1 / 1000) * S - 12 * (h2 + 1) / S ≤ 12 * ((T - 1) / S) := by
    rw [← mul_div_assoc, sub_le_iff_le_add, ← add_div, le_div_iff₀ hS1]
    have : S * S = m := by rw [← sq]; exact hSS
    rw [mul_assoc, this]
    linarith
  have hmono : g * S + 12 * (h2 + 1) / S + h2 + 2 ≤ (6 - 1 / 1000) * S := by
    have h1 : 12 * (h2 + 1) / S ≤ 12 * (h2 + 1) / S0 := by
      apply div_le_div_of_nonneg_left _ (by linarith) hSS0
      linarith
    have h3 : (6 - 1 / 1000 - g) * S0 ≤ (6 - 1 / 1000 - g) * S := mul_le_mul_of_nonneg_left hSS0 (by linarith)
    linarith
  linarith

/-- If the sum of the signs is not large but the z-score is, the sum of the products of neighbours is large. -/
theorem runs_pairs (β : ℝ) (hβ0 : 0 ≤ β) (hβ1 : β ≤ 1 / 255) (l : List Bool) (a b r : Nat) (ha : a = l.countP id) (hb : b = l.countP (!·))
    (q : Nat) (hq : q ≤ 1) (hr : r = blocks l + q) (h2 g S0 : ℝ) (hh : 0 ≤ h2) (hS0 : 30 ≤ S0)
    (hnum : g * S0 + 12 * (h2 + 1) / S0 + h2 + 2 ≤ (6 - 1 / 1000) * S0) (hg6 : g ≤ 59 / 10) (hsmall : 12 * (h2 + 1) ≤ S0 ^ 2)
    (hl : S0 ^ 2 ≤ l.length) (hH : ((l.map (signVal β)).sum) ^ 2 ≤ h2 * l.length)
    (hz : 6 ≤ |((r : ℝ) - (2 * a * b / (a + b) + 1)) / Real.sqrt ((2 * a * b / (a + b) + 1 - 1) * (2 * a * b / (a + b) + 1 - 2) / (a + b))|) :
    g * Real.sqrt l.length ≤ |pairSum (l.map (signVal β))| := by
  obtain ⟨x, l', rfl⟩ : ∃ x l', l = x :: l' := by
    cases l with
    | nil => simp at hl; nlinarith
    | cons x l' => exact ⟨x, l', rfl⟩
  obtain ⟨last, hG⟩ := pairSum_signs β x l'
  rw [sum_signs] at hH
  rw [← ha, ← hb] at hG hH
  have hab := count_signs (x :: l')
  rw [← ha, ← hb] at hab
  have hm : ((x :: l').length : ℝ) = (a : ℝ) + b := by exact_mod_cast hab.symm
  have hl' : (l'.length : ℝ) = (a : ℝ) + b - 1 := by
    have : (a : ℝ) + b = l'.length + 1 := by rw [← hm, List.length_cons]; push_cast; ring
    linarith
  rw [hm] at hH hl ⊢
  rw [hl'] at hG
  have hr' : (r : ℝ) = (blocks (x :: l') : ℝ) + q := by rw [hr]; push_cast; ring
  have hq' : (q : ℝ) ≤ 1 := by exact_mod_cast hq
  have hq0 : (0 : ℝ) ≤ q := by positivity
  have hu : |pm x + pm last| ≤ 2 := by
    cases x <;> cases last <;> norm_num [pm, abs_le]
  refine runs_real β ((a : ℝ) + b) (a - b) _ _ (blocks (x :: l')) q (pm x + pm last) (2 * a * b / (a + b)) _ S0 h2 g r hβ0 hβ1 hq0 hq' hh hS0 hnum hg6
    hsmall hl rfl hH hu rfl ?_ ?_ hr' hz
  · have : (0 : ℝ) < a + b := by nlinarith
    field_simp; ring
  · rw [hG]; ring
end TFR
