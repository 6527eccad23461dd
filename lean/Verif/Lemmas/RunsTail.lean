import Mathlib.Probability.Moments.SubGaussian
import Verif.Props.FalseAlarms
/-
Tail bounds of the number of runs of random words: the signs of the words and the products of neighbouring signs are sub-Gaussian.
-/
namespace TFR
open Spec Finset
variable {w : Nat}

section
open ProbabilityTheory MeasureTheory
/-- Hoeffding's lemma for two values. -/
theorem hoeffding_two (β s : ℝ) (h0 : -1 ≤ β) (h1 : β ≤ 1) :
    (1 + β) / 2 * Real.exp (s * (1 - β)) + (1 - β) / 2 * Real.exp (s * (-1 - β)) ≤ Real.exp (s ^ 2 / 2) := by
  set μ : Measure ℝ := ENNReal.ofReal ((1 + β) / 2) • Measure.dirac (1 - β) + ENNReal.ofReal ((1 - β) / 2) • Measure.dirac (-1 - β) with hμ
  have hp : 0 ≤ (1 + β) / 2 := by linarith
  have hq : 0 ≤ (1 - β) / 2 := by linarith
  have : IsProbabilityMeasure μ := ⟨by
    simp only [hμ, Measure.coe_add, Measure.coe_smul, Pi.add_apply, Pi.smul_apply, measure_univ, smul_eq_mul, mul_one]
    rw [← ENNReal.ofReal_add hp hq]
    rw [show (1 + β) / 2 + (1 - β) / 2 = 1 by ring, ENNReal.ofReal_one]⟩
  have hint : ∀ f : ℝ → ℝ, ∫ x, f x ∂μ = (1 + β) / 2 * f (1 - β) + (1 - β) / 2 * f (-1 - β) := by
    intro f
    have i1 : Integrable f (ENNReal.ofReal ((1 + β) / 2) • Measure.dirac (1 - β)) :=
      (integrable_dirac (by simp)).smul_measure ENNReal.ofReal_ne_top
    have i2 : Integrable f (ENNReal.ofReal ((1 - β) / 2) • Measure.dirac (-1 - β)) :=
      (integrable_dirac (by simp)).smul_measure ENNReal.ofReal_ne_top
    rw [hμ, integral_add_measure i1 i2, integral_smul_measure, integral_smul_measure, integral_dirac, integral_dirac,
      ENNReal.toReal_ofReal hp, ENNReal.toReal_ofReal hq]
    rfl
  have hb : ∀ᵐ x ∂μ, (id x : ℝ) ∈ Set.Icc (-1 - β) (1 - β) := by
    rw [hμ, ae_add_measure_iff]
    constructor
    · apply Measure.ae_smul_measure
      rw [ae_dirac_eq]
      exact ⟨by simp, le_refl _⟩
    · apply Measure.ae_smul_measure
      rw [ae_dirac_eq]
      exact ⟨le_refl _, by simp⟩
  have h := hasSubgaussianMGF_of_mem_Icc_of_integral_eq_zero (X := id) (μ := μ) (a := -1 - β) (b := 1 - β) measurable_id.aemeasurable hb
    (by rw [hint]; simp only [id]; ring)
  have h2 := h.mgf_le s
  unfold mgf at h2
  rw [hint] at h2
  simp only [id] at h2
  refine h2.trans (Real.exp_le_exp.2 (le_of_eq ?_))
  rw [show (1 - β) - (-1 - β) = 2 by ring]
  norm_num
end

section
variable {α β : Type} [Fintype α] [Fintype β]
theorem average_of_fst [Nonempty β] (f : α → ℝ) : average (fun x : α × β => f x.1) = average f := by
  have hb : (Fintype.card β : ℝ) ≠ 0 := by exact_mod_cast Fintype.card_ne_zero
  unfold average
  rw [Fintype.sum_prod_type]
  simp only [sum_const, card_univ, nsmul_eq_mul, ← mul_sum, Fintype.card_prod]
  push_cast
  rw [mul_comm (Fintype.card α : ℝ), mul_div_mul_left _ _ hb]

theorem average_prod_type (f : α → β → ℝ) : average (fun x : α × β => f x.1 x.2) = average fun a => average fun b => f a b := by
  unfold average
  rw [Fintype.sum_prod_type, Fintype.card_prod, sum_div, sum_div]
  apply sum_congr rfl
  intro a _
  push_cast
  rw [div_div, mul_comm]
end

/-- Averages of functions of the first `n` elements of longer sequences. -/
theorem average_first {Ω : Type} [Fintype Ω] [Nonempty Ω] (n N : Nat) (hnN : n ≤ N) (F : (Fin n → Ω) → ℝ) :
    average (fun x : Fin N → Ω => F fun i => x (Fin.castLE hnN i)) = average F := by
  obtain ⟨m, rfl⟩ := Nat.exists_eq_add_of_le hnN
  rw [← average_equiv (Fin.appendEquiv n m)]
  rw [average_congr _ (fun x : (Fin n → Ω) × (Fin m → Ω) => F x.1) fun x => ?_]
  · exact average_of_fst F
  · refine congrArg F ?_
    funext i
    show Fin.append x.1 x.2 (Fin.castAdd m i) = x.1 i
    exact Fin.append_left _ _ _

theorem fraction_first {Ω : Type} [Fintype Ω] [Nonempty Ω] (n N : Nat) (hnN : n ≤ N) (p : (Fin n → Ω) → Prop) [DecidablePred p] :
    fraction (fun x : Fin N → Ω => p fun i => x (Fin.castLE hnN i)) = fraction p := by
  rw [← average_indicator, ← average_indicator]
  exact average_first n N hnN fun x => if p x then 1 else 0

/-- Averages over sequences, first element first. -/
theorem average_succ {Ω : Type} [Fintype Ω] (n : Nat) (F : List Ω → ℝ) :
    average (fun x : Fin (n + 1) → Ω => F (List.ofFn x)) = average fun o => average fun x : Fin n → Ω => F (o :: List.ofFn x) := by
  rw [← average_equiv (Fin.consEquiv fun _ => Ω)]
  rw [← average_prod_type fun (o : Ω) (x : Fin n → Ω) => F (o :: List.ofFn x)]
  apply average_congr
  intro x
  refine congrArg F ?_
  rw [List.ofFn_succ]
  rfl

/-! ### Signs of random words -/

/-- One word in `2^w` is skipped, half of them are above the cutoff, the others below. -/
theorem word_three (hw : 0 < w) (A B C : ℝ) :
    average (fun o : BitVec w => if o = BitVec.intMax w then A else if BitVec.intMax w < o then B else C) =
      (A + 2 ^ (w - 1) * B + (2 ^ (w - 1) - 1) * C) / 2 ^ w := by
  have hbits : 2 ^ w = 2 ^ (w - 1) + 2 ^ (w - 1) := by
    obtain ⟨v, rfl⟩ : ∃ v, w = v + 1 := ⟨w - 1, by omega⟩
    rw [Nat.add_sub_cancel, pow_succ]; ring
  have hp : 0 < 2 ^ (w - 1) := by positivity
  rw [average_congr _ (fun o : BitVec w => (fun m : ℕ => if m = 2 ^ (w - 1) - 1 then A else if 2 ^ (w - 1) - 1 < m then B else C) o.toNat)
    fun o => ?_]
  · unfold average
    rw [sum_bv (fun m : ℕ => if m = 2 ^ (w - 1) - 1 then A else if 2 ^ (w - 1) - 1 < m then B else C), card_bv, hbits, sum_range_add]
    push_cast
    congr 1
    · have h1 : ∑ m ∈ range (2 ^ (w - 1)), (if m = 2 ^ (w - 1) - 1 then A else if 2 ^ (w - 1) - 1 < m then B else C) =
          (2 ^ (w - 1) - 1) * C + A := by
        obtain ⟨k, hk⟩ : ∃ k, 2 ^ (w - 1) = k + 1 := ⟨2 ^ (w - 1) - 1, by omega⟩
        have hk' : (2 : ℝ) ^ (w - 1) = k + 1 := by exact_mod_cast hk
        rw [hk, Nat.add_sub_cancel, sum_range_succ, if_pos rfl, hk']
        rw [sum_congr rfl (g := fun _ => C) fun m hm => ?_]
        · simp
        · have := mem_range.1 hm
          rw [if_neg (by omega), if_neg (by omega)]
      have h2 : ∑ m ∈ range (2 ^ (w - 1)), (if 2 ^ (w - 1) + m = 2 ^ (w - 1) - 1 then A else if 2 ^ (w - 1) - 1 < 2 ^ (w - 1) + m then B else C) =
          2 ^ (w - 1) * B := by
        rw [sum_congr rfl (g := fun _ => B) fun m hm => ?_]
        · simp
        · rw [if_neg (by omega), if_pos (by omega)]
      rw [h1, h2]; ring
    · exact_mod_cast hbits.symm
  · have e1 : (o = BitVec.intMax w) ↔ (o.toNat = 2 ^ (w - 1) - 1) := by
      rw [← BitVec.toNat_inj, BitVec.toNat_intMax]
    have e2 : (BitVec.intMax w < o) ↔ (2 ^ (w - 1) - 1 < o.toNat) := by
      rw [BitVec.lt_def, BitVec.toNat_intMax]
    simp only [e1, e2]

/-- What is left of the bias of the signs, by the skipped value. -/
noncomputable def signBias (w : Nat) : ℝ := 1 / (2 ^ w - 1)

/-- A sign as `±1`, minus the bias. -/
noncomputable def signVal (β : ℝ) (b : Bool) : ℝ := if b then 1 - β else -1 - β

def pairSum : List ℝ → ℝ
  | [] => 0
  | [_] => 0
  | a :: b :: l => a * b + pairSum (b :: l)

noncomputable def signVals (xs : List (BitVec w)) : List ℝ := (signs xs (BitVec.intMax w)).map (signVal (signBias w))

theorem signs_cons (o : BitVec w) (xs : List (BitVec w)) (c : BitVec w) :
    signs (o :: xs) c = if o = c then signs xs c else decide (c < o) :: signs xs c := by
  unfold signs
  by_cases h : o = c
  · simp [h]
  · simp [h]

theorem signVals_cons (o : BitVec w) (xs : List (BitVec w)) :
    signVals (o :: xs) = if o = BitVec.intMax w then signVals xs else
      (if BitVec.intMax w < o then 1 - signBias w else -1 - signBias w) :: signVals xs := by
  unfold signVals
  rw [signs_cons]
  split_ifs with h1 h2
  · rfl
  · simp [signVal, h2]
  · simp [signVal, h2]

theorem signBias_bounds (hw : 8 ≤ w) : 0 ≤ signBias w ∧ signBias w ≤ 1 / 255 := by
  have h8 : (2 : ℝ) ^ 8 ≤ 2 ^ w := pow_le_pow_right₀ (by norm_num) hw
  unfold signBias
  constructor
  · apply div_nonneg (by norm_num); linarith
  · apply one_div_le_one_div_of_le (by norm_num); linarith

/-- A skipped word counts one, the others have a sub-Gaussian sign. -/
theorem word_step (hw : 8 ≤ w) (A s c : ℝ) (hA : A ≤ 1) (hc : s ^ 2 / 2 ≤ c) (B C : ℝ)
    (hB : B ≤ Real.exp (s * (1 - signBias w) - c)) (hC : C ≤ Real.exp (s * (-1 - signBias w) - c)) :
    average (fun o : BitVec w => if o = BitVec.intMax w then A else if BitVec.intMax w < o then B else C) ≤ 1 := by
  have h8 : (2 : ℝ) ^ 8 ≤ 2 ^ w := pow_le_pow_right₀ (by norm_num) hw
  have hbits : (2 : ℝ) ^ w = 2 * 2 ^ (w - 1) := by
    obtain ⟨v, rfl⟩ : ∃ v, w = v + 1 := ⟨w - 1, by omega⟩
    rw [Nat.add_sub_cancel, pow_succ]; ring
  obtain ⟨hb0, hb1⟩ := signBias_bounds hw
  rw [word_three (by omega), div_le_one (by positivity)]
  have hh := hoeffding_two (signBias w) s (by linarith) (by linarith)
  set β := signBias w with hβ
  have hβe : (2 ^ w - 1) * β = 1 := by rw [hβ]; unfold signBias; field_simp; rw [div_self]; linarith
  set h : ℝ := 2 ^ (w - 1)
  have e1 : (2 ^ w - 1) * ((1 + β) / 2) = h := by rw [mul_div_assoc', mul_add, hβe, hbits]; ring
  have e2 : (2 ^ w - 1) * ((1 - β) / 2) = h - 1 := by rw [mul_div_assoc', mul_sub, hβe, hbits]; ring
  have hsum : h * Real.exp (s * (1 - β) - c) + (h - 1) * Real.exp (s * (-1 - β) - c) ≤ 2 ^ w - 1 := by
    rw [Real.exp_sub, Real.exp_sub, ← e2, ← e1]
    have : (2 ^ w - 1) * ((1 + β) / 2) * (Real.exp (s * (1 - β)) / Real.exp c) + (2 ^ w - 1) * ((1 - β) / 2) * (Real.exp (s * (-1 - β)) / Real.exp c) =
        (2 ^ w - 1) * (((1 + β) / 2 * Real.exp (s * (1 - β)) + (1 - β) / 2 * Real.exp (s * (-1 - β))) / Real.exp c) := by ring
    rw [this]
    have h3 : ((1 + β) / 2 * Real.exp (s * (1 - β)) + (1 - β) / 2 * Real.exp (s * (-1 - β))) / Real.exp c ≤ 1 := by
      rw [div_le_one (Real.exp_pos _)]
      exact hh.trans (Real.exp_le_exp.2 hc)
    nlinarith
  have hh1 : 1 ≤ h := by linarith
  have := mul_le_mul_of_nonneg_left hB (by linarith : 0 ≤ h)
  have := mul_le_mul_of_nonneg_left hC (by linarith : 0 ≤ h - 1)
  linarith

/-- The sum of the signs is sub-Gaussian. -/
theorem sum_supermartingale (hw : 8 ≤ w) (l : ℝ) (n : Nat) :
    average (fun x : Fin n → BitVec w => Real.exp (l * (signVals (List.ofFn x)).sum - l ^ 2 / 2 * (signVals (List.ofFn x)).length)) ≤ 1 := by
  induction n with
  | zero => simp [average, signVals, signs]
  | succ n ih =>
    rw [average_succ n fun xs : List (BitVec w) => Real.exp (l * (signVals xs).sum - l ^ 2 / 2 * (signVals xs).length)]
    set A := average (fun x : Fin n → BitVec w => Real.exp (l * (signVals (List.ofFn x)).sum - l ^ 2 / 2 * (signVals (List.ofFn x)).length)) with hA
    have hA0 : 0 ≤ A := by rw [hA]; unfold average; positivity
    have hstep : ∀ v : ℝ, average (fun x : Fin n → BitVec w => Real.exp (l * (v :: signVals (List.ofFn x)).sum -
        l ^ 2 / 2 * (v :: signVals (List.ofFn x)).length)) = Real.exp (l * v - l ^ 2 / 2) * A := by
      intro v
      rw [hA, ← average_mul_left]
      apply average_congr
      intro x
      rw [← Real.exp_add, List.sum_cons, List.length_cons]
      congr 1; push_cast; ring
    rw [average_congr _ (fun o : BitVec w => if o = BitVec.intMax w then A else if BitVec.intMax w < o then Real.exp (l * (1 - signBias w) - l ^ 2 / 2) * A
      else Real.exp (l * (-1 - signBias w) - l ^ 2 / 2) * A) fun o => ?_]
    · apply word_step hw A l (l ^ 2 / 2) ih le_rfl
      · exact mul_le_of_le_one_right (Real.exp_pos _).le ih
      · exact mul_le_of_le_one_right (Real.exp_pos _).le ih
    · simp only [signVals_cons]
      split_ifs
      · rfl
      · exact hstep _
      · exact hstep _

/-- The sum of the products of neighbouring signs is sub-Gaussian. -/
theorem pair_supermartingale (hw : 8 ≤ w) (l : ℝ) (n : Nat) (a : ℝ) (ha : |a| ≤ 1 + signBias w) :
    average (fun x : Fin n → BitVec w => Real.exp (l * pairSum (a :: signVals (List.ofFn x)) -
      l ^ 2 / 2 * (1 + signBias w) ^ 2 * (signVals (List.ofFn x)).length)) ≤ 1 := by
  induction n generalizing a with
  | zero => simp [average, signVals, signs, pairSum]
  | succ n ih =>
    rw [average_succ n fun xs : List (BitVec w) => Real.exp (l * pairSum (a :: signVals xs) - l ^ 2 / 2 * (1 + signBias w) ^ 2 * (signVals xs).length)]
    obtain ⟨hb0, hb1⟩ := signBias_bounds hw
    set T : ℝ → ℝ := fun v => average (fun x : Fin n → BitVec w => Real.exp (l * pairSum (v :: signVals (List.ofFn x)) -
          l ^ 2 / 2 * (1 + signBias w) ^ 2 * (signVals (List.ofFn x)).length)) with hT
    have hstep : ∀ v : ℝ, average (fun x : Fin n → BitVec w => Real.exp (l * pairSum (a :: v :: signVals (List.ofFn x)) -
        l ^ 2 / 2 * (1 + signBias w) ^ 2 * (v :: signVals (List.ofFn x)).length)) = Real.exp (l * a * v - l ^ 2 / 2 * (1 + signBias w) ^ 2) * T v := by
      intro v
      rw [hT]
      simp only []
      rw [← average_mul_left]
      apply average_congr
      intro x
      rw [← Real.exp_add, pairSum, List.length_cons]
      congr 1; push_cast; ring
    rw [average_congr _ (fun o : BitVec w => if o = BitVec.intMax w then T a else if BitVec.intMax w < o then
      Real.exp (l * a * (1 - signBias w) - l ^ 2 / 2 * (1 + signBias w) ^ 2) * T (1 - signBias w) else
      Real.exp (l * a * (-1 - signBias w) - l ^ 2 / 2 * (1 + signBias w) ^ 2) * T (-1 - signBias w)) fun o => ?_]
    · refine word_step hw _ (l * a) (l ^ 2 / 2 * (1 + signBias w) ^ 2) (ih a ha) ?_ _ _ ?_ ?_
      · have : a ^ 2 ≤ (1 + signBias w) ^ 2 := by rw [← sq_abs]; exact pow_le_pow_left₀ (abs_nonneg a) ha 2
        rw [mul_pow]
        nlinarith [sq_nonneg l]
      · refine mul_le_of_le_one_right (Real.exp_pos _).le (ih _ ?_)
        rw [abs_le]; constructor <;> linarith
      · refine mul_le_of_le_one_right (Real.exp_pos _).le (ih _ ?_)
        rw [abs_le]; constructor <;> linarith
    · simp only [signVals_cons]
      split_ifs
      · rfl
      · exact hstep _
      · exact hstep _
end TFR
