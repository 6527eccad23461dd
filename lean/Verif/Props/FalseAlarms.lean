import Mathlib.Analysis.SpecialFunctions.Trigonometric.Series
import Verif.Lemmas.MillsLower
import Verif.Props.Calibration
import Verif.Props.Analysis
import Verif.Props.PowerRuns
/-
C123: how often random input fails the mean test.
-/
namespace TFR
open Spec Finset ProbabilityTheory
variable {w : Nat}

theorem sum_exp_centred (s : ℝ) (m : Nat) :
    ∑ k ∈ range (2 ^ m), Real.exp (s * ((k : ℝ) - (2 ^ m - 1) / 2)) = 2 ^ m * ∏ i ∈ range m, Real.cosh (s * 2 ^ i / 2) := by
  induction m with
  | zero => simp
  | succ m ih =>
    rw [pow_succ, mul_two, sum_range_add, prod_range_succ]
    have h1 : ∑ k ∈ range (2 ^ m), Real.exp (s * ((k : ℝ) - (2 ^ (m + 1) - 1) / 2)) =
        Real.exp (-(s * 2 ^ m / 2)) * ∑ k ∈ range (2 ^ m), Real.exp (s * ((k : ℝ) - (2 ^ m - 1) / 2)) := by
      rw [mul_sum]
      apply sum_congr rfl
      intro k _
      rw [← Real.exp_add]; congr 1; rw [pow_succ]; ring
    have h2 : ∑ k ∈ range (2 ^ m), Real.exp (s * (((2 ^ m + k : ℕ) : ℝ) - (2 ^ (m + 1) - 1) / 2)) =
        Real.exp (s * 2 ^ m / 2) * ∑ k ∈ range (2 ^ m), Real.exp (s * ((k : ℝ) - (2 ^ m - 1) / 2)) := by
      rw [mul_sum]
      apply sum_congr rfl
      intro k _
      rw [← Real.exp_add]; congr 1; push_cast; rw [pow_succ]; ring
    rw [h1, h2, ih, Real.cosh_eq, pow_succ]
    ring

theorem prod_cosh_le (s : ℝ) (m : Nat) : ∏ i ∈ range m, Real.cosh (s * 2 ^ i / 2) ≤ Real.exp (s ^ 2 * (4 ^ m - 1) / 24) := by
  induction m with
  | zero => simp
  | succ m ih =>
    rw [prod_range_succ]
    have h := Real.cosh_le_exp_half_sq (s * 2 ^ m / 2)
    calc _ ≤ Real.exp (s ^ 2 * (4 ^ m - 1) / 24) * Real.exp ((s * 2 ^ m / 2) ^ 2 / 2) :=
          mul_le_mul ih h (Real.cosh_pos _).le (Real.exp_pos _).le
      _ = _ := by
          rw [← Real.exp_add]; congr 1
          have : (4 : ℝ) ^ m = (2 ^ m) ^ 2 := by rw [← pow_mul, mul_comm, pow_mul]; norm_num
          rw [pow_succ (4 : ℝ) m, this]; ring

/-- The exponential moments of a rescaled random word. -/
theorem word_mgf (hw : 0 < w) (l : ℝ) :
    average (fun o : BitVec w => Real.exp (l * ((o.toNat : ℝ) / (2 ^ w - 1) - 1 / 2))) ≤ Real.exp (l ^ 2 / 24 * ((2 ^ w + 1) / (2 ^ w - 1))) := by
  have hM : (0 : ℝ) < 2 ^ w - 1 := by
    have : (2 : ℝ) ^ 1 ≤ 2 ^ w := pow_le_pow_right₀ (by norm_num) hw
    linarith
  unfold average
  rw [sum_bv (fun m => Real.exp (l * ((m : ℝ) / (2 ^ w - 1) - 1 / 2))), card_bv]
  have e : ∀ k : ℕ, Real.exp (l * ((k : ℝ) / (2 ^ w - 1) - 1 / 2)) = Real.exp (l / (2 ^ w - 1) * ((k : ℝ) - (2 ^ w - 1) / 2)) := by
    intro k; congr 1; field_simp
  simp only [e]
  rw [sum_exp_centred]
  push_cast
  rw [mul_div_assoc, mul_comm, div_mul_cancel₀ _ (by positivity)]
  refine (prod_cosh_le _ w).trans (Real.exp_le_exp.2 (le_of_eq ?_))
  have : (4 : ℝ) ^ w = (2 ^ w) ^ 2 := by rw [← pow_mul, mul_comm, pow_mul]; norm_num
  rw [this]
  field_simp
  ring

theorem average_nonneg_mono {α : Type} [Fintype α] (f g : α → ℝ) (h : ∀ x, f x ≤ g x) : average f ≤ average g := by
  unfold average
  exact div_le_div_of_nonneg_right (sum_le_sum fun x _ => h x) (Nat.cast_nonneg _)

/-- Markov's inequality for the exponential. -/
theorem chernoff {α : Type} [Fintype α] [Nonempty α] (z : α → ℝ) (p : α → Prop) [DecidablePred p] (c t : ℝ) (ht : 0 ≤ t) (hp : ∀ x, p x → c ≤ z x) :
    fraction p ≤ Real.exp (-(t * c)) * average (fun x => Real.exp (t * z x)) := by
  rw [← average_indicator, ← average_mul_left]
  apply average_nonneg_mono
  intro x
  split_ifs with h
  · rw [← Real.exp_add]
    apply Real.one_le_exp
    have := mul_le_mul_of_nonneg_left (hp x h) ht
    linarith
  · positivity

/-- Averages over sequences of functions of the first `n` elements, in product form. -/
theorem average_prod_first {Ω : Type} [Fintype Ω] [Nonempty Ω] (n N : Nat) (hnN : n ≤ N) (f : Ω → ℝ) :
    average (fun x : Fin N → Ω => ∏ i : Fin n, f (x ⟨i, i.isLt.trans_le hnN⟩)) = average f ^ n := by
  have h := average_prod (fun (i : Fin N) (o : Ω) => if i.val < n then f o else 1)
  rw [average_congr _ (fun x : Fin N → Ω => ∏ i : Fin N, if i.val < n then f (x i) else 1) fun x => ?_]
  · rw [h]
    rw [prod_congr rfl (g := fun i : Fin N => if i.val < n then average f else 1) fun i _ => ?_]
    · rw [prod_ite, prod_const_one, mul_one, prod_const]
      congr 1
      rw [Fin.card_filter_val_lt, min_eq_right hnN]
    · by_cases hi : i.val < n
      · simp only [if_pos hi]
      · simp only [if_neg hi]; exact average_const 1
  · rw [prod_ite, prod_const_one, mul_one]
    refine prod_bij (fun i _ => ⟨i.val, i.isLt.trans_le hnN⟩) ?_ ?_ ?_ ?_
    · intro i _; simp
    · intro i _ j _ hij; simpa [Fin.ext_iff] using hij
    · intro j hj; exact ⟨⟨j.val, (mem_filter.1 hj).2⟩, mem_univ _, rfl⟩
    · intro i _; rfl

/-- The exponential moments of the z-score of the mean test. -/
theorem mean_mgf (hw : 0 < w) (n N : Nat) (hn : 0 < n) (hnN : n ≤ N) (t : ℝ) :
    average (fun x : Fin N → BitVec w => Real.exp (t * (Real.sqrt (12 * n) / n *
      (∑ i : Fin n, ((x ⟨i, i.isLt.trans_le hnN⟩).toNat : ℝ) / (2 ^ w - 1) - n / 2)))) ≤ Real.exp (t ^ 2 / 2 * ((2 ^ w + 1) / (2 ^ w - 1))) := by
  have hn' : (0 : ℝ) < n := by exact_mod_cast hn
  rw [average_congr _ (fun x : Fin N → BitVec w => ∏ i : Fin n,
    (fun o : BitVec w => Real.exp (t * (Real.sqrt (12 * n) / n) * ((o.toNat : ℝ) / (2 ^ w - 1) - 1 / 2))) (x ⟨i, i.isLt.trans_le hnN⟩)) fun x => ?_]
  · rw [average_prod_first n N hnN fun o : BitVec w => Real.exp (t * (Real.sqrt (12 * n) / n) * ((o.toNat : ℝ) / (2 ^ w - 1) - 1 / 2))]
    refine (pow_le_pow_left₀ ?_ (word_mgf hw _) n).trans (le_of_eq ?_)
    · unfold average; positivity
    · rw [← Real.exp_nat_mul, mul_pow, div_pow, Real.sq_sqrt (by positivity)]
      congr 1; field_simp; ring
  · rw [← Real.exp_sum, ← mul_sum, sum_sub_distrib, sum_const, card_univ, Fintype.card_fin, nsmul_eq_mul]
    congr 1; ring

theorem fraction_mono {α : Type} [Fintype α] (p q : α → Prop) [DecidablePred p] [DecidablePred q] (h : ∀ x, p x → q x) : fraction p ≤ fraction q := by
  unfold fraction
  apply div_le_div_of_nonneg_right _ (Nat.cast_nonneg _)
  exact_mod_cast card_le_card fun x hx => mem_filter.2 ⟨mem_univ _, h x (mem_filter.1 hx).2⟩

theorem fraction_or {α : Type} [Fintype α] (p q : α → Prop) [DecidablePred p] [DecidablePred q] [DecidablePred fun x => p x ∨ q x] : fraction (fun x => p x ∨ q x) ≤ fraction p + fraction q := by
  rw [← average_indicator, ← average_indicator, ← average_indicator, ← average_add]
  apply average_nonneg_mono
  intro x
  by_cases h1 : p x <;> by_cases h2 : q x <;> simp [h1, h2]

/-! ### C123 -/

open Classical in
/-- C123. Over all sequences of at least `n` words, the fraction for which the z-score of the mean test with `n` samples is `c` or more in
size is at most `2 exp(-c²/2)`, up to the factor `(2^w-1)/(2^w+1)` by which its variance differs from one (C101). -/
theorem C123_mean_tail (hw : 0 < w) (n : BitVec 64) (hn : n ≠ 0#64) (N : Nat) (hnN : n.toNat ≤ N) (src : (Fin N → BitVec w) → Stream (BitVec w))
    (hsrc : Continues src) (c : ℝ) (hc : 0 ≤ c) :
    fraction (fun x => ∃ st, meanTest n (src x) = .ok [⟨"", some st⟩] ∧ c ≤ |st.value|) ≤
      2 * Real.exp (-(c ^ 2 / 2) * ((2 ^ w - 1) / (2 ^ w + 1))) := by
  have hn0 : 0 < n.toNat := Nat.pos_of_ne_zero fun h => hn (BitVec.eq_of_toNat_eq (by simpa using h))
  have hn' : (0 : ℝ) < n.toNat := by exact_mod_cast hn0
  have hM : (0 : ℝ) < 2 ^ w - 1 := by
    have : (2 : ℝ) ^ 1 ≤ 2 ^ w := pow_le_pow_right₀ (by norm_num) hw
    linarith
  set z : (Fin N → BitVec w) → ℝ := fun x => Real.sqrt (12 * n.toNat) / n.toNat *
    (∑ i : Fin n.toNat, ((x ⟨i, i.isLt.trans_le hnN⟩).toNat : ℝ) / (2 ^ w - 1) - n.toNat / 2) with hz
  have hzv : ∀ x, meanZ (src x).nth n.toNat = z x := by
    intro x
    unfold meanZ
    rw [Finset.sum_range fun i => (((src x).nth i).toNat : ℝ) / (2 ^ w - 1)]
    have : ∀ i : Fin n.toNat, (src x).nth i = x ⟨i, i.isLt.trans_le hnN⟩ := fun i => hsrc x ⟨i, i.isLt.trans_le hnN⟩
    simp only [this, hz]
    field_simp
  set κ : ℝ := (2 ^ w + 1) / (2 ^ w - 1) with hκ
  have hκ0 : 0 < κ := by positivity
  have hev : ∀ x, (∃ st, meanTest n (src x) = .ok [⟨"", some st⟩] ∧ c ≤ |st.value|) → (c ≤ z x ∨ z x ≤ -c) := by
    rintro x ⟨st, h, h2⟩
    rw [C78_mean, if_neg hn] at h
    simp only [Except.ok.injEq, List.cons.injEq, SubTest.mk.injEq, true_and, and_true, Option.some.injEq] at h
    subst h
    have h2 : c ≤ |meanZ (src x).nth n.toNat| := h2
    rw [hzv] at h2
    rcases le_abs.1 h2 with h | h
    · exact Or.inl h
    · exact Or.inr (by linarith)
  have hup := chernoff z (fun x => c ≤ z x) c (c / κ) (by positivity) (fun x h => h)
  have hlo := chernoff (fun x => - z x) (fun x => z x ≤ -c) c (c / κ) (by positivity) (fun x h => by linarith)
  have m1 := mean_mgf hw n.toNat N hn0 hnN (c / κ)
  have m2 := mean_mgf hw n.toNat N hn0 hnN (-(c / κ))
  have m2' : average (fun x => Real.exp (c / κ * -z x)) ≤ Real.exp ((-(c / κ)) ^ 2 / 2 * κ) := by
    refine le_trans (le_of_eq (average_congr _ _ fun x => ?_)) m2
    simp only [hz]; congr 1; ring
  have hfin : Real.exp (-(c / κ * c)) * Real.exp ((c / κ) ^ 2 / 2 * κ) = Real.exp (-(c ^ 2 / 2) * ((2 ^ w - 1) / (2 ^ w + 1))) := by
    rw [← Real.exp_add]; congr 1
    have : ((2 : ℝ) ^ w - 1) / (2 ^ w + 1) = 1 / κ := by rw [hκ]; field_simp
    rw [this]; field_simp; ring
  have hup' : fraction (fun x => c ≤ z x) ≤ Real.exp (-(c ^ 2 / 2) * ((2 ^ w - 1) / (2 ^ w + 1))) := by
    rw [← hfin]; exact hup.trans (mul_le_mul_of_nonneg_left m1 (Real.exp_pos _).le)
  have hlo' : fraction (fun x => z x ≤ -c) ≤ Real.exp (-(c ^ 2 / 2) * ((2 ^ w - 1) / (2 ^ w + 1))) := by
    rw [← hfin]
    refine hlo.trans (mul_le_mul_of_nonneg_left ?_ (Real.exp_pos _).le)
    rw [neg_sq] at m2'
    exact m2'
  have h := (fraction_mono _ _ hev).trans (fraction_or (fun x => c ≤ z x) (fun x => z x ≤ -c))
  linarith

theorem word_ratio (hw : 8 ≤ w) : (255 / 257 : ℝ) ≤ (2 ^ w - 1) / (2 ^ w + 1) := by
  have h8 : (2 : ℝ) ^ 8 ≤ 2 ^ w := pow_le_pow_right₀ (by norm_num) hw
  rw [div_le_div_iff₀ (by norm_num) (by positivity)]
  linarith

theorem mean_statistic (n : BitVec 64) (hn : n ≠ 0#64) (s : Stream (BitVec w)) (st : Statistic ℝ) (h : meanTest n s = .ok [⟨"", some st⟩]) :
    comparableP st = (gaussianReal 0 1).real {x | |st.value| ≤ |x|} := by
  rw [C78_mean, if_neg hn] at h
  simp only [Except.ok.injEq, List.cons.injEq, SubTest.mk.injEq, true_and, and_true, Option.some.injEq] at h
  subst h
  rfl

open Classical in
/-- C123. The mean test fails at most 4 of 10^8 random inputs, whatever the number of samples and the word size (from bytes on). -/
theorem C123_mean_false_alarm (hw : 8 ≤ w) (n : BitVec 64) (hn : n ≠ 0#64) (N : Nat) (hnN : n.toNat ≤ N)
    (src : (Fin N → BitVec w) → Stream (BitVec w)) (hsrc : Continues src) :
    fraction (fun x => ∃ st, meanTest n (src x) = .ok [⟨"", some st⟩] ∧ statPass st = false) ≤ 4 / 10 ^ 8 := by
  refine (fraction_mono _ _ ?_).trans ((C123_mean_tail (by omega) n hn N hnN src hsrc 6 (by norm_num)).trans ?_)
  · rintro x ⟨st, h, hp⟩
    refine ⟨st, h, ?_⟩
    by_contra hlt
    rw [not_le] at hlt
    have h1 := normal_accept st.value hlt.le
    rw [← mean_statistic n hn _ st h] at h1
    have h2 : comparableP st ≤ 1 := by rw [mean_statistic n hn _ st h]; exact MeasureTheory.measureReal_le_one
    rw [(C66_classes st h2).1.2 h1] at hp
    exact Bool.noConfusion hp
  · have hr := word_ratio hw
    have h1 : Real.exp (-(6 ^ 2 / 2) * ((2 ^ w - 1) / (2 ^ w + 1))) ≤ Real.exp (-(17 + 85 / 100)) := Real.exp_le_exp.2 (by linarith)
    have h2 : Real.exp (-(17 + 85 / 100)) ≤ 2 / 10 ^ 8 := by
      rw [Real.exp_neg, inv_le_comm₀ (Real.exp_pos _) (by norm_num)]
      have e : Real.exp (17 + 85 / 100) = Real.exp 1 ^ 17 * Real.exp (85 / 100) := by rw [← Real.exp_nat_mul, ← Real.exp_add]; norm_num
      have h4 := Real.quadratic_le_exp_of_nonneg (show (0 : ℝ) ≤ 85 / 100 by norm_num)
      rw [e]
      calc ((2 : ℝ) / 10 ^ 8)⁻¹ ≤ 2.7182818283 ^ 17 * (1 + 85 / 100 + (85 / 100) ^ 2 / 2) := by norm_num
        _ ≤ _ := mul_le_mul (pow_le_pow_left₀ (by norm_num) Real.exp_one_gt_d9.le 17) h4 (by norm_num) (by positivity)
    linarith

open Classical in
/-- C123. At most one in 4000 random inputs gets a result of the mean test that is shown as suspicious. -/
theorem C123_mean_suspicious (hw : 8 ≤ w) (n : BitVec 64) (hn : n ≠ 0#64) (N : Nat) (hnN : n.toNat ≤ N)
    (src : (Fin N → BitVec w) → Stream (BitVec w)) (hsrc : Continues src) :
    fraction (fun x => ∃ st, meanTest n (src x) = .ok [⟨"", some st⟩] ∧ hasSuspicion st = true) ≤ 1 / 4000 := by
  refine (fraction_mono _ _ ?_).trans ((C123_mean_tail (by omega) n hn N hnN src hsrc (43 / 10) (by norm_num)).trans ?_)
  · rintro x ⟨st, h, hp⟩
    refine ⟨st, h, ?_⟩
    by_contra hlt
    rw [not_le] at hlt
    have h1 := normal_unsuspicious st.value hlt.le
    rw [← mean_statistic n hn _ st h] at h1
    have h2 : comparableP st ≤ 1 := by rw [mean_statistic n hn _ st h]; exact MeasureTheory.measureReal_le_one
    have := (C66_classes st h2).2.1.1 hp
    linarith
  · have hr := word_ratio hw
    have h1 : Real.exp (-((43 / 10) ^ 2 / 2) * ((2 ^ w - 1) / (2 ^ w + 1))) ≤ Real.exp (-(9 + 17 / 100)) := Real.exp_le_exp.2 (by linarith)
    have h2 : Real.exp (-(9 + 17 / 100)) ≤ 1 / 8000 := by
      rw [Real.exp_neg, inv_le_comm₀ (Real.exp_pos _) (by norm_num)]
      have e : Real.exp (9 + 17 / 100) = Real.exp 1 ^ 9 * Real.exp (17 / 100) := by rw [← Real.exp_nat_mul, ← Real.exp_add]; norm_num
      rw [e]
      calc ((1 : ℝ) / 8000)⁻¹ ≤ 2.7182818283 ^ 9 * (17 / 100 + 1) := by norm_num
        _ ≤ _ := mul_le_mul (pow_le_pow_left₀ (by norm_num) Real.exp_one_gt_d9.le 9) (Real.add_one_le_exp _) (by norm_num) (by positivity)
    linarith

open Classical in
theorem fraction_exists {α : Type} [Fintype α] (ps : List (α → Prop)) (b : ℝ) (h : ∀ p ∈ ps, fraction p ≤ b) :
    fraction (fun x => ∃ p ∈ ps, p x) ≤ ps.length * b := by
  induction ps with
  | nil => simp [fraction]
  | cons p ps ih =>
    refine (fraction_mono _ (fun x => p x ∨ ∃ q ∈ ps, q x) ?_).trans ((fraction_or _ _).trans ?_)
    · rintro x ⟨q, hq, hx⟩
      rcases List.mem_cons.1 hq with rfl | hq
      · exact Or.inl hx
      · exact Or.inr ⟨q, hq, hx⟩
    · have h1 := h p (by simp)
      have h2 := ih fun q hq => h q (by simp [hq])
      rw [List.length_cons]; push_cast; linarith

open Classical in
/-- C123. Nor does running it again with more and more samples of the same input, as `-test` does, raise alarms: at most 124 of 10^8 random
inputs fail the mean test with `2^k` samples for any `k` from 10 to 40. -/
theorem C123_mean_all_powers (hw : 8 ≤ w) (N : Nat) (hN : 2 ^ 40 ≤ N) (src : (Fin N → BitVec w) → Stream (BitVec w)) (hsrc : Continues src) :
    fraction (fun x => ∃ k, 10 ≤ k ∧ k ≤ 40 ∧ ∃ st, meanTest (BitVec.ofNat 64 (2 ^ k)) (src x) = .ok [⟨"", some st⟩] ∧ statPass st = false) ≤
      124 / 10 ^ 8 := by
  have h := fraction_exists (((List.range 31).map fun j => fun x : Fin N → BitVec w =>
    ∃ st, meanTest (BitVec.ofNat 64 (2 ^ (10 + j))) (src x) = .ok [⟨"", some st⟩] ∧ statPass st = false)) (4 / 10 ^ 8) ?_
  · refine (fraction_mono _ _ ?_).trans (h.trans (by simp; norm_num))
    rintro x ⟨k, h1, h2, hx⟩
    refine ⟨_, List.mem_map.2 ⟨k - 10, List.mem_range.2 (by omega), rfl⟩, ?_⟩
    rw [show 10 + (k - 10) = k by omega]
    exact hx
  · intro p hp
    obtain ⟨j, hj, rfl⟩ := List.mem_map.1 hp
    have hj := List.mem_range.1 hj
    have h1 : 2 ^ (10 + j) ≤ 2 ^ 40 := Nat.pow_le_pow_right (by norm_num) (by omega)
    have h2 : (BitVec.ofNat 64 (2 ^ (10 + j))).toNat = 2 ^ (10 + j) := by
      rw [BitVec.toNat_ofNat]; exact Nat.mod_eq_of_lt (h1.trans_lt (by norm_num))
    have h3 : 0 < 2 ^ (10 + j) := by positivity
    apply C123_mean_false_alarm hw
    · intro h; rw [h] at h2; exact absurd h2 h3.ne
    · rw [h2]; exact h1.trans hN
    · exact hsrc

/-- The hypotheses can be met, and the events are not empty: all zeros fail. -/
example : Continues (thenZeros (w := 8) (2 ^ 40)) ∧
    ∃ st, meanTest (BitVec.ofNat 64 (2 ^ 10)) (thenZeros (w := 8) (2 ^ 40) fun _ => 0) = .ok [⟨"", some st⟩] ∧ statPass st = false := by
  refine ⟨thenZeros_continues _, _, by rw [C78_mean, if_neg (by decide)], ?_⟩
  have hn : (BitVec.ofNat 64 (2 ^ 10)).toNat = 1024 := by decide
  apply statPass_of_le
  apply normal_reject
  rw [hn, ((C78_range (w := 8) (by norm_num) _ 1024 (by norm_num)).2.1).2]
  · rw [abs_neg, abs_of_nonneg (Real.sqrt_nonneg _)]
    apply Real.le_sqrt_of_sq_le
    norm_num
  · intro i hi
    exact thenZeros_continues (w := 8) (2 ^ 40) (fun _ => 0) ⟨i, hi.trans (by norm_num)⟩

end TFR
