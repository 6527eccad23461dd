import Verif.Lemmas.Tails
import Verif.Props.Gamma
import Verif.Props.BasicTests
import Verif.Props.TestCommand
import Verif.Props.Suite
import Verif.Props.SearchScore
/-
C107: statistics far from the expected range fail; heavily biased generators are rejected.
-/
namespace TFR
open Spec Finset ProbabilityTheory
variable {w : Nat}

private theorem exp21 : Real.exp (-21) < 8 / 10 ^ 10 := by
  rw [Real.exp_neg, inv_lt_comm₀ (Real.exp_pos _) (by norm_num)]
  have h := Real.exp_one_gt_d9
  have : Real.exp 21 = Real.exp 1 ^ 21 := by rw [← Real.exp_nat_mul]; norm_num
  rw [this]
  calc ((8 : ℝ) / 10 ^ 10)⁻¹ < 2.7182818283 ^ 21 := by norm_num
    _ ≤ _ := pow_le_pow_left₀ (by norm_num) h.le 21

theorem chi2_rejects (x df : ℝ) (hdf : 1 ≤ df) (hx : 7 / 5 * df + 84 ≤ x) : chi2DistributionCdf x df ≤ 1 / 10 ^ 9 := by
  by_cases hbig : df < 1100000
  · have h := abs_le.1 (C90_small_p_values x df hdf hbig (by linarith) (by linarith))
    have ht := chiSquare_tail df x (by linarith)
    have hle : (2 : ℝ) ^ (df / 2) * Real.exp (-x / 4) ≤ Real.exp (-21) := by
      rw [Real.rpow_def_of_pos (by norm_num), ← Real.exp_add]
      apply Real.exp_le_exp.2
      have := Real.log_two_lt_d9
      nlinarith
    have := exp21
    have h0 : 0 ≤ (Spec.chiSquareLaw df).real (Set.Ioi x) := MeasureTheory.measureReal_nonneg
    have : chi2DistributionCdf x df ≤ (1 + 2 / 10 ^ 10) * (Spec.chiSquareLaw df).real (Set.Ioi x) := by linarith [h.2]
    norm_num at *
    nlinarith
  · push Not at hbig
    rw [(C90_many_degrees x x df hbig).1]
    have h7 : 7 ≤ Real.sqrt (2 * x) - Real.sqrt (2 * df - 1) := by
      have h1 : Real.sqrt (2 * df - 1) ≤ Real.sqrt (2 * df) := Real.sqrt_le_sqrt (by linarith)
      have h2 : Real.sqrt (2 * df) + 7 ≤ Real.sqrt (2 * x) := by
        apply Real.le_sqrt_of_sq_le
        have hs := Real.sq_sqrt (show 0 ≤ 2 * df by linarith)
        have hb : 1000 ≤ Real.sqrt (2 * df) := Real.le_sqrt_of_sq_le (by norm_num; linarith)
        nlinarith
      linarith
    set t := Real.sqrt (2 * x) - Real.sqrt (2 * df - 1)
    have hs : (gaussianReal 0 1).real (Set.Ioi t) ≤ (gaussianReal 0 1).real {y | t ≤ y} :=
      MeasureTheory.measureReal_mono (fun y (hy : t < y) => (show t ≤ y from hy.le))
    refine hs.trans ((normal_upper_tail t (by linarith)).trans ?_)
    have : Real.exp (-t ^ 2 / 2) ≤ Real.exp (-21) := Real.exp_le_exp.2 (by nlinarith)
    have := exp21
    have : (1 : ℝ) / 10 ^ 9 = 5 / 4 * (8 / 10 ^ 10) := by norm_num
    linarith

theorem comparableP_le (s : Statistic ℝ) : comparableP s ≤ s.pValue := by
  unfold comparableP
  split_ifs
  · exact le_rfl
  · exact min_le_left _ _

/-- C107. A chi-square statistic above `1.4 df + 84` is a failure, for any number of degrees of freedom. -/
theorem C107_chi_square (x df : ℝ) (hdf : 1 ≤ df) (hx : 7 / 5 * df + 84 ≤ x) :
    statPass ⟨.chi2, x, chi2DistributionCdf x df, df⟩ = false := by
  have h := chi2_rejects x df hdf hx
  have h1 : (⟨.chi2, x, chi2DistributionCdf x df, df⟩ : Statistic ℝ).pValue ≤ 1 := by
    show chi2DistributionCdf x df ≤ 1
    norm_num at h; linarith
  rw [← Bool.not_eq_true, (C66_classes _ ((comparableP_le _).trans h1)).1, not_lt]
  exact (comparableP_le _).trans h

/-- C107. A z-score (two-sided normal p-value) of at least 6.6 in absolute value is a failure. -/
theorem C107_z_score (z df : ℝ) (hz : 6.6 ≤ |z|) :
    (gaussianReal 0 1).real {x | |z| ≤ |x|} ≤ 1 / 10 ^ 9 ∧
    statPass ⟨.zScore, z, (gaussianReal 0 1).real {x | |z| ≤ |x|}, df⟩ = false := by
  have hp : (gaussianReal 0 1).real {x | |z| ≤ |x|} ≤ 1 / 10 ^ 9 := by
    refine (normal_two_tails |z| (abs_nonneg _)).trans ?_
    have h1 : Real.exp (-|z| ^ 2 / 2) ≤ Real.exp (-21.78) := Real.exp_le_exp.2 (by norm_num at hz; norm_num1; nlinarith)
    have h2 : Real.exp (-21.78) ≤ 1 / 2 * Real.exp (-21) := by
      rw [show (-21.78 : ℝ) = -0.78 + -21 by norm_num, Real.exp_add]
      apply mul_le_mul_of_nonneg_right _ (Real.exp_pos _).le
      have := Real.log_two_lt_d9
      rw [show (1 / 2 : ℝ) = Real.exp (- Real.log 2) by rw [Real.exp_neg, Real.exp_log (by norm_num)]; norm_num]
      apply Real.exp_le_exp.2
      norm_num at *; linarith
    have := exp21
    have : (1 : ℝ) / 10 ^ 9 = 5 / 4 * (8 / 10 ^ 10) := by norm_num
    linarith
  refine ⟨hp, ?_⟩
  have h1 : (⟨.zScore, z, (gaussianReal 0 1).real {x | |z| ≤ |x|}, df⟩ : Statistic ℝ).pValue ≤ 1 := by
    show (gaussianReal 0 1).real {x | |z| ≤ |x|} ≤ 1
    norm_num at hp; linarith
  rw [← Bool.not_eq_true, (C66_classes _ ((comparableP_le _).trans h1)).1, not_lt]
  exact (comparableP_le _).trans hp

/-! ### The mean test -/

/-- C107. The mean test rejects every stream whose first `n` values have a mean that is off the centre of the range by at least
`1.91/√n` of the range. -/
theorem C107_mean (n : BitVec 64) (hn : n ≠ 0#64) (s : Stream (BitVec w))
    (h : 1.91 / Real.sqrt n.toNat ≤ |(∑ i ∈ range n.toNat, ((s.nth i).toNat : ℝ) / (2 ^ w - 1)) / n.toNat - 1 / 2|) :
    ∃ st, meanTest n s = .ok [⟨"", some st⟩] ∧ st.pValue ≤ 1 / 10 ^ 9 ∧ statPass st = false := by
  have hn0 : 0 < n.toNat := Nat.pos_of_ne_zero fun h => hn (BitVec.eq_of_toNat_eq (by simpa using h))
  have hn' : (0 : ℝ) < n.toNat := by exact_mod_cast hn0
  have hz : 6.6 ≤ |meanZ s.nth n.toNat| := by
    unfold meanZ
    rw [abs_mul, abs_of_nonneg (Real.sqrt_nonneg _), Real.sqrt_mul (by norm_num)]
    have hs := Real.sqrt_pos.2 hn'
    rw [div_le_iff₀ hs] at h
    have h12 : 3.464 ≤ Real.sqrt 12 := Real.le_sqrt_of_sq_le (by norm_num)
    set d := |(∑ i ∈ range n.toNat, ((s.nth i).toNat : ℝ) / (2 ^ w - 1)) / n.toNat - 1 / 2|
    calc (6.6 : ℝ) ≤ 1.91 * 3.464 := by norm_num
      _ ≤ (d * Real.sqrt n.toNat) * Real.sqrt 12 := mul_le_mul h h12 (by norm_num) (by positivity)
      _ = _ := by ring
  obtain ⟨h1, h2⟩ := C107_z_score (meanZ s.nth n.toNat) n.toNat hz
  exact ⟨_, by rw [C78_mean, if_neg hn], h1, h2⟩

/-! ### The uniformity test -/

/-- Grouping the cells of a test with equal expectations into two groups can only decrease Pearson's statistic. -/
theorem two_groups (B : Nat) (h : Nat → ℝ) (E n : ℝ) (hE : 0 < E) (hn : n = B * E) (hsum : ∑ j ∈ range B, h j = n) (S : Finset ℕ)
    (hS : S ⊆ range B) :
    4 * (∑ j ∈ S, h j - S.card * E) ^ 2 / n ≤ ∑ j ∈ range B, (h j - E) ^ 2 / E := by
  set c := ∑ j ∈ S, h j with hc
  set T := range B \ S with hT
  have hcard : (S.card : ℝ) + T.card = B := by
    have := Finset.card_sdiff_add_card_eq_card hS
    rw [card_range] at this
    have h2 : T.card + S.card = B := this
    rw [← h2]; push_cast; ring
  have hTsum : ∑ j ∈ T, h j = n - c := by
    have := Finset.sum_sdiff (f := h) hS
    rw [hsum] at this
    linarith
  have hsplit : ∑ j ∈ range B, (h j - E) ^ 2 / E = ∑ j ∈ T, (h j - E) ^ 2 / E + ∑ j ∈ S, (h j - E) ^ 2 / E :=
    (Finset.sum_sdiff hS).symm
  have h1 := Finset.sq_sum_div_le_sum_sq_div S (fun j => h j - E) (g := fun _ => E) (fun _ _ => hE)
  have h2 := Finset.sq_sum_div_le_sum_sq_div T (fun j => h j - E) (g := fun _ => E) (fun _ _ => hE)
  rw [sum_sub_distrib, sum_const, nsmul_eq_mul] at h1 h2
  rw [hTsum] at h2
  rw [← hc] at h1
  rw [hsplit]
  set a := c - S.card * E with ha
  have hb : n - c - T.card * E = -a := by rw [ha, hn, ← hcard]; ring
  rw [hb, neg_sq] at h2
  refine le_trans ?_ (add_le_add h2 h1)
  rcases Nat.eq_zero_or_pos S.card with hs | hs
  · have : S = ∅ := Finset.card_eq_zero.1 hs
    have ha0 : a = 0 := by rw [ha, hc, this]; simp
    rw [ha0]; simp
  rcases Nat.eq_zero_or_pos T.card with ht | ht
  · have ha0 : a = 0 := by
      have : T = ∅ := Finset.card_eq_zero.1 ht
      rw [this] at hTsum
      rw [ht] at hcard
      simp at hTsum hcard
      rw [ha, hcard, ← hn]; linarith
    rw [ha0]; simp
  have hs' : (0 : ℝ) < S.card := by exact_mod_cast hs
  have ht' : (0 : ℝ) < T.card := by exact_mod_cast ht
  rw [hn, ← hcard, ← sub_nonneg]
  have : a ^ 2 / (T.card * E) + a ^ 2 / (S.card * E) - 4 * a ^ 2 / (((S.card : ℝ) + T.card) * E) =
      a ^ 2 * ((S.card : ℝ) - T.card) ^ 2 / (S.card * T.card * ((S.card : ℝ) + T.card) * E) := by
    field_simp; ring
  rw [this]
  positivity

theorem binHits_group (v : Nat → BitVec w) (n B : Nat) (S : Finset ℕ) :
    ∑ j ∈ S, binHits v n B j = (List.range n).countP fun i => decide (Spec.bin B (v i) ∈ S) := by
  classical
  induction S using Finset.induction_on with
  | empty => simp
  | insert a S ha ih =>
    rw [sum_insert ha, ih]
    unfold binHits
    generalize List.range n = l
    induction l with
    | nil => rfl
    | cons i l ihl =>
      simp only [List.countP_cons, decide_eq_true_eq, Finset.mem_insert] at ihl ⊢
      by_cases h1 : Spec.bin B (v i) = a
      · have h2 : Spec.bin B (v i) ∉ S := by rw [h1]; exact ha
        simp only [h1, true_or, if_true]
        rw [h1] at h2
        simp only [h2, if_false]
        omega
      · simp only [h1, false_or, if_false]
        omega

/-- Any group of bins gives a lower bound of the statistic of the uniformity test. -/
theorem uniform_group (cdf : ℝ → ℝ → ℝ) (t : WT) (n : BitVec 64) (hn : n ≠ 0#64) : ∃ k, 1 ≤ k ∧ k ≤ t.bits ∧
    (2 : ℝ) ^ k < 2 * (2 * (n.toNat : ℝ) ^ (4 / 10 : ℝ) + 1) ∧
    (2 * (n.toNat : ℝ) ^ (4 / 10 : ℝ) ≤ 2 ^ k ∨ k = t.bits) ∧
    ∀ s : Stream (BitVec t.bits), ∃ st, uniformTest cdf n s = .ok [⟨"", some st⟩] ∧ st.type = .chi2 ∧ st.df = 2 ^ k - 1 ∧
      st.pValue = cdf st.value st.df ∧ ∀ S : Finset ℕ, S ⊆ range (2 ^ k) →
        4 * (((List.range n.toNat).countP fun i => decide (Spec.bin (2 ^ k) (s.nth i) ∈ S) : ℕ) - S.card * ((n.toNat : ℝ) / 2 ^ k)) ^ 2 / n.toNat
          ≤ st.value := by
  have hn0 : 0 < n.toNat := Nat.pos_of_ne_zero fun h => hn (BitVec.eq_of_toNat_eq (by simpa using h))
  have hn' : (0 : ℝ) < n.toNat := by exact_mod_cast hn0
  obtain ⟨k, hk1, hkt, hup, hlo, hu⟩ := C79_uniform cdf t n hn
  refine ⟨k, hk1, hkt, hup, hlo, fun s => ?_⟩
  have h2k : 2 ≤ 2 ^ k := by
    calc 2 = 2 ^ 1 := rfl
      _ ≤ _ := Nat.pow_le_pow_right (by norm_num) hk1
  have he : (0 : ℝ) < (n.toNat : ℝ) / 2 ^ k := by positivity
  have hp : pearson cdf ((List.range (2 ^ k)).map fun j => ((binHits s.nth n.toNat (2 ^ k) j : ℝ), (n.toNat : ℝ) / 2 ^ k)) 0 =
      some ⟨.chi2, ∑ j ∈ range (2 ^ k), ((binHits s.nth n.toNat (2 ^ k) j : ℝ) - (n.toNat : ℝ) / 2 ^ k) ^ 2 / ((n.toNat : ℝ) / 2 ^ k),
        cdf (∑ j ∈ range (2 ^ k), ((binHits s.nth n.toNat (2 ^ k) j : ℝ) - (n.toNat : ℝ) / 2 ^ k) ^ 2 / ((n.toNat : ℝ) / 2 ^ k)) (2 ^ k - 1),
        2 ^ k - 1⟩ := by
    unfold pearson
    rw [used_all (2 ^ k) (fun j => (binHits s.nth n.toNat (2 ^ k) j : ℝ)) _ he,
      chiSquare_range (2 ^ k) (fun j => (binHits s.nth n.toNat (2 ^ k) j : ℝ)), if_neg (by simp; omega)]
    simp
  refine ⟨_, by rw [hu s, hp], rfl, rfl, rfl, fun S hS => ?_⟩
  have := two_groups (2 ^ k) (fun j => (binHits s.nth n.toNat (2 ^ k) j : ℝ)) ((n.toNat : ℝ) / 2 ^ k) n.toNat he
    (by push_cast; field_simp) (by exact_mod_cast binHits_sum s.nth n.toNat (2 ^ k) (by positivity)) S hS
  rw [← Nat.cast_sum, binHits_group] at this
  exact this


theorem reject_of_value (st : Statistic ℝ) (ht : st.type = .chi2) (hp : st.pValue = chi2DistributionCdf st.value st.df) (hdf : 1 ≤ st.df)
    (hv : 7 / 5 * st.df + 84 ≤ st.value) : st.pValue ≤ 1 / 10 ^ 9 ∧ statPass st = false := by
  have e : st = ⟨.chi2, st.value, chi2DistributionCdf st.value st.df, st.df⟩ := by
    rw [← ht, ← hp]
  refine ⟨by rw [hp]; exact chi2_rejects _ _ hdf hv, ?_⟩
  rw [e]
  exact C107_chi_square _ _ hdf hv

theorem one_le_df (k : Nat) (hk : 1 ≤ k) : (1 : ℝ) ≤ 2 ^ k - 1 := by
  have : (2 : ℝ) ^ 1 ≤ 2 ^ k := pow_le_pow_right₀ (by norm_num) hk
  linarith

/-- C107. A generator that gives the same value 86 times or more is rejected by the uniformity test. -/
theorem C107_constant (t : WT) (n : BitVec 64) (hn : 86 ≤ n.toNat) (s : Stream (BitVec t.bits)) (c : BitVec t.bits)
    (h : ∀ i, i < n.toNat → s.nth i = c) :
    ∃ st, uniformTest chi2DistributionCdf n s = .ok [⟨"", some st⟩] ∧ st.pValue ≤ 1 / 10 ^ 9 ∧ statPass st = false := by
  have hn0 : n ≠ 0#64 := by rintro rfl; simp at hn
  have hn' : (86 : ℝ) ≤ n.toNat := by exact_mod_cast hn
  obtain ⟨k, hk1, hkt, hup, hlo, hu⟩ := C79_uniform chi2DistributionCdf t n hn0
  have h2k : 2 ≤ 2 ^ k := by
    calc 2 = 2 ^ 1 := rfl
      _ ≤ _ := Nat.pow_le_pow_right (by norm_num) hk1
  obtain ⟨st, hst, h1, h2, h3, -, -, -, h4⟩ := C79_range chi2DistributionCdf n.toNat (2 ^ k) (by omega) h2k s.nth
  push_cast at hst h2 h4
  have hd := one_le_df k hk1
  refine ⟨st, by rw [hu s, hst], reject_of_value st h1 h3 (by rw [h2]; exact hd) ?_⟩
  rw [h4.2 ⟨Spec.bin (2 ^ k) c, fun i hi => by rw [h i hi]⟩, h2]
  nlinarith

/-- The number of the first `n` values whose most significant bit is set. -/
def Spec.topBits (v : Nat → BitVec w) (n : Nat) : Nat := (List.range n).countP fun i => (v i).msb

theorem bins_lt (n : BitVec 64) (hmax : n.toNat ≤ 2 ^ 45) (k : Nat) (hup : (2 : ℝ) ^ k < 2 * (2 * (n.toNat : ℝ) ^ (4 / 10 : ℝ) + 1)) : k < 21 := by
  by_contra hk
  have h1 : (2 : ℝ) ^ 21 ≤ 2 ^ k := pow_le_pow_right₀ (by norm_num) (by omega)
  have h2 : (n.toNat : ℝ) ^ (4 / 10 : ℝ) ≤ 2 ^ 18 := by
    have h1 : (n.toNat : ℝ) ≤ 2 ^ (45 : ℝ) := by
      have : (n.toNat : ℝ) ≤ 2 ^ 45 := by exact_mod_cast hmax
      exact_mod_cast this
    have h2 : (n.toNat : ℝ) ^ (4 / 10 : ℝ) ≤ ((2 : ℝ) ^ (45 : ℝ)) ^ (4 / 10 : ℝ) :=
      Real.rpow_le_rpow (by positivity) h1 (by norm_num)
    rw [← Real.rpow_mul (by norm_num)] at h2
    have h3 : ((2 : ℝ) ^ ((45 : ℝ) * (4 / 10))) = 2 ^ 18 := by
      rw [← Real.rpow_natCast]; norm_num
    rwa [h3] at h2
  norm_num at h1 h2
  linarith

theorem shift_msb (k : Nat) (hk1 : 1 ≤ k) (hkw : k ≤ w) (x : BitVec w) : (2 ^ (k - 1) ≤ x.toNat >>> (w - k)) ↔ x.msb = true := by
  rw [BitVec.msb_eq_decide, decide_eq_true_eq, Nat.shiftRight_eq_div_pow, Nat.le_div_iff_mul_le (by positivity), ← pow_add,
    show k - 1 + (w - k) = w - 1 by omega]

/-- C107. 8-, 16- and 32-bit words, `n ≤ 2^45`: if the number of values with the most significant bit set is off `n/2` by at least
`½ √(n (6 n^0.4 + 86))`, the uniformity test rejects. -/
theorem C107_top_bit (t : WT) (ht : t ≠ .u64) (n : BitVec 64) (hn : n ≠ 0#64) (hmax : n.toNat ≤ 2 ^ 45) (s : Stream (BitVec t.bits))
    (h : n.toNat * (6 * (n.toNat : ℝ) ^ (4 / 10 : ℝ) + 86) ≤ 4 * ((topBits s.nth n.toNat : ℝ) - n.toNat / 2) ^ 2) :
    ∃ st, uniformTest chi2DistributionCdf n s = .ok [⟨"", some st⟩] ∧ st.pValue ≤ 1 / 10 ^ 9 ∧ statPass st = false := by
  have hn0 : 0 < n.toNat := Nat.pos_of_ne_zero fun h => hn (BitVec.eq_of_toNat_eq (by simpa using h))
  have hn' : (0 : ℝ) < n.toNat := by exact_mod_cast hn0
  obtain ⟨k, hk1, hkt, hup, hlo, hu⟩ := uniform_group chi2DistributionCdf t n hn
  obtain ⟨st, hst, h1, h2, h3, h4⟩ := hu s
  refine ⟨st, hst, reject_of_value st h1 h3 (by rw [h2]; exact one_le_df k hk1) ?_⟩
  have hk21 := bins_lt n hmax k hup
  have hb32 : t.bits ≤ 32 := by cases t <;> simp_all [WT.bits]
  have hb0 : 0 < t.bits := by cases t <;> simp [WT.bits]
  have hbin : ∀ x : BitVec t.bits, Spec.bin (2 ^ k) x = x.toNat >>> (t.bits - k) := by
    intro x
    have h1 := C75_top_bits k hkt hb0 (by omega) x
    rw [chi2BinIndex_eq _ (Nat.pow_le_pow_right (by norm_num) (by omega))] at h1
    injection h1
  have hpow : 2 ^ k = 2 * 2 ^ (k - 1) := by rw [← pow_succ']; congr 1; omega
  have hS : Finset.Ico (2 ^ (k - 1)) (2 ^ k) ⊆ range (2 ^ k) := by
    intro j hj; rw [Finset.mem_Ico] at hj; exact mem_range.2 hj.2
  have h5 := h4 _ hS
  have hcount : ((List.range n.toNat).countP fun i => decide (Spec.bin (2 ^ k) (s.nth i) ∈ Finset.Ico (2 ^ (k - 1)) (2 ^ k))) =
      topBits s.nth n.toNat := by
    unfold topBits
    apply List.countP_congr
    intro i _
    rw [decide_eq_true_eq, Finset.mem_Ico, hbin, ← shift_msb k hk1 hkt (s.nth i)]
    constructor
    · exact fun h => h.1
    · intro h
      refine ⟨h, ?_⟩
      rw [← hbin]; unfold Spec.bin
      have : 0 < 2 ^ k := by positivity
      omega
  have hcard : ((Finset.Ico (2 ^ (k - 1)) (2 ^ k)).card : ℝ) * ((n.toNat : ℝ) / 2 ^ k) = n.toNat / 2 := by
    rw [Nat.card_Ico, hpow, show 2 * 2 ^ (k - 1) - 2 ^ (k - 1) = 2 ^ (k - 1) by omega]
    have : (2 : ℝ) ^ k = 2 * 2 ^ (k - 1) := by exact_mod_cast hpow
    rw [this]; push_cast; field_simp
  rw [hcount, hcard] at h5
  have h6 : 6 * (n.toNat : ℝ) ^ (4 / 10 : ℝ) + 86 ≤ st.value := by
    refine le_trans ?_ h5
    rw [le_div_iff₀ hn']; linarith
  have hr0 : 0 ≤ (n.toNat : ℝ) ^ (4 / 10 : ℝ) := by positivity
  rw [h2]
  nlinarith

/-- C107. A generator whose most significant bit is stuck (at 0 or at 1) for 256 values or more is rejected by the uniformity test. -/
theorem C107_stuck_top_bit (t : WT) (n : BitVec 64) (hn : 256 ≤ n.toNat) (hmax : n.toNat ≤ 2 ^ 45) (s : Stream (BitVec t.bits)) (b : Bool)
    (h : ∀ i, i < n.toNat → (s.nth i).msb = b) :
    ∃ st, uniformTest chi2DistributionCdf n s = .ok [⟨"", some st⟩] ∧ st.pValue ≤ 1 / 10 ^ 9 ∧ statPass st = false := by
  have hn0 : n ≠ 0#64 := by rintro rfl; simp at hn
  have hn' : (256 : ℝ) ≤ n.toNat := by exact_mod_cast hn
  have hpos : (0 : ℝ) < n.toNat := by linarith
  obtain ⟨k, hk1, hkt, hup, hlo, hu⟩ := uniform_group chi2DistributionCdf t n hn0
  obtain ⟨st, hst, h1, h2, h3, h4⟩ := hu s
  refine ⟨st, hst, reject_of_value st h1 h3 (by rw [h2]; exact one_le_df k hk1) ?_⟩
  have hk21 := bins_lt n hmax k hup
  have hb0 : 0 < t.bits := by cases t <;> simp [WT.bits]
  -- n^0.4 against n
  set r := (n.toNat : ℝ) ^ (4 / 10 : ℝ) with hr
  have hr27 : 27 * r ≤ n.toNat := by
    have e1 : (n.toNat : ℝ) = r * (n.toNat : ℝ) ^ (6 / 10 : ℝ) := by
      rw [hr, ← Real.rpow_add hpos]; norm_num
    have e2 : (27 : ℝ) ≤ (n.toNat : ℝ) ^ (6 / 10 : ℝ) := by
      have h256 : (256 : ℝ) ^ (6 / 10 : ℝ) ≤ (n.toNat : ℝ) ^ (6 / 10 : ℝ) := Real.rpow_le_rpow (by norm_num) hn' (by norm_num)
      refine le_trans ?_ h256
      rw [show (256 : ℝ) = 2 ^ (8 : ℝ) by norm_num, ← Real.rpow_mul (by norm_num)]
      have : (27 : ℝ) = (27 ^ (5 : ℝ)) ^ (1 / 5 : ℝ) := by rw [← Real.rpow_mul (by norm_num)]; norm_num
      rw [this, show ((8 : ℝ) * (6 / 10)) = 24 * (1 / 5) by norm_num, Real.rpow_mul (by norm_num)]
      apply Real.rpow_le_rpow (by positivity) _ (by norm_num)
      norm_num
    have hr0 : 0 ≤ r := by positivity
    nlinarith
  have hk5 : 5 ≤ k := by
    by_contra hk
    have h16 : (2 : ℝ) ^ k ≤ 2 ^ 4 := pow_le_pow_right₀ (by norm_num) (by omega)
    have h9 : (9 : ℝ) ≤ r := by
      have h256 : (256 : ℝ) ^ (4 / 10 : ℝ) ≤ r := Real.rpow_le_rpow (by norm_num) hn' (by norm_num)
      refine le_trans ?_ h256
      rw [show (256 : ℝ) = 2 ^ (8 : ℝ) by norm_num, ← Real.rpow_mul (by norm_num)]
      have : (9 : ℝ) = (9 ^ (5 : ℝ)) ^ (1 / 5 : ℝ) := by rw [← Real.rpow_mul (by norm_num)]; norm_num
      rw [this, show ((8 : ℝ) * (4 / 10)) = 16 * (1 / 5) by norm_num, Real.rpow_mul (by norm_num)]
      apply Real.rpow_le_rpow (by positivity) _ (by norm_num)
      norm_num
    rcases hlo with hlo | hlo
    · norm_num at h16; linarith
    · have : 8 ≤ t.bits := by cases t <;> simp [WT.bits]
      omega
  -- the bin is the shifted value, or for 64-bit words possibly the next one
  have hbin : ∀ x : BitVec t.bits, Spec.bin (2 ^ k) x = x.toNat >>> (t.bits - k) ∨ Spec.bin (2 ^ k) x = x.toNat >>> (t.bits - k) + 1 := by
    intro x
    by_cases ht : t = .u64
    · subst ht
      obtain ⟨i, g1, g2, -⟩ := C75_top_bits64 k (by omega) x
      rw [chi2BinIndex_eq _ (Nat.pow_le_pow_right (by norm_num) (by omega))] at g1
      injection g1 with g1
      rw [g1]; exact g2
    · have hb32 : t.bits ≤ 32 := by cases t <;> simp_all [WT.bits]
      have h1 := C75_top_bits k hkt hb0 (by omega) x
      rw [chi2BinIndex_eq _ (Nat.pow_le_pow_right (by norm_num) (by omega))] at h1
      injection h1 with h1
      exact Or.inl h1
  have hlt : ∀ x : BitVec t.bits, Spec.bin (2 ^ k) x < 2 ^ k := by
    intro x; unfold Spec.bin
    have : 0 < 2 ^ k := by positivity
    omega
  have hpow : 2 ^ k = 2 * 2 ^ (k - 1) := by rw [← pow_succ']; congr 1; omega
  have hpowR : (2 : ℝ) ^ k = 2 * 2 ^ (k - 1) := by exact_mod_cast hpow
  have h32 : (32 : ℝ) ≤ 2 ^ k := by
    calc (32 : ℝ) = 2 ^ 5 := by norm_num
      _ ≤ _ := pow_le_pow_right₀ (by norm_num) hk5
  have h32N : 32 ≤ 2 ^ k := by
    calc 32 = 2 ^ 5 := by norm_num
      _ ≤ _ := Nat.pow_le_pow_right (by norm_num) hk5
  -- the occupied bins are at most one more than half of them
  obtain ⟨S, hS, hcard, hall⟩ : ∃ S : Finset ℕ, S ⊆ range (2 ^ k) ∧ S.card ≤ 2 ^ (k - 1) + 1 ∧
      ∀ i, i < n.toNat → Spec.bin (2 ^ k) (s.nth i) ∈ S := by
    cases b with
    | true =>
      refine ⟨Finset.Ico (2 ^ (k - 1)) (2 ^ k), fun j hj => mem_range.2 (Finset.mem_Ico.1 hj).2, by rw [Nat.card_Ico]; omega, ?_⟩
      intro i hi
      have := (shift_msb k hk1 hkt (s.nth i)).2 (h i hi)
      rw [Finset.mem_Ico]
      refine ⟨?_, hlt _⟩
      rcases hbin (s.nth i) with g | g <;> omega
    | false =>
      refine ⟨range (2 ^ (k - 1) + 1), range_subset_range.2 (by omega), by rw [card_range], ?_⟩
      intro i hi
      have := mt (shift_msb k hk1 hkt (s.nth i)).1 (by rw [h i hi]; simp)
      rw [mem_range]
      rcases hbin (s.nth i) with g | g <;> omega
  have h5 := h4 S hS
  have hcount : ((List.range n.toNat).countP fun i => decide (Spec.bin (2 ^ k) (s.nth i) ∈ S)) = n.toNat := by
    rw [List.countP_eq_length.2 (by intro i hi; simpa using hall i (List.mem_range.1 hi)), List.length_range]
  rw [hcount] at h5
  have hfrac : (S.card : ℝ) * ((n.toNat : ℝ) / 2 ^ k) ≤ 17 / 32 * n.toNat := by
    have hc : (S.card : ℝ) ≤ 2 ^ (k - 1) + 1 := by exact_mod_cast hcard
    have : (S.card : ℝ) ≤ 17 / 32 * 2 ^ k := by linarith
    calc (S.card : ℝ) * ((n.toNat : ℝ) / 2 ^ k) ≤ 17 / 32 * 2 ^ k * ((n.toNat : ℝ) / 2 ^ k) := mul_le_mul_of_nonneg_right this (by positivity)
      _ = _ := by field_simp
  set e := (S.card : ℝ) * ((n.toNat : ℝ) / 2 ^ k)
  have h6 : 4 * (15 / 32 * (n.toNat : ℝ)) ^ 2 / n.toNat ≤ 4 * (n.toNat - e) ^ 2 / n.toNat := by
    gcongr
    linarith
  have h7 : 4 * (15 / 32 * (n.toNat : ℝ)) ^ 2 / n.toNat = 225 / 256 * n.toNat := by field_simp; norm_num
  rw [h7] at h6
  rw [h2]
  linarith

/-! ### Batteries -/

/-- A result that fails is in the battery, under every schedule. -/
theorem result_failing_c (cdf : ℝ → ℝ → ℝ) (type : TestType) (n : BitVec 64) (setup : TestSetup w) (hth : 0 < setup.maxThreads)
    (b : Battery ℝ) (hb : EvaluateOutcome (suiteDef cdf) n setup b) (name : String) (st : Statistic ℝ)
    (hmem : ∃ r ∈ expectedResults (suiteDef cdf) n setup, r.key = ⟨type, name⟩ ∧ r.stats = st)
    (hp : comparableP st ≤ 1 / 10 ^ 9) :
    (⟨type, name⟩ : TestKey) ∈ keys b ∧ ∃ r ∈ b.get ⟨type, name⟩, comparableP r.stats ≤ 1 / 10 ^ 9 := by
  obtain ⟨-, -, -, -, hperm⟩ := C35_schedule_independent _ n setup hth b hb
  have hwf := evaluate_wf _ _ _ _ hb
  obtain ⟨r, hr, hk, hrs⟩ := hmem
  have hget : r ∈ b.get ⟨type, name⟩ := (hperm _).mem_iff.2 (List.mem_filter.2 ⟨hr, by simpa using hk⟩)
  have hkey : (⟨type, name⟩ : TestKey) ∈ keys b := by
    unfold keys
    by_contra hc
    have : b.get ⟨type, name⟩ = [] := by
      unfold Battery.get
      have hnone : ∀ m : ResultMap ℝ, (∀ e ∈ m, e.1 ≠ (⟨type, name⟩ : TestKey)) → mapFind ⟨type, name⟩ m = none := by
        intro m
        induction m with
        | nil => intro _; rfl
        | cons e m ih =>
          intro hm
          rw [mapFind]
          split
          · exact ih fun x hx => hm x (List.mem_cons_of_mem _ hx)
          · split
            · rfl
            · rename_i h1 h2
              exact absurd (C38_strict_total_order.2.2 _ _ (by simpa using h1) (by simpa using h2)) (hm e List.mem_cons_self)
      rw [hnone b.results fun e he hek => hc (List.mem_map.2 ⟨e, he, hek⟩)]
      rfl
    rw [this] at hget; cases hget
  exact ⟨hkey, r, hget, by rw [hrs]; exact hp⟩

/-- A result with p-value at most 1e-9 is in the battery, under every schedule. -/
theorem result_failing (cdf : ℝ → ℝ → ℝ) (type : TestType) (n : BitVec 64) (setup : TestSetup w) (hth : 0 < setup.maxThreads)
    (b : Battery ℝ) (hb : EvaluateOutcome (suiteDef cdf) n setup b) (name : String) (st : Statistic ℝ)
    (hmem : ∃ r ∈ expectedResults (suiteDef cdf) n setup, r.key = ⟨type, name⟩ ∧ r.stats = st)
    (hp : st.pValue ≤ 1 / 10 ^ 9) :
    (⟨type, name⟩ : TestKey) ∈ keys b ∧ ∃ r ∈ b.get ⟨type, name⟩, comparableP r.stats ≤ 1 / 10 ^ 9 :=
  result_failing_c cdf type n setup hth b hb name st hmem ((comparableP_le st).trans hp)

/-- A result with p-value at most 1e-9 makes the battery fail, under every schedule. -/
theorem result_rejects (cdf : ℝ → ℝ → ℝ) (type : TestType) (n : BitVec 64) (setup : TestSetup w) (hth : 0 < setup.maxThreads)
    (b : Battery ℝ) (hb : EvaluateOutcome (suiteDef cdf) n setup b) (name : String) (st : Statistic ℝ)
    (hmem : ∃ r ∈ expectedResults (suiteDef cdf) n setup, r.key = ⟨type, name⟩ ∧ r.stats = st)
    (hp : st.pValue ≤ 1 / 10 ^ 9) : ¬ BatteryPasses b := by
  obtain ⟨hkey, r, hr, hle⟩ := result_failing cdf type n setup hth b hb name st hmem hp
  exact fun hpass => absurd ((hpass _ hkey).1 r hr) (not_lt.2 hle)

/-- A statistic of a stream test that fails is in the battery, under every schedule. -/
theorem battery_failing_c (cdf : ℝ → ℝ → ℝ) (type : TestType) (n : BitVec 64) (setup : TestSetup w) (hth : 0 < setup.maxThreads)
    (b : Battery ℝ) (hb : EvaluateOutcome (suiteDef cdf) n setup b) (htest : type ∈ setup.tests) (s : Stream (BitVec w)) (hs : s ∈ setup.sources)
    (f : BitVec 64 → Stream (BitVec w) → TestRun) (hf : suiteStream cdf type = some f) (res : List (SubTest ℝ))
    (hres : f n (createStream setup.mix s) = some (.ok res)) (name : String) (st : Statistic ℝ) (hst : ⟨name, some st⟩ ∈ res)
    (hp : comparableP st ≤ 1 / 10 ^ 9) :
    (⟨type, name⟩ : TestKey) ∈ keys b ∧ ∃ r ∈ b.get ⟨type, name⟩, comparableP r.stats ≤ 1 / 10 ^ 9 := by
  have hty : (suiteDef cdf type : TestDef w ℝ).type = type := (C89_kind (w := w) cdf type).2.2.2
  have hts : (suiteDef cdf type : TestDef w ℝ).testStream = some fun n s => (f n s).value := by
    unfold suiteDef; rw [hf]; rfl
  have hval : (f n (createStream setup.mix s)).value = res := by rw [hres]; rfl
  have hmem : ∃ r ∈ expectedResults (suiteDef cdf) n setup, r.key = ⟨type, name⟩ ∧ r.stats = st := by
    unfold expectedResults
    refine ⟨⟨(createStream setup.mix s).name, setup.subject, n, ⟨type, name⟩, st⟩, ?_, rfl, rfl⟩
    refine List.mem_flatMap.2 ⟨type, htest, List.mem_flatMap.2 ⟨s, hs, List.mem_append_right _ ?_⟩⟩
    rw [hts, hty]
    unfold createStream at hval ⊢
    cases hm : setup.mix with
    | none =>
      rw [hm] at hval
      dsimp only at hval ⊢
      rw [hval, List.mem_filterMap]
      exact ⟨_, hst, rfl⟩
    | some m =>
      rw [hm] at hval
      dsimp only at hval ⊢
      rw [hval, List.mem_filterMap]
      exact ⟨_, hst, rfl⟩
  exact result_failing_c cdf type n setup hth b hb name st hmem hp

/-- A statistic of a stream test with p-value at most 1e-9 is in the battery, under every schedule. -/
theorem battery_failing (cdf : ℝ → ℝ → ℝ) (type : TestType) (n : BitVec 64) (setup : TestSetup w) (hth : 0 < setup.maxThreads)
    (b : Battery ℝ) (hb : EvaluateOutcome (suiteDef cdf) n setup b) (htest : type ∈ setup.tests) (s : Stream (BitVec w)) (hs : s ∈ setup.sources)
    (f : BitVec 64 → Stream (BitVec w) → TestRun) (hf : suiteStream cdf type = some f) (res : List (SubTest ℝ))
    (hres : f n (createStream setup.mix s) = some (.ok res)) (name : String) (st : Statistic ℝ) (hst : ⟨name, some st⟩ ∈ res)
    (hp : st.pValue ≤ 1 / 10 ^ 9) :
    (⟨type, name⟩ : TestKey) ∈ keys b ∧ ∃ r ∈ b.get ⟨type, name⟩, comparableP r.stats ≤ 1 / 10 ^ 9 :=
  battery_failing_c cdf type n setup hth b hb htest s hs f hf res hres name st hst ((comparableP_le st).trans hp)

/-- A statistic of a stream test with p-value at most 1e-9 makes the battery fail, under every schedule. -/
theorem battery_rejects (cdf : ℝ → ℝ → ℝ) (type : TestType) (n : BitVec 64) (setup : TestSetup w) (hth : 0 < setup.maxThreads)
    (b : Battery ℝ) (hb : EvaluateOutcome (suiteDef cdf) n setup b) (htest : type ∈ setup.tests) (s : Stream (BitVec w)) (hs : s ∈ setup.sources)
    (f : BitVec 64 → Stream (BitVec w) → TestRun) (hf : suiteStream cdf type = some f) (res : List (SubTest ℝ))
    (hres : f n (createStream setup.mix s) = some (.ok res)) (name : String) (st : Statistic ℝ) (hst : ⟨name, some st⟩ ∈ res)
    (hp : st.pValue ≤ 1 / 10 ^ 9) : ¬ BatteryPasses b := by
  obtain ⟨hkey, r, hr, hle⟩ := battery_failing cdf type n setup hth b hb htest s hs f hf res hres name st hst hp
  exact fun hpass => absurd ((hpass _ hkey).1 r hr) (not_lt.2 hle)

/-- C107. A generator that repeats one value, or whose most significant bit is stuck, fails every battery from `2^8` values on, under every
schedule; a truthful line of the report (C96) names the first power of two and says that it failed. -/
theorem C107_rejected (t : WT) (run : EvalRun t.bits) (h : PossibleRun (suiteDef chi2DistributionCdf) run)
    (hstart : 8 ≤ run.1.startPower) (hstop : run.1.stopPower ≤ 45) (htest : TestType.uniform ∈ run.1.tests) (s : Stream (BitVec t.bits))
    (hs : s ∈ run.1.sources) (b : Bool) (hb : ∀ i, ((createStream run.1.mix s).nth i).msb = b) :
    (∀ k : Nat, run.1.startPower ≤ k → k ≤ run.1.stopPower → ¬ BatteryPasses (run.2 (BitVec.ofNat 64 (2 ^ k)))) ∧
    ∀ row, Truthful (fun k => run.2 (BitVec.ofNat 64 (2 ^ k))) run.1.subject run.1.startPower.toNat run.1.stopPower.toNat row →
      row.power = run.1.startPower.toNat ∧ row.passed = false ∧ row.failures ≠ [] := by
  obtain ⟨hth, h0, h1, h2, hruns⟩ := id h
  have hfail : ∀ k : Nat, run.1.startPower ≤ k → k ≤ run.1.stopPower → ¬ BatteryPasses (run.2 (BitVec.ofNat 64 (2 ^ k))) := by
    intro k hk1 hk2
    have hk8 : 8 ≤ k := by omega
    have hk45 : k ≤ 45 := by omega
    have hnat : (BitVec.ofNat 64 (2 ^ k)).toNat = 2 ^ k := by
      rw [BitVec.toNat_ofNat, Nat.mod_eq_of_lt (Nat.pow_lt_pow_right (by norm_num) (by omega))]
    obtain ⟨st, hst, hp, -⟩ := C107_stuck_top_bit t (BitVec.ofNat 64 (2 ^ k))
      (by rw [hnat]; exact (show 2 ^ 8 ≤ 2 ^ k from Nat.pow_le_pow_right (by norm_num) hk8))
      (by rw [hnat]; exact Nat.pow_le_pow_right (by norm_num) hk45) (createStream run.1.mix s) b (fun i _ => hb i)
    exact battery_rejects chi2DistributionCdf .uniform _ run.1 hth _ (hruns k hk1 hk2).1 htest s hs _ rfl _
      (by show some (uniformTest chi2DistributionCdf (BitVec.ofNat 64 (2 ^ k)) (createStream run.1.mix s)) = _; rw [hst]) "" st
      List.mem_cons_self hp
  refine ⟨hfail, ?_⟩
  rintro row ⟨-, r1, r2, r3, r4, r5, r6, -⟩
  have hp : row.power = run.1.startPower.toNat := by
    by_contra hne
    exact hfail run.1.startPower.toNat (by omega) (by omega) (r3 _ le_rfl (by omega))
  have hfalse : row.passed = false := by
    rw [← Bool.not_eq_true]
    intro hc
    exact hfail row.power (by omega) (by omega) (r4.1 hc)
  refine ⟨hp, hfalse, fun hc => ?_⟩
  rw [r6.2 hc] at hfalse; cases hfalse

theorem constantStream_nth (c : BitVec w) (k : Nat) : (constantStream c).nth k = c := by
  rw [Stream.nth_eq]; rfl

/-- C107, non-vacuity: the mean of zeros is off by a half. -/
example : (1.91 : ℝ) / Real.sqrt ((1000 : ℕ) : ℝ) ≤ |(∑ i ∈ range 1000, (((constantStream 0#8).nth i).toNat : ℝ) / (2 ^ 8 - 1)) / ((1000 : ℕ) : ℝ) - 1 / 2| := by
  have h : ∑ i ∈ range 1000, (((constantStream 0#8).nth i).toNat : ℝ) / (2 ^ 8 - 1) = 0 :=
    sum_eq_zero fun i _ => by rw [constantStream_nth]; simp
  rw [h, zero_div, zero_sub, abs_neg, abs_of_pos (by norm_num), div_le_iff₀ (by positivity)]
  have : (4 : ℝ) ≤ Real.sqrt ((1000 : ℕ) : ℝ) := Real.le_sqrt_of_sq_le (by norm_num)
  norm_num at *
  linarith

/-- C107, non-vacuity: a possible run with a constant source, of which a truthful line exists. -/
example : ∃ run : EvalRun WT.u16.bits, PossibleRun (suiteDef chi2DistributionCdf) run ∧ run.1.startPower = 10 ∧ run.1.stopPower = 25 ∧
    TestType.uniform ∈ run.1.tests ∧ ∃ s ∈ run.1.sources, ∀ i, ((createStream run.1.mix s).nth i).msb = false := by
  classical
  let setup : TestSetup WT.u16.bits := ⟨"zero", [constantStream (0#16)], [.uniform], none, 3, 10, 25⟩
  refine ⟨(setup, fun n => (C35_terminates (suiteDef chi2DistributionCdf) n setup).choose), ⟨by decide, by decide, by decide, by decide, ?_⟩,
    rfl, rfl, List.mem_cons_self, constantStream (0#16), List.mem_cons_self, ?_⟩
  · intro k hk1 hk2
    have hk1 : 10 ≤ k := by exact_mod_cast (show (10 : ℤ) ≤ k from hk1)
    have hk2 : k ≤ 25 := by exact_mod_cast (show (k : ℤ) ≤ 25 from hk2)
    refine ⟨(C35_terminates (suiteDef chi2DistributionCdf) _ setup).choose_spec, ?_⟩
    intro r hr
    have hnat : (BitVec.ofNat 64 (2 ^ k)).toNat = 2 ^ k := by
      rw [BitVec.toNat_ofNat, Nat.mod_eq_of_lt (Nat.pow_lt_pow_right (by norm_num) (by omega))]
    obtain ⟨st, hst, hp, -⟩ := C107_constant .u16 (BitVec.ofNat 64 (2 ^ k))
      (by rw [hnat]; exact (show 86 ≤ 2 ^ 10 by norm_num).trans (Nat.pow_le_pow_right (by norm_num) hk1)) (constantStream (0#16)) 0#16
      (fun i _ => constantStream_nth _ _)
    have he : expectedResults (suiteDef chi2DistributionCdf) (BitVec.ofNat 64 (2 ^ k)) setup =
        (TestRun.value (some (uniformTest chi2DistributionCdf (BitVec.ofNat 64 (2 ^ k)) (constantStream (0#16))))).filterMap fun sub =>
          sub.stats.map fun stat => ⟨(constantStream (0#16)).name, "zero", BitVec.ofNat 64 (2 ^ k), ⟨.uniform, sub.name⟩, stat⟩ := by
      unfold expectedResults
      simp only [setup, List.flatMap_cons, List.flatMap_nil, List.append_nil]
      rfl
    rw [he, hst] at hr
    have hr : r ∈ [(⟨(constantStream (0#16)).name, "zero", BitVec.ofNat 64 (2 ^ k), ⟨.uniform, ""⟩, st⟩ : TestResult ℝ)] := hr
    rw [List.mem_singleton.1 hr]
    refine (comparableP_le st).trans (hp.trans (by norm_num))
  · intro i
    show ((constantStream (0#16)).nth i).msb = false
    rw [constantStream_nth]; decide

end TFR
