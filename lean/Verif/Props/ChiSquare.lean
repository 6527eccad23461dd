import Verif.Model.RealStats
import Verif.Props.Bins
import Mathlib.Algebra.BigOperators.Field
import Mathlib.Algebra.Order.BigOperators.Ring.Finset
/-
C58, C59: the chi-square and G statistics (exact arithmetic).
-/
namespace TFR
open Finset

private theorem hbind {α β : Type} (x : α) (f : α → R β) : ((Except.ok x : R α) >>= f) = f x := rfl

theorem isNearR_iff (a b eps : ℝ) : isNearR a b eps = true ↔ |a - b| ≤ eps := by unfold isNearR; simp

/-- `is_near(df, 0)` on a count minus one, clamped at zero: at most one. -/
theorem near_df (k : ℕ) : isNearR (max ((k : ℝ) - 1) 0) 0 = true ↔ k ≤ 1 := by
  rw [isNearR_iff, sub_zero, abs_of_nonneg (le_max_right _ _)]
  constructor
  · intro h
    by_contra hk
    have h2 : (2 : ℝ) ≤ k := by
      have : 2 ≤ k := by omega
      exact_mod_cast this
    have := (le_max_left ((k : ℝ) - 1) 0).trans h
    norm_num at this
    linarith
  · intro h
    have h2 : (k : ℝ) ≤ 1 := by exact_mod_cast h
    rw [max_eq_right (by linarith)]
    norm_num

/-- The number of bins used and the sum over them. -/
private theorem chi2_fold (n : Nat) (o e : Nat → ℝ) (thr : ℝ) :
    (List.range n).foldl (fun (st : ℝ × ℝ) i =>
      let ei := e i
      if ei ≤ thr then st
      else
        let diff := o i - ei
        (st.1 + diff * diff / ei, st.2 + 1)) (0, 0) =
      (∑ i ∈ (range n).filter (fun i => thr < e i), (o i - e i) ^ 2 / e i, (((range n).filter (fun i => thr < e i)).card : ℝ)) := by
  induction n with
  | zero => simp
  | succ n ih =>
    rw [List.range_succ, List.foldl_append, ih, range_add_one, filter_insert]
    simp only [List.foldl_cons, List.foldl_nil]
    by_cases h : e n ≤ thr
    · rw [if_pos h, if_neg (not_lt.2 h)]
    · rw [if_neg h, if_pos (not_le.1 h), sum_insert (by simp), card_insert_of_notMem (by simp)]
      push_cast
      rw [Prod.mk.injEq]
      constructor <;> ring

/-- C58. `chi2_stats` uses exactly the bins whose expected count is above the threshold.  It returns a result exactly if there are
at least two of them; the degrees of freedom are their number minus one, the value is `Σ (o-e)²/e` over them, the p-value is
the distribution function at that value; for a non-negative threshold the value is non-negative, and zero exactly if every
used bin's observed count is the expected one. -/
theorem C58_chi2 (cdf : ℝ → ℝ → ℝ) (n : Nat) (o e : Nat → ℝ) (thr : ℝ) (used : Finset ℕ)
    (hused : ∀ i, i ∈ used ↔ i < n ∧ thr < e i) :
    (chi2Stats cdf n o e thr = none ↔ used.card ≤ 1) ∧
    ∀ s, chi2Stats cdf n o e thr = some s →
      s.type = .chi2 ∧ s.df = (used.card : ℝ) - 1 ∧ s.value = ∑ i ∈ used, (o i - e i) ^ 2 / e i ∧ s.pValue = cdf s.value s.df ∧
      (0 ≤ thr → 0 ≤ s.value ∧ (s.value = 0 ↔ ∀ i ∈ used, o i = e i)) := by
  have hu : used = (range n).filter (fun i => thr < e i) := by
    ext i; rw [hused, mem_filter, mem_range]
  unfold chi2Stats
  dsimp only
  rw [chi2_fold, ← hu]
  dsimp only
  by_cases h : used.card ≤ 1
  · rw [if_pos ((near_df _).2 h)]
    exact ⟨⟨fun _ => h, fun _ => rfl⟩, fun s hs => by simp at hs⟩
  · rw [if_neg (fun h' => h ((near_df _).1 h'))]
    refine ⟨⟨fun h' => by simp at h', fun h' => absurd h' h⟩, ?_⟩
    intro s hs
    obtain rfl := Option.some.inj hs
    have hc : (1 : ℝ) ≤ (used.card : ℝ) := by
      have : 1 ≤ used.card := by omega
      exact_mod_cast this
    refine ⟨rfl, max_eq_left (by linarith), rfl, rfl, ?_⟩
    intro hthr
    have hpos : ∀ i ∈ used, 0 < e i := fun i hi => lt_of_le_of_lt hthr ((hused i).1 hi).2
    have hterm : ∀ i ∈ used, 0 ≤ (o i - e i) ^ 2 / e i := fun i hi => div_nonneg (sq_nonneg _) (hpos i hi).le
    refine ⟨sum_nonneg hterm, ?_⟩
    rw [sum_eq_zero_iff_of_nonneg hterm]
    constructor
    · intro h0 i hi
      have := h0 i hi
      rw [div_eq_zero_iff] at this
      rcases this with h1 | h1
      · have := pow_eq_zero_iff (n := 2) (by norm_num) |>.1 h1
        linarith
      · exact absurd h1 (hpos i hi).ne'
    · intro h0 i hi
      rw [h0 i hi]; simp

/-- C58, non-vacuity: counts 3, 7, 5 against expectation 5 with threshold 1: value 8/5, two degrees of freedom. -/
example (cdf : ℝ → ℝ → ℝ) : ∃ s, chi2Stats cdf 3 (toData [3#64, 7#64, 5#64]) (fun _ => 5) 1 = some s ∧ s.value = 8 / 5 ∧ s.df = 2 := by
  obtain ⟨h1, h2⟩ := C58_chi2 cdf 3 (toData [3#64, 7#64, 5#64]) (fun _ => 5) 1 (range 3) (by intro i; simp)
  cases hc : chi2Stats cdf 3 (toData [3#64, 7#64, 5#64]) (fun _ => 5) 1 with
  | none => exact absurd (h1.1 hc) (by simp)
  | some s =>
    obtain ⟨-, hdf, hv, -⟩ := h2 s hc
    refine ⟨s, rfl, ?_, ?_⟩
    · rw [hv]
      simp [sum_range_succ, toData]
      norm_num
    · rw [hdf]; simp; norm_num

/-- C58. The uniformity test of any non-empty sample of 8-, 16-, 32- or 64-bit words does not fault.  All `2^k` bins have the same
expected count `n / 2^k`, so the statistic has `2^k - 1` degrees of freedom and the value `Σ (c_j - n/2^k)² / (n/2^k)` where
`c_j` is the number of values in bin `j`. -/
theorem C58_uniform (cdf : ℝ → ℝ → ℝ) (t : WT) (data : List (BitVec t.bits)) (h0 : data ≠ []) (hlen : data.length < 2 ^ 64) :
    ∃ k s, 1 ≤ k ∧ binCountPow2 t.bits data.length = .ok (2 ^ k) ∧ uniformStats cdf data = .ok (some s) ∧ s.df = 2 ^ k - 1 ∧
      s.value = ∑ j ∈ range (2 ^ k), (((data.countP fun x => Spec.bin (2 ^ k) x = j : ℕ) : ℝ) - data.length / 2 ^ k) ^ 2 /
        (data.length / 2 ^ k) := by
  have hpos : 0 < data.length := List.length_pos_of_ne_nil h0
  obtain ⟨k, hk, hkt, hk1, -, -⟩ := C57_bin_count t data.length hpos hlen
  have hk63 : (2 : ℕ) ^ k ≤ 2 ^ 63 := by
    -- the number of bins is below 2^28
    obtain ⟨k', hk', -, -, hlt, -⟩ := C57_bin_count t data.length hpos hlen
    have : 2 ^ k = 2 ^ k' := by
      have := hk.symm.trans hk'
      injection this
    rw [this]
    have hn : (data.length : ℝ) ^ (4 / 10 : ℝ) ≤ 2 ^ 26 := by
      have h1 : (data.length : ℝ) ≤ 2 ^ (65 : ℝ) := by
        have : (data.length : ℝ) ≤ 2 ^ 65 := by
          have h' : data.length ≤ 2 ^ 65 := by omega
          exact_mod_cast h'
        exact_mod_cast this
      have h2 : (data.length : ℝ) ^ (4 / 10 : ℝ) ≤ ((2 : ℝ) ^ (65 : ℝ)) ^ (4 / 10 : ℝ) :=
        Real.rpow_le_rpow (by positivity) h1 (by norm_num)
      rw [← Real.rpow_mul (by norm_num)] at h2
      have h3 : ((2 : ℝ) ^ ((65 : ℝ) * (4 / 10))) = 2 ^ 26 := by
        rw [← Real.rpow_natCast]; norm_num
      rwa [h3] at h2
    have : (2 : ℝ) ^ k' ≤ 2 ^ 63 := by
      have : (2 : ℝ) ^ k' < 2 * (2 * 2 ^ 26 + 1) := by linarith
      norm_num at this ⊢
      linarith
    exact_mod_cast this
  obtain ⟨counts, hc, hcl, -, hck, -⟩ := C57_bins (2 ^ k) (by positivity) hk63 data
  have hE : (0 : ℝ) < (data.length : ℝ) / ((2 ^ k : ℕ) : ℝ) := by
    have : (0 : ℝ) < data.length := by exact_mod_cast hpos
    positivity
  have hval : uniformStats cdf data = .ok (chi2Stats cdf counts.length (toData counts)
      (fun _ => (data.length : ℝ) / (counts.length : ℝ)) 0) := by
    unfold uniformStats
    rw [hk, hbind, hc, hbind]
  rw [hval, hcl]
  obtain ⟨h1, h2⟩ := C58_chi2 cdf (2 ^ k) (toData counts) (fun _ => (data.length : ℝ) / ((2 ^ k : ℕ) : ℝ)) 0 (range (2 ^ k))
    (by intro i; simp only [mem_range]; exact ⟨fun h => ⟨h, hE⟩, fun h => h.1⟩)
  have h2k : 2 ≤ 2 ^ k := by
    calc 2 = 2 ^ 1 := rfl
      _ ≤ _ := Nat.pow_le_pow_right (by norm_num) hk1
  cases hs : chi2Stats cdf (2 ^ k) (toData counts) (fun _ => (data.length : ℝ) / ((2 ^ k : ℕ) : ℝ)) 0 with
  | none =>
    have := h1.1 hs
    rw [card_range] at this
    omega
  | some s =>
    obtain ⟨-, hdf, hv, -⟩ := h2 s hs
    refine ⟨k, s, hk1, hk, rfl, ?_, ?_⟩
    · rw [hdf, card_range]; push_cast; ring
    · rw [hv]
      apply sum_congr rfl
      intro j hj
      rw [mem_range] at hj
      have hg : toData counts j = ((data.countP fun x => Spec.bin (2 ^ k) x = j : ℕ) : ℝ) := by
        unfold toData
        rw [List.getD_eq_getElem?_getD, hck j hj, Option.getD_some, BitVec.toNat_ofNat, Nat.mod_eq_of_lt]
        exact lt_of_le_of_lt List.countP_le_length hlen
      rw [hg]
      push_cast
      ring

/-! ### C59 -/

private theorem g_fold (n : Nat) (o e : Nat → ℝ) (thr : ℝ) :
    (List.range n).foldl (fun (st : ℝ × ℝ × ℝ × ℝ) i =>
      let ei := e i
      if ei < thr then st
      else
        let oi := o i
        if oi ≤ 1 / 10 ^ 17 then st
        else (st.1 + oi * Real.log (oi / ei), st.2.1 + oi, st.2.2.1 + ei, st.2.2.2 + 1)) (0, 0, 0, 0) =
      (∑ i ∈ (range n).filter (fun i => thr ≤ e i ∧ 1 / 10 ^ 17 < o i), o i * Real.log (o i / e i),
       ∑ i ∈ (range n).filter (fun i => thr ≤ e i ∧ 1 / 10 ^ 17 < o i), o i,
       ∑ i ∈ (range n).filter (fun i => thr ≤ e i ∧ 1 / 10 ^ 17 < o i), e i,
       (((range n).filter (fun i => thr ≤ e i ∧ 1 / 10 ^ 17 < o i)).card : ℝ)) := by
  induction n with
  | zero => simp
  | succ n ih =>
    rw [List.range_succ, List.foldl_append, ih, range_add_one, filter_insert]
    simp only [List.foldl_cons, List.foldl_nil]
    by_cases h : e n < thr
    · rw [if_pos h, if_neg (fun h' => absurd h (not_lt.2 h'.1))]
    · by_cases h2 : o n ≤ 1 / 10 ^ 17
      · rw [if_neg h, if_pos h2, if_neg (fun h' => absurd h2 (not_le.2 h'.2))]
      · rw [if_neg h, if_neg h2, if_pos ⟨not_lt.1 h, not_le.1 h2⟩, sum_insert (by simp), sum_insert (by simp),
          sum_insert (by simp), card_insert_of_notMem (by simp)]
        push_cast
        simp only [Prod.mk.injEq]
        exact ⟨add_comm _ _, add_comm _ _, add_comm _ _, trivial⟩

/-- The log-sum inequality, with its equality case. -/
private theorem log_sum {ι : Type} (s : Finset ι) (hs : s.Nonempty) (o e : ι → ℝ) (ho : ∀ i ∈ s, 0 < o i) (he : ∀ i ∈ s, 0 < e i) :
    0 ≤ ∑ i ∈ s, o i * Real.log (o i / e i) - (∑ i ∈ s, o i) * Real.log ((∑ i ∈ s, o i) / (∑ i ∈ s, e i)) ∧
    (∑ i ∈ s, o i * Real.log (o i / e i) - (∑ i ∈ s, o i) * Real.log ((∑ i ∈ s, o i) / (∑ i ∈ s, e i)) = 0 ↔
      ∀ i ∈ s, o i * (∑ i ∈ s, e i) = (∑ i ∈ s, o i) * e i) := by
  set O := ∑ i ∈ s, o i with hO
  set E := ∑ i ∈ s, e i with hE
  have hOp : 0 < O := sum_pos ho hs
  have hEp : 0 < E := sum_pos he hs
  -- each summand of the difference is at least the linear bound
  have hterm : ∀ i ∈ s, o i * Real.log (o i / e i) - o i * Real.log (O / E) = -(o i * Real.log (O * e i / (E * o i))) := by
    intro i hi
    have h1 := ho i hi
    have h2 := he i hi
    rw [Real.log_div h1.ne' h2.ne', Real.log_div hOp.ne' hEp.ne', Real.log_div (by positivity) (by positivity),
      Real.log_mul hOp.ne' h2.ne', Real.log_mul hEp.ne' h1.ne']
    ring
  have hlin : ∀ i ∈ s, o i - O * e i / E ≤ -(o i * Real.log (O * e i / (E * o i))) := by
    intro i hi
    have h1 := ho i hi
    have h2 := he i hi
    have hx : 0 < O * e i / (E * o i) := by positivity
    have h3 := Real.log_le_sub_one_of_pos hx
    have h4 := mul_le_mul_of_nonneg_left h3 h1.le
    have h5 : o i * (O * e i / (E * o i) - 1) = O * e i / E - o i := by field_simp
    rw [h5] at h4
    linarith
  have hsumlin : ∑ i ∈ s, (o i - O * e i / E) = 0 := by
    rw [sum_sub_distrib, ← sum_div, ← mul_sum, ← hO, ← hE]
    field_simp
    ring
  have hdiff : ∑ i ∈ s, o i * Real.log (o i / e i) - O * Real.log (O / E) =
      ∑ i ∈ s, (-(o i * Real.log (O * e i / (E * o i)))) := by
    rw [hO, sum_mul, ← sum_sub_distrib]
    exact sum_congr rfl hterm
  constructor
  · rw [hdiff, ← hsumlin]
    exact sum_le_sum hlin
  · rw [hdiff]
    constructor
    · intro h i hi
      by_contra hne
      have hlt : ∑ i ∈ s, (o i - O * e i / E) < ∑ i ∈ s, (-(o i * Real.log (O * e i / (E * o i)))) := by
        apply sum_lt_sum hlin
        refine ⟨i, hi, ?_⟩
        have h1 := ho i hi
        have h2 := he i hi
        have hx : 0 < O * e i / (E * o i) := by positivity
        have hx1 : O * e i / (E * o i) ≠ 1 := by
          intro hx1
          rw [div_eq_one_iff_eq (by positivity)] at hx1
          apply hne
          rw [hx1]; ring
        have h3 := Real.log_lt_sub_one_of_pos hx hx1
        have h4 := mul_lt_mul_of_pos_left h3 h1
        have h5 : o i * (O * e i / (E * o i) - 1) = O * e i / E - o i := by field_simp
        rw [h5] at h4
        linarith
      rw [hsumlin, h] at hlt
      exact lt_irrefl _ hlt
    · intro h
      apply sum_eq_zero
      intro i hi
      have h1 := ho i hi
      have : O * e i / (E * o i) = 1 := by
        rw [div_eq_one_iff_eq (by positivity), ← h i hi]; ring
      rw [this]; simp

/-- C59. `g_test_stats` (threshold above zero) uses the bins whose expected count is at least the threshold and whose observed
count exceeds 1e-17.  It returns a result exactly if there are at least two; the degrees of freedom are their number minus one;
the value is `2 (Σ o ln(o/e) - O ln(O/E))` with `O`, `E` the totals over the used bins.  It is non-negative, and zero exactly if
observed and expected counts of the used bins are proportional; for equal totals, exactly if they are equal. -/
theorem C59_g_test (cdf : ℝ → ℝ → ℝ) (n : Nat) (o e : Nat → ℝ) (thr : ℝ) (hthr : 0 < thr) (used : Finset ℕ)
    (hused : ∀ i, i ∈ used ↔ i < n ∧ thr ≤ e i ∧ 1 / 10 ^ 17 < o i) :
    (gTestStats cdf n o e thr = none ↔ used.card ≤ 1) ∧
    ∀ s, gTestStats cdf n o e thr = some s →
      s.type = .chi2 ∧ s.df = (used.card : ℝ) - 1 ∧ s.pValue = cdf s.value s.df ∧
      s.value = 2 * (∑ i ∈ used, o i * Real.log (o i / e i) - (∑ i ∈ used, o i) * Real.log ((∑ i ∈ used, o i) / ∑ i ∈ used, e i)) ∧
      0 ≤ s.value ∧ (s.value = 0 ↔ ∀ i ∈ used, o i * (∑ i ∈ used, e i) = (∑ i ∈ used, o i) * e i) ∧
      (∑ i ∈ used, o i = ∑ i ∈ used, e i → (s.value = 0 ↔ ∀ i ∈ used, o i = e i)) := by
  have hu : used = (range n).filter (fun i => thr ≤ e i ∧ 1 / 10 ^ 17 < o i) := by
    ext i; rw [hused, mem_filter, mem_range]
  unfold gTestStats
  dsimp only
  rw [g_fold, ← hu]
  dsimp only
  by_cases h : used.card ≤ 1
  · rw [if_pos ((near_df _).2 h)]
    exact ⟨⟨fun _ => h, fun _ => rfl⟩, fun s hs => by simp at hs⟩
  · rw [if_neg (fun h' => h ((near_df _).1 h'))]
    refine ⟨⟨fun h' => by simp at h', fun h' => absurd h' h⟩, ?_⟩
    intro s hs
    obtain rfl := Option.some.inj hs
    have hc : (1 : ℝ) ≤ (used.card : ℝ) := by
      have : 1 ≤ used.card := by omega
      exact_mod_cast this
    have hne : used.Nonempty := card_pos.1 (by omega)
    have ho : ∀ i ∈ used, 0 < o i := fun i hi => lt_trans (by norm_num) ((hused i).1 hi).2.2
    have he : ∀ i ∈ used, 0 < e i := fun i hi => lt_of_lt_of_le hthr ((hused i).1 hi).2.1
    obtain ⟨h1, h2⟩ := log_sum used hne o e ho he
    have hz : ((∑ i ∈ used, o i * Real.log (o i / e i) - (∑ i ∈ used, o i) * Real.log ((∑ i ∈ used, o i) / ∑ i ∈ used, e i)) * 2 = 0 ↔
        ∀ i ∈ used, o i * (∑ i ∈ used, e i) = (∑ i ∈ used, o i) * e i) := by
      rw [← h2]
      constructor
      · intro h; linarith
      · intro h; rw [h]; ring
    refine ⟨rfl, max_eq_left (by linarith), rfl, by ring, by linarith, hz, ?_⟩
    intro htot
    rw [hz, htot]
    have hE : ∑ i ∈ used, e i ≠ 0 := (sum_pos he hne).ne'
    constructor
    · intro h i hi
      have := h i hi
      rw [mul_comm] at this
      exact mul_left_cancel₀ hE this
    · intro h i hi
      rw [h i hi]; ring

/-- C59, non-vacuity: counts 3, 0, 5 against expectation 4: the empty bin is left out, one degree of freedom, positive value. -/
example (cdf : ℝ → ℝ → ℝ) : ∃ s, gTestStats cdf 3 (toData [3#64, 0#64, 5#64]) (fun _ => 4) 1 = some s ∧ s.df = 1 ∧ 0 < s.value := by
  obtain ⟨h1, h2⟩ := C59_g_test cdf 3 (toData [3#64, 0#64, 5#64]) (fun _ => 4) 1 (by norm_num) {0, 2} (by
    intro i
    by_cases hi : i < 3
    · interval_cases i <;> simp [toData] <;> norm_num
    · simp only [mem_insert, mem_singleton]
      constructor
      · rintro (rfl | rfl) <;> omega
      · intro h; exact absurd h.1 hi)
  cases hc : gTestStats cdf 3 (toData [3#64, 0#64, 5#64]) (fun _ => 4) 1 with
  | none => exact absurd (h1.1 hc) (by simp)
  | some s =>
    obtain ⟨-, hdf, -, -, h0, hz, -⟩ := h2 s hc
    refine ⟨s, rfl, ?_, ?_⟩
    · rw [hdf]; simp; norm_num
    · rcases h0.lt_or_eq with h | h
      · exact h
      · have := hz.1 h.symm 0 (by simp)
        simp [toData] at this
        norm_num at this

end TFR
