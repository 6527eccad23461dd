import Verif.Model.TestSuite
import Verif.Lemmas.Pearson
import Verif.Props.RunsPerm
import Mathlib.Analysis.Complex.ExponentialBounds
import Mathlib.Tactic.Linarith
import Mathlib.Tactic.FieldSimp
/-
C85: the permutation test as a whole.
-/
namespace TFR
open Spec

private theorem hbind {α β : Type} (x : α) (f : α → R β) : (Except.ok x >>= f) = f x := rfl

/-- The approximation of Lambert's function for `x ≥ e^5`, with its error: between `x e^-0.23` and `x e^0.082`. -/
private theorem lambert_bounds (l1 : ℝ) (h : 5 ≤ l1) :
    let l2 := Real.log l1
    let v := l1 - l2 + l2 / l1 + l2 * (l2 - 2) / (2 * l1 * l1)
    3 ≤ v ∧ v ≤ l1 ∧ v + Real.log v ≤ l1 + 0.082 ∧ l1 - 0.23 ≤ v + Real.log v := by
  intro l2 v
  have hl1 : 0 < l1 := by linarith
  -- `l2 ≤ l1 / e`
  set t := l2 / l1 with ht
  have ht1 : l2 = t * l1 := by rw [ht]; field_simp
  have ht0 : 0 ≤ t := by rw [ht]; exact div_nonneg (Real.log_nonneg (by linarith)) hl1.le
  have hte : t ≤ 0.368 := by
    have h1 : Real.log (l1 / Real.exp 1) ≤ l1 / Real.exp 1 - 1 := Real.log_le_sub_one_of_pos (by positivity)
    rw [Real.log_div hl1.ne' (Real.exp_pos 1).ne', Real.log_exp] at h1
    have h2 : l2 ≤ l1 / Real.exp 1 := by show Real.log l1 ≤ _; linarith
    have h3 : (2.7182818283 : ℝ) < Real.exp 1 := Real.exp_one_gt_d9
    rw [ht, div_le_iff₀ hl1]
    refine h2.trans ?_
    rw [div_le_iff₀ (Real.exp_pos 1)]
    nlinarith
  have hv : v = l1 - t * l1 + t + t * (t * l1 - 2) / (2 * l1) := by
    show l1 - l2 + l2 / l1 + l2 * (l2 - 2) / (2 * l1 * l1) = _
    rw [ht1]; field_simp
  have hv2 : v = l1 * (1 - t) + t + t ^ 2 / 2 - t / l1 := by
    rw [hv]; field_simp; ring
  have hq : t / l1 ≤ t / 5 := div_le_div_of_nonneg_left ht0 (by norm_num) h
  have hq0 : 0 ≤ t / l1 := div_nonneg ht0 hl1.le
  have hvlo : l1 * (1 - t) ≤ v := by rw [hv2]; nlinarith [sq_nonneg t]
  have hvhi : v ≤ l1 := by rw [hv2]; nlinarith [sq_nonneg t]
  have hv3 : 3 ≤ v := by nlinarith
  have hv0 : 0 < v := by linarith
  have hlog : Real.log v = l2 + Real.log (v / l1) := by
    rw [Real.log_div hv0.ne' hl1.ne']; show _ = Real.log l1 + _; ring
  refine ⟨hv3, hvhi, ?_, ?_⟩
  · have h1 : Real.log (v / l1) ≤ v / l1 - 1 := Real.log_le_sub_one_of_pos (by positivity)
    have h2 : v / l1 = (1 - t) + t / l1 + t ^ 2 / (2 * l1) - t / l1 ^ 2 := by rw [hv2]; field_simp
    have h3 : t ^ 2 / (2 * l1) ≤ t ^ 2 / 10 := div_le_div_of_nonneg_left (sq_nonneg t) (by norm_num) (by linarith)
    have h4 : 0 ≤ t / l1 ^ 2 := by positivity
    have h5 : t ^ 2 ≤ 0.1355 := by nlinarith
    rw [hlog, ht1]
    nlinarith
  · have h1 : 1 - (v / l1)⁻¹ ≤ Real.log (v / l1) := Real.one_sub_inv_le_log_of_pos (by positivity)
    have h2 : (v / l1)⁻¹ ≤ 1 / (1 - t) := by
      rw [inv_div, div_le_div_iff₀ hv0 (by linarith)]; linarith
    have h3 : 1 / (1 - t) ≤ 1 + t + 1.5824 * t ^ 2 := by
      rw [div_le_iff₀ (by linarith)]
      nlinarith [mul_nonneg (sq_nonneg t) (show (0 : ℝ) ≤ 0.368 - t by linarith)]
    have h4 : t ^ 2 ≤ 0.1355 := by nlinarith
    rw [hlog]
    have h5 : v + l2 = l1 + t + t ^ 2 / 2 - t / l1 := by rw [hv2, ht1]; ring
    linarith

/-- C85. For 8192 to `2^64 - 1` bits the window size is some `k` between 4 and 59; a window value is expected between 29 and 104
times (which is far from the 255 at which the counters stop). -/
theorem C85_size (n : BitVec 64) (h0 : 2 ^ 13 ≤ n.toNat * w) (h1 : n.toNat * w < 2 ^ 64) :
    ∃ k, getPermutationSize w n = .ok (BitVec.ofNat 64 k) ∧ 4 ≤ k ∧ k ≤ 59 ∧
      29 * (k * 2 ^ k) ≤ n.toNat * w ∧ n.toNat * w ≤ 104 * (k * 2 ^ k) := by
  have htot : (n * BitVec.ofNat 64 w).toNat = n.toNat * w := by
    have hn0 : 0 < n.toNat := by
      rcases Nat.eq_zero_or_pos n.toNat with h | h
      · rw [h, Nat.zero_mul] at h0; norm_num at h0
      · exact h
    have hw : w < 2 ^ 64 := lt_of_le_of_lt (Nat.le_mul_of_pos_left w hn0) h1
    rw [BitVec.toNat_mul, BitVec.toNat_ofNat, Nat.mod_eq_of_lt hw, Nat.mod_eq_of_lt h1]
  set N := n.toNat * w with hN
  have hNr : (8192 : ℝ) ≤ (N : ℝ) := by exact_mod_cast h0
  have hNr2 : (N : ℝ) < 2 ^ 64 := by exact_mod_cast h1
  have hlog2 := Real.log_two_gt_d9
  have hlog2' := Real.log_two_lt_d9
  have hL : 0 < Real.log 2 := by linarith
  set x : ℝ := (N : ℝ) / 32 * Real.log 2 with hx
  have hxge : 177 ≤ x := by rw [hx]; nlinarith
  have hx0 : 0 < x := by linarith
  have hl1 : 5 ≤ Real.log x := by
    rw [Real.le_log_iff_exp_le hx0]
    have h5 : Real.exp 5 = Real.exp 1 ^ 5 := by rw [← Real.exp_nat_mul]; norm_num
    rw [h5]
    have h6 := Real.exp_one_lt_d9
    have h7 : Real.exp 1 ^ 5 ≤ 2.7182818286 ^ 5 := pow_le_pow_left₀ (Real.exp_pos 1).le h6.le 5
    refine h7.trans (le_trans ?_ hxge)
    norm_num
  obtain ⟨hv3, hvl, hup, hlo⟩ := lambert_bounds (Real.log x) hl1
  set v := Real.log x - Real.log (Real.log x) + Real.log (Real.log x) / Real.log x +
    Real.log (Real.log x) * (Real.log (Real.log x) - 2) / (2 * Real.log x * Real.log x) with hv
  have hv0 : 0 < v := by linarith
  have hlx : Real.log x < 59 * Real.log 2 := by
    rw [← Real.log_rpow (by norm_num), Real.log_lt_log_iff hx0 (by positivity)]
    rw [hx, show ((59 : ℝ)) = ((59 : ℕ) : ℝ) by norm_num, Real.rpow_natCast]
    have : (N : ℝ) / 32 < 2 ^ 59 := by rw [div_lt_iff₀ (by norm_num)]; norm_num; norm_num at hNr2; linarith
    nlinarith
  have hq0 : 0 ≤ v / Real.log 2 := div_nonneg hv0.le hL.le
  have hq59 : v / Real.log 2 < 59 := by rw [div_lt_iff₀ hL]; linarith
  -- the two sides of `v e^v`
  have hexp : ∀ y : ℝ, Real.exp (y + Real.log y) = Real.exp y * Real.exp (Real.log y) := fun y => Real.exp_add _ _
  clear_value v
  have hup' : v * Real.exp v ≤ x * Real.exp 0.082 := by
    have := Real.exp_le_exp.2 hup
    rw [hexp, Real.exp_log hv0, Real.exp_add, Real.exp_log hx0] at this
    linarith
  have hlo' : x * Real.exp (-0.23) ≤ v * Real.exp v := by
    have := Real.exp_le_exp.2 hlo
    rw [hexp, Real.exp_log hv0, sub_eq_add_neg, Real.exp_add, Real.exp_log hx0] at this
    linarith
  set k := ⌊v / Real.log 2⌋₊ with hk
  have hkle : (k : ℝ) * Real.log 2 ≤ v := by
    have := Nat.floor_le hq0
    rwa [← hk, le_div_iff₀ hL] at this
  have hklt : v < ((k : ℝ) + 1) * Real.log 2 := by
    have := Nat.lt_floor_add_one (v / Real.log 2)
    rwa [← hk, div_lt_iff₀ hL] at this
  have hk4 : 4 ≤ k := by
    rw [hk]; apply Nat.le_floor
    rw [le_div_iff₀ hL]; push_cast; linarith
  have hk59 : k ≤ 59 := by
    have : (k : ℝ) < 59 + 1 := by
      have := Nat.floor_le hq0
      rw [← hk] at this; linarith
    exact_mod_cast Nat.lt_succ_iff.1 (by exact_mod_cast this)
  have hk4r : (4 : ℝ) ≤ k := by exact_mod_cast hk4
  have hpow : ∀ m : ℕ, Real.exp ((m : ℝ) * Real.log 2) = 2 ^ m := fun m => by
    rw [Real.exp_nat_mul, Real.exp_log (by norm_num)]
  refine ⟨k, ?_, hk4, hk59, ?_, ?_⟩
  · unfold getPermutationSize lambertWApproximation
    dsimp only
    rw [htot, ← hx, if_neg, if_neg (by linarith)]
    · dsimp only
      rw [← hv]
      unfold realToU64
      rw [if_pos ⟨hq0, by linarith⟩]
    · rw [isNearR, decide_eq_true_eq, abs_le]
      intro h
      have : (1 : ℝ) / 10 ^ 6 ≤ 1 := by norm_num
      linarith [h.2]
  · have h2 : (k : ℝ) * Real.log 2 * 2 ^ k ≤ x * Real.exp 0.082 := by
      rw [← hpow k]
      exact (mul_le_mul hkle (Real.exp_le_exp.2 hkle) (Real.exp_pos _).le hv0.le).trans hup'
    have he : Real.exp 0.082 ≤ 1 / (1 - 0.082) := by
      have := Real.one_sub_le_exp_neg (0.082 : ℝ)
      rw [Real.exp_neg] at this
      rw [le_div_iff₀ (by norm_num)]
      have h3 := Real.exp_pos (0.082 : ℝ)
      calc Real.exp 0.082 * (1 - 0.082) ≤ Real.exp 0.082 * (Real.exp 0.082)⁻¹ := by gcongr
        _ = 1 := mul_inv_cancel₀ h3.ne'
    have h3 : (k : ℝ) * 2 ^ k ≤ (N : ℝ) / 32 * (1 / (1 - 0.082)) := by
      have h4 : (k : ℝ) * 2 ^ k * Real.log 2 ≤ (N : ℝ) / 32 * (1 / (1 - 0.082)) * Real.log 2 := by
        have : x * Real.exp 0.082 ≤ x * (1 / (1 - 0.082)) := by gcongr
        rw [hx] at this h2
        linarith
      exact le_of_mul_le_mul_right h4 hL
    have h5 : (29 : ℝ) * (k * 2 ^ k) ≤ N := by
      have : (0 : ℝ) ≤ N := by linarith
      norm_num at h3
      linarith
    exact_mod_cast h5
  · have h2 : x * Real.exp (-0.23) ≤ ((k : ℝ) + 1) * Real.log 2 * 2 ^ (k + 1) := by
      have hp := hpow (k + 1)
      push_cast at hp
      rw [← hp]
      exact hlo'.trans (mul_le_mul hklt.le (Real.exp_le_exp.2 hklt.le) (Real.exp_pos _).le (by positivity))
    have he : (1 - 0.23 : ℝ) ≤ Real.exp (-0.23) := Real.one_sub_le_exp_neg 0.23
    have h3 : (N : ℝ) / 32 * (1 - 0.23) ≤ ((k : ℝ) + 1) * 2 ^ (k + 1) := by
      have h4 : (N : ℝ) / 32 * (1 - 0.23) * Real.log 2 ≤ ((k : ℝ) + 1) * 2 ^ (k + 1) * Real.log 2 := by
        have : x * (1 - 0.23) ≤ x * Real.exp (-0.23) := by gcongr
        rw [hx] at this h2
        linarith
      exact le_of_mul_le_mul_right h4 hL
    have h5 : (N : ℝ) ≤ 104 * (k * 2 ^ k) := by
      have hp : (0 : ℝ) < 2 ^ k := by positivity
      rw [pow_succ] at h3
      have : ((k : ℝ) + 1) ≤ 5 / 4 * k := by linarith
      have h6 : ((k : ℝ) + 1) * (2 ^ k * 2) ≤ 5 / 4 * k * (2 ^ k * 2) := by gcongr
      norm_num at h3
      linarith
    exact_mod_cast h5

/-- C85. For every stream and every sample of 8192 to `2^64 - 1` bits the permutation test does not fault.  Its one sub test is
named after the window size `k`; the bits of the first `n` values, in order, are cut into `⌊n·w/k⌋` windows of `k` bits, and the
statistic is Pearson's test of the numbers of occurrences (each counted up to 255) of the `2^k` window values, all expected
equally often, with `2^k - 1` degrees of freedom. -/
theorem C85_permutation (cdf : ℝ → ℝ → ℝ) (n : BitVec 64) (h0 : 2 ^ 13 ≤ n.toNat * w) (h1 : n.toNat * w < 2 ^ 64) :
    ∃ k, 4 ≤ k ∧ k ≤ 59 ∧ 29 * (k * 2 ^ k) ≤ n.toNat * w ∧ n.toNat * w ≤ 104 * (k * 2 ^ k) ∧ ∀ s : Stream (BitVec w), ∃ st,
      permutationTest cdf n s = .ok [⟨toString k, some st⟩] ∧
      pearson cdf ((List.range (2 ^ k)).map fun v =>
        (((min 255 (((chunks k (bitsOf (s.take n.toNat))).map ofBits).count v) : ℕ) : ℝ), ((n.toNat * w / k : ℕ) : ℝ) / 2 ^ k)) 0 = some st ∧
      st.df = 2 ^ k - 1 ∧ st.type = .chi2 ∧ 0 ≤ st.value := by
  obtain ⟨k, hk, hk4, hk59, hb1, hb2⟩ := C85_size n h0 h1
  refine ⟨k, hk4, hk59, hb1, hb2, fun s => ?_⟩
  have hkn : (BitVec.ofNat 64 k).toNat = k := by
    rw [BitVec.toNat_ofNat]; exact Nat.mod_eq_of_lt (lt_of_le_of_lt hk59 (by norm_num))
  have htot : (n * BitVec.ofNat 64 w).toNat = n.toNat * w := by
    have hn0 : 0 < n.toNat := by
      rcases Nat.eq_zero_or_pos n.toNat with h | h
      · rw [h, Nat.zero_mul] at h0; norm_num at h0
      · exact h
    have hw : w < 2 ^ 64 := lt_of_le_of_lt (Nat.le_mul_of_pos_left w hn0) h1
    rw [BitVec.toNat_mul, BitVec.toNat_ofNat, Nat.mod_eq_of_lt hw, Nat.mod_eq_of_lt h1]
  obtain ⟨values, hist, hv, hl, hh, hlen, hc⟩ := C50_histogram (s.take n.toNat) (BitVec.ofNat 64 k) (by omega) (by omega)
  rw [hkn] at hv hlen hc
  have hstat : permutationStat cdf n s (BitVec.ofNat 64 k) = .ok (pearson cdf ((List.range (2 ^ k)).map fun v =>
        (((min 255 (((chunks k (bitsOf (s.take n.toNat))).map ofBits).count v) : ℕ) : ℝ), ((n.toNat * w / k : ℕ) : ℝ) / 2 ^ k)) 0) := by
    unfold permutationStat
    dsimp only
    rw [hh, hbind, if_neg (by intro h; have := congrArg BitVec.toNat h; rw [hkn] at this; simp at this; omega), hlen,
      chi2Stats_eq_pearson]
    congr 2
    apply List.map_congr_left
    intro v hv'
    obtain ⟨c, hc1, hc2⟩ := hc v (List.mem_range.1 hv')
    rw [List.getD_eq_getElem?_getD, hc1, Option.getD_some, hc2, hv, BitVec.toNat_udiv, htot, hkn]
    push_cast
    rfl
  have hcell : 0 < n.toNat * w / k := Nat.div_pos (by
    have : 1 ≤ 2 ^ k := Nat.one_le_two_pow
    have : k * 1 ≤ k * 2 ^ k := Nat.mul_le_mul_left k this
    omega) (by omega)
  have hpos : (0 : ℝ) < ((n.toNat * w / k : ℕ) : ℝ) / 2 ^ k := by
    have : (0 : ℝ) < ((n.toNat * w / k : ℕ) : ℝ) := by exact_mod_cast hcell
    positivity
  have h2k : 16 ≤ 2 ^ k := by
    calc 16 = 2 ^ 4 := by norm_num
      _ ≤ 2 ^ k := Nat.pow_le_pow_right (by norm_num) hk4
  obtain ⟨st, hst⟩ := pearson_isSome cdf (2 ^ k) (fun v => ((min 255 (((chunks k (bitsOf (s.take n.toNat))).map ofBits).count v) : ℕ) : ℝ))
    (fun _ => ((n.toNat * w / k : ℕ) : ℝ) / 2 ^ k) 0 0 1 (by norm_num) (by omega) hpos hpos
  refine ⟨st, ?_, hst, ?_, ?_⟩
  · unfold permutationTest
    rw [hk, hbind, hstat, hst, hbind, hkn]
  · unfold pearson at hst
    split at hst
    · exact absurd hst (by simp)
    · rw [← Option.some.inj hst]
      dsimp only
      have : usedCells 0 ((List.range (2 ^ k)).map fun v =>
        (((min 255 (((chunks k (bitsOf (s.take n.toNat))).map ofBits).count v) : ℕ) : ℝ), ((n.toNat * w / k : ℕ) : ℝ) / 2 ^ k)) =
          (List.range (2 ^ k)).map fun v =>
        (((min 255 (((chunks k (bitsOf (s.take n.toNat))).map ofBits).count v) : ℕ) : ℝ), ((n.toNat * w / k : ℕ) : ℝ) / 2 ^ k) := by
        unfold usedCells
        rw [List.filter_eq_self]
        intro c hc
        obtain ⟨v, -, rfl⟩ := List.mem_map.1 hc
        exact decide_eq_true hpos
      rw [this, List.length_map, List.length_range]
      push_cast; rfl
  · obtain ⟨p1, -, -, p4, -⟩ := pearson_some cdf _ 0 (by norm_num) st hst
    exact ⟨p1, p4⟩

/-- C85. Samples of at most 46 bits (which the budget of the test rules out) are undefined behaviour: the logarithm of a negative
number is converted to an integer. -/
theorem C85_small (cdf : ℝ → ℝ → ℝ) (n : BitVec 64) (hw : w < 2 ^ 64) (h : n.toNat * w ≤ 46) (s : Stream (BitVec w)) :
    permutationTest cdf n s = .error .badCast := by
  have htot : (n * BitVec.ofNat 64 w).toNat = n.toNat * w := by
    rw [BitVec.toNat_mul, BitVec.toNat_ofNat, Nat.mod_eq_of_lt hw, Nat.mod_eq_of_lt (by omega)]
  have hN : ((n.toNat * w : ℕ) : ℝ) ≤ 46 := by exact_mod_cast h
  have hlog2' := Real.log_two_lt_d9
  have hlog2 := Real.log_two_gt_d9
  have hx : ((n.toNat * w : ℕ) : ℝ) / 32 * Real.log 2 ≤ 0.9965 := by
    have : (0 : ℝ) ≤ ((n.toNat * w : ℕ) : ℝ) := Nat.cast_nonneg _
    nlinarith
  unfold permutationTest getPermutationSize lambertWApproximation
  dsimp only
  rw [htot, if_neg, if_pos (by linarith)]
  · rfl
  · rw [isNearR, decide_eq_true_eq, abs_le]
    intro h
    have : (1 : ℝ) / 10 ^ 6 = 0.000001 := by norm_num
    rw [this] at h
    linarith [h.1]

-- 1024 bytes: 8192 bits.
example (cdf : ℝ → ℝ → ℝ) (s : Stream (BitVec 8)) : ∃ k st, 4 ≤ k ∧ permutationTest cdf 1024#64 s = .ok [⟨toString k, some st⟩] := by
  obtain ⟨k, h1, -, -, -, h⟩ := C85_permutation (w := 8) cdf 1024#64 (by decide) (by decide)
  obtain ⟨st, h2, -⟩ := h s
  exact ⟨k, st, h1, h2⟩

end TFR
