import Verif.Model.RealStats
import Verif.Props.Segments
import Mathlib.Algebra.Order.BigOperators.Group.List
import Mathlib.Algebra.BigOperators.Group.List.Basic
/-
C57, C75: the bins of the uniformity test.
-/
namespace TFR
open Spec
variable {w : Nat}

private theorem hbind {α β : Type} (x : α) (f : α → R β) : ((Except.ok x : R α) >>= f) = f x := rfl

/-- The bin (of `bins`) of a word: the integer part of the double `bins * x / max`, but at most the last bin. -/
def Spec.bin (bins : Nat) (x : BitVec w) : Nat := min (bins - 1) ⌊Fl.mul (Fl.ofNat bins) (rescaleTypeTo01 x)⌋.toNat

theorem chi2BinIndex_eq (bins : Nat) (h : bins ≤ 2 ^ 63) (x : BitVec w) : chi2BinIndex bins x = .ok (Spec.bin bins x) := by
  have hb : Fl.ofNat bins ≤ 2 ^ 63 := by
    rw [← Fl.rnd_two_pow 63]
    apply Fl.rnd_mono
    exact_mod_cast h
  have hb0 : 0 ≤ Fl.ofNat bins := Fl.rnd_nonneg (by positivity)
  have h0 := rescale_nonneg x
  have h1 := rescale_le_one x
  have hl : 0 ≤ Fl.mul (Fl.ofNat bins) (rescaleTypeTo01 x) := Fl.rnd_nonneg (mul_nonneg hb0 h0)
  have hu : Fl.mul (Fl.ofNat bins) (rescaleTypeTo01 x) ≤ 2 ^ 63 := by
    rw [← Fl.rnd_two_pow 63]
    apply Fl.rnd_mono
    calc _ ≤ Fl.ofNat bins * 1 := mul_le_mul_of_nonneg_left h1 hb0
      _ ≤ _ := by rw [mul_one]; exact hb
  unfold chi2BinIndex toU64
  dsimp only
  rw [if_pos ⟨hl, lt_of_le_of_lt hu (by norm_num)⟩, hbind]
  unfold Spec.bin
  have hf : ⌊Fl.mul (Fl.ofNat bins) (rescaleTypeTo01 x)⌋ ≤ 2 ^ 63 := by
    have : ⌊Fl.mul (Fl.ofNat bins) (rescaleTypeTo01 x)⌋ ≤ ⌊(2 : ℚ) ^ 63⌋ := Int.floor_mono hu
    refine this.trans ?_
    have h2 : (2 : ℚ) ^ 63 = (((2 : ℤ) ^ 63 : ℤ) : ℚ) := by push_cast; rfl
    rw [h2, Int.floor_intCast]
  rw [BitVec.toNat_ofNat, Nat.mod_eq_of_lt (by omega)]

/-- The counts of a histogram add up to the number of values counted. -/
theorem sum_count_range (n : Nat) (idx : List Nat) (h : ∀ i ∈ idx, i < n) :
    ((List.range n).map fun k => idx.count k).sum = idx.length := by
  induction idx with
  | nil => simp
  | cons a l ih =>
    have ih' := ih (fun i hi => h i (by simp [hi]))
    have ha := h a (by simp)
    have : ((List.range n).map fun k => (a :: l).count k) =
        (List.range n).map fun k => l.count k + if a = k then 1 else 0 := by
      apply List.map_congr_left
      intro k _
      rw [List.count_cons]
      simp
    rw [this, List.sum_map_add, ih', List.length_cons]
    congr 1
    have hsum : ∀ r : List Nat, (r.map fun k => if a = k then 1 else 0).sum = r.count a := by
      intro r
      induction r with
      | nil => rfl
      | cons c r ih =>
        rw [List.map_cons, List.sum_cons, ih, List.count_cons, Nat.add_comm]
        congr 1
        by_cases hk : a = c
        · subst hk; simp
        · rw [if_neg hk, if_neg (by simpa using Ne.symm hk)]
    rw [hsum, List.count_eq_one_of_mem List.nodup_range (List.mem_range.2 ha)]

/-- C57. For every data and every number of bins from 1 to 2^63, `bin_data_for_chi2` never faults and counts every value once, in an in-range bin: entry `k` is the number (modulo 2^64) of values whose bin is `k`. -/
theorem C57_bins (bins : Nat) (h0 : 0 < bins) (h : bins ≤ 2 ^ 63) (data : List (BitVec w)) :
    ∃ counts, binDataForChi2 bins data = .ok counts ∧ counts.length = bins ∧ (∀ x ∈ data, Spec.bin bins x < bins) ∧
      (∀ k, k < bins → counts[k]? = some (BitVec.ofNat 64 (data.countP fun x => Spec.bin bins x = k))) ∧
      (data.length < 2 ^ 64 → (counts.map BitVec.toNat).sum = data.length) := by
  have hlt : ∀ x : BitVec w, Spec.bin bins x < bins := by
    intro x
    unfold Spec.bin
    omega
  have heq : binDataForChi2 bins data = .ok (histOf bins (data.map (Spec.bin bins))) := by
    unfold binDataForChi2
    have hf : (fun (counts : List (BitVec 64)) (x : BitVec w) => (do
        let i ← chi2BinIndex bins x
        incrAt counts i : R (List (BitVec 64)))) = fun c x => incrAt c (Spec.bin bins x) := by
      funext c x
      rw [chi2BinIndex_eq bins h x, hbind]
    rw [hf, ← histOf_nil]
    have := foldlM_incrAt bins (Spec.bin bins) data [] (fun a _ => hlt a)
    simpa using this
  have hcount : ∀ k, (data.map (Spec.bin bins)).count k = data.countP fun x => Spec.bin bins x = k := by
    intro k
    rw [List.count, List.countP_map]
    apply List.countP_congr
    intro x _
    simp
  refine ⟨_, heq, by simp, fun x _ => hlt x, ?_, ?_⟩
  · intro k hk
    rw [List.getElem?_eq_getElem (by simpa using hk), getElem_histOf, hcount]
  · intro hlen
    have hmap : (histOf bins (data.map (Spec.bin bins))).map BitVec.toNat =
        (List.range bins).map fun k => (data.map (Spec.bin bins)).count k := by
      unfold histOf
      rw [List.map_map]
      apply List.map_congr_left
      intro k _
      simp only [Function.comp]
      rw [BitVec.toNat_ofNat, Nat.mod_eq_of_lt]
      exact lt_of_le_of_lt List.count_le_length (by simpa using hlen)
    rw [hmap, sum_count_range]
    · simp
    · intro i hi
      obtain ⟨x, _, rfl⟩ := List.mem_map.1 hi
      exact hlt x

/-- C57. With no bins the first value is an access outside the vector. -/
theorem C57_no_bins (x : BitVec w) (data : List (BitVec w)) : binDataForChi2 0 (x :: data) = .error .oobIndex := by
  unfold binDataForChi2
  rw [List.foldlM_cons, chi2BinIndex_eq 0 (by norm_num) x, hbind]
  rfl

/-- C57, non-vacuity: seven bytes in four bins; 63 is the last byte of the first bin, 255 is in the last bin. -/
example : binDataForChi2 4 [0#8, 63#8, 64#8, 127#8, 128#8, 200#8, 255#8] = .ok [2#64, 2#64, 1#64, 2#64] := by decide +kernel

/-! ### the number of bins -/

/-- C57. For every sample size from 1 to `2^64 - 1` the number of bins of the uniformity test is a power of two which is at
least 2 and at least `2 n^0.4`, unless that exceeds the number of words (then, below 64 bits, it is the number of words),
and less than `2 (2 n^0.4 + 1)`. -/
theorem C57_bin_count (t : WT) (n : Nat) (h : 0 < n) (hn : n < 2 ^ 64) :
    ∃ k, binCountPow2 t.bits n = .ok (2 ^ k) ∧ k ≤ t.bits ∧ 1 ≤ k ∧ (2 : ℝ) ^ k < 2 * (2 * (n : ℝ) ^ (4 / 10 : ℝ) + 1) ∧
      (2 * (n : ℝ) ^ (4 / 10 : ℝ) ≤ 2 ^ k ∨ k = t.bits) := by
  have hn1 : (1 : ℝ) ≤ n := by exact_mod_cast h
  set r : ℝ := 2 * (n : ℝ) ^ (4 / 10 : ℝ) with hr
  have hr2 : 2 ≤ r := by
    have : (1 : ℝ) ≤ (n : ℝ) ^ (4 / 10 : ℝ) := Real.one_le_rpow hn1 (by norm_num)
    linarith
  have hru : r ≤ 2 ^ 27 := by
    have h1 : (n : ℝ) ≤ 2 ^ (65 : ℝ) := by
      have : (n : ℝ) ≤ 2 ^ 65 := by
        have h' : n ≤ 2 ^ 65 := by omega
        exact_mod_cast h'
      exact_mod_cast this
    have h2 : (n : ℝ) ^ (4 / 10 : ℝ) ≤ ((2 : ℝ) ^ (65 : ℝ)) ^ (4 / 10 : ℝ) :=
      Real.rpow_le_rpow (by linarith) h1 (by norm_num)
    rw [← Real.rpow_mul (by norm_num)] at h2
    have h3 : ((2 : ℝ) ^ ((65 : ℝ) * (4 / 10))) = 2 ^ 26 := by
      rw [← Real.rpow_natCast]; norm_num
    rw [h3] at h2
    rw [hr]
    linarith
  have hm : binCountMathematica n = ⌈r⌉₊ := rfl
  have hm2 : 2 ≤ ⌈r⌉₊ := by
    have : (2 : ℝ) ≤ (⌈r⌉₊ : ℝ) := hr2.trans (Nat.le_ceil r)
    exact_mod_cast this
  have hmu : ⌈r⌉₊ ≤ 2 ^ 27 := Nat.ceil_le.2 (by exact_mod_cast hru)
  have hclog : ⌈Real.logb 2 (⌈r⌉₊ : ℝ)⌉₊ = Nat.clog 2 ⌈r⌉₊ := by
    have := Real.natCeil_logb_natCast 2 ⌈r⌉₊
    simpa using this
  set c := Nat.clog 2 ⌈r⌉₊ with hc
  have hc27 : c ≤ 27 := (Nat.clog_le_iff_le_pow (by norm_num)).2 hmu
  have hc1 : 1 ≤ c := Nat.clog_pos (by norm_num) hm2
  have hle : ⌈r⌉₊ ≤ 2 ^ c := Nat.le_pow_clog (by norm_num) _
  have hlt : 2 ^ (c - 1) < ⌈r⌉₊ := Nat.pow_pred_clog_lt_self (by norm_num) hm2
  have hceil : (⌈r⌉₊ : ℝ) < r + 1 := Nat.ceil_lt_add_one (by linarith)
  have hcu : (2 : ℝ) ^ c < 2 * (r + 1) := by
    have h1 : ((2 ^ (c - 1) : ℕ) : ℝ) < (⌈r⌉₊ : ℝ) := by exact_mod_cast hlt
    have h2 : (2 : ℝ) ^ c = 2 * 2 ^ (c - 1) := by
      obtain ⟨d, hd⟩ : ∃ d, c = d + 1 := ⟨c - 1, by omega⟩
      rw [hd, Nat.add_sub_cancel, pow_succ]; ring
    push_cast at h1
    linarith
  have hcl : r ≤ 2 ^ c := by
    have h1 : (⌈r⌉₊ : ℝ) ≤ ((2 ^ c : ℕ) : ℝ) := by exact_mod_cast hle
    push_cast at h1
    exact (Nat.le_ceil r).trans h1
  have hval : binCountPow2 t.bits n = .ok (if t.bits = 64 then 2 ^ c else min (2 ^ c) (2 ^ t.bits - 1 + 1)) := by
    unfold binCountPow2
    rw [hm]
    dsimp only
    rw [if_neg (by omega), hclog, if_neg (by omega)]
  rw [hval]
  by_cases hct : c ≤ t.bits
  · refine ⟨c, ?_, hct, hc1, hcu, Or.inl hcl⟩
    by_cases h64 : t.bits = 64
    · rw [if_pos h64]
    · rw [if_neg h64, Nat.sub_add_cancel Nat.one_le_two_pow, min_eq_left (Nat.pow_le_pow_right (by norm_num) hct)]
  · have h64 : t.bits ≠ 64 := by omega
    refine ⟨t.bits, ?_, le_rfl, by cases t <;> simp, ?_, Or.inr rfl⟩
    · rw [if_neg h64, Nat.sub_add_cancel Nat.one_le_two_pow,
        min_eq_right (Nat.pow_le_pow_right (by norm_num) (by omega))]
    · refine lt_of_le_of_lt ?_ hcu
      exact pow_le_pow_right₀ (by norm_num) (by omega)

/-- C57. For an empty sample the logarithm of zero is converted to an integer: undefined behaviour. -/
theorem C57_bin_count_zero : binCountPow2 w 0 = .error .badCast := by
  unfold binCountPow2 binCountMathematica
  have : ⌈2 * ((0 : ℕ) : ℝ) ^ (4 / 10 : ℝ)⌉₊ = 0 := by
    rw [Nat.cast_zero, Real.zero_rpow (by norm_num)]
    simp
  rw [this]
  rfl

/-! ### C75 -/

/-- C75. For words of up to 32 bits the floating point bin is the top bits of the word: for every number of bins `2^b` with
`b ≤ w` and `b + w ≤ 53`, the bin of `x` is `x >> (w - b)`. -/
theorem C75_top_bits (b : Nat) (hb : b ≤ w) (hw : 0 < w) (hbw : b + w ≤ 53) (x : BitVec w) :
    chi2BinIndex (2 ^ b) x = .ok (x.toNat >>> (w - b)) := by
  have hw53 : (2 : ℕ) ^ w ≤ 2 ^ 53 := Nat.pow_le_pow_right (by norm_num) (by omega)
  have hb53 : (2 : ℕ) ^ b ≤ 2 ^ 53 := Nat.pow_le_pow_right (by norm_num) (by omega)
  rw [chi2BinIndex_eq _ (hb53.trans (by norm_num)), Nat.shiftRight_eq_div_pow]
  congr 1
  unfold Spec.bin
  have hx := x.isLt
  have e1 : Fl.ofNat x.toNat = (x.toNat : ℚ) := Fl.rnd_natCast (by omega)
  have e2 : Fl.ofNat (2 ^ w - 1) = ((2 ^ w - 1 : ℕ) : ℚ) := Fl.rnd_natCast (by omega)
  have e3 : Fl.ofNat (2 ^ b) = 2 ^ b := by
    have := Fl.rnd_two_pow b
    unfold Fl.ofNat
    push_cast
    exact this
  have hw2 : 2 ≤ (2 : ℕ) ^ w := by
    calc 2 = 2 ^ 1 := rfl
      _ ≤ _ := Nat.pow_le_pow_right (by norm_num) hw
  have hpos : (0 : ℚ) < ((2 ^ w - 1 : ℕ) : ℚ) := by
    have : 0 < 2 ^ w - 1 := by omega
    exact_mod_cast this
  have hcast : ((2 ^ w - 1 : ℕ) : ℚ) = 2 ^ w - 1 := by
    rw [Nat.cast_sub (by omega)]; push_cast; ring
  obtain ⟨d, rfl⟩ : ∃ d, w = b + d := ⟨w - b, by omega⟩
  have hd : b + d - b = d := by omega
  rw [hd]
  set q := x.toNat / 2 ^ d with hq
  have hqlo : q * 2 ^ d ≤ x.toNat := Nat.div_mul_le_self _ _
  have hqhi : x.toNat < (q + 1) * 2 ^ d := by
    have := Nat.lt_div_mul_add (a := x.toNat) (b := 2 ^ d) (by positivity)
    rw [← hq] at this
    rw [add_mul, one_mul]; exact this
  have hqb : q < 2 ^ b := by
    rw [hq, Nat.div_lt_iff_lt_mul (by positivity), ← pow_add]; exact hx
  clear_value q
  -- the rescaled value
  set v := rescaleTypeTo01 x with hv
  have hv0 : 0 ≤ v := rescale_nonneg x
  have hv1 : v ≤ 1 := rescale_le_one x
  have hvlo : (q : ℚ) * 2 ^ (-(b : ℤ)) ≤ v := by
    rw [hv]
    unfold rescaleTypeTo01 Fl.div
    rw [← Fl.rnd_exact (m := q) (e := -(b : ℤ)) (by omega), e1, e2]
    apply Fl.rnd_mono
    rw [le_div_iff₀ hpos, zpow_neg, zpow_natCast, hcast]
    have h1 : (q : ℚ) * 2 ^ d ≤ x.toNat := by exact_mod_cast hqlo
    have h2 : (q : ℚ) * ((2 : ℚ) ^ b)⁻¹ * (2 ^ (b + d) - 1) ≤ (q : ℚ) * ((2 : ℚ) ^ b)⁻¹ * 2 ^ (b + d) := by
      apply mul_le_mul_of_nonneg_left _ (by positivity)
      linarith
    have h3 : (q : ℚ) * ((2 : ℚ) ^ b)⁻¹ * 2 ^ (b + d) = q * 2 ^ d := by
      rw [pow_add]; field_simp
    linarith
  have hmul : Fl.mul (Fl.ofNat (2 ^ b)) v = Fl.rnd (2 ^ b * v) := by rw [e3]; rfl
  have hlow : (q : ℚ) ≤ Fl.rnd (2 ^ b * v) := by
    rw [← Fl.rnd_natCast (m := q) (by omega)]
    apply Fl.rnd_mono
    rw [zpow_neg, zpow_natCast] at hvlo
    have := mul_le_mul_of_nonneg_left hvlo (show (0 : ℚ) ≤ 2 ^ b by positivity)
    refine le_trans (le_of_eq ?_) this
    field_simp
  rw [hmul]
  by_cases hlast : q + 1 = 2 ^ b
  · -- the last bin: clamped
    have h1 : (q : ℤ) ≤ ⌊Fl.rnd (2 ^ b * v)⌋ := Int.le_floor.2 (by exact_mod_cast hlow)
    omega
  · have hup : Fl.rnd (2 ^ b * v) < (q : ℚ) + 1 := by
      obtain ⟨e, he⟩ : ∃ e, 53 = b + e := ⟨53 - b, by omega⟩
      have hm : (q + 1) * 2 ^ e - 1 ≤ 2 ^ 53 := by
        have : (q + 1) * 2 ^ e ≤ 2 ^ b * 2 ^ e := Nat.mul_le_mul_right _ (by omega)
        rw [← pow_add, ← he] at this
        omega
      have hq1 : 1 ≤ (q + 1) * 2 ^ e := Nat.mul_pos (by omega) (by positivity)
      have hmc : (((q + 1) * 2 ^ e - 1 : ℕ) : ℚ) = ((q : ℚ) + 1) * 2 ^ e - 1 := by
        rw [Nat.cast_sub hq1]; push_cast; ring
      have hvhi : v ≤ (((q + 1) * 2 ^ e - 1 : ℕ) : ℚ) * 2 ^ (-53 : ℤ) := by
        rw [hv]
        unfold rescaleTypeTo01 Fl.div
        rw [← Fl.rnd_exact (m := (q + 1) * 2 ^ e - 1) (e := -53) hm, e1, e2]
        apply Fl.rnd_mono
        rw [div_le_iff₀ hpos, hcast, hmc]
        have h1 : (x.toNat : ℚ) + 1 ≤ ((q : ℚ) + 1) * 2 ^ d := by exact_mod_cast hqhi
        have h2 : (q : ℚ) + 2 ≤ 2 ^ b := by
          have : q + 2 ≤ 2 ^ b := by omega
          exact_mod_cast this
        have h53 : (2 : ℚ) ^ (-53 : ℤ) = ((2 : ℚ) ^ b)⁻¹ * ((2 : ℚ) ^ e)⁻¹ := by
          rw [← mul_inv, ← pow_add, ← he, zpow_neg]; norm_cast
        have hde : (2 : ℚ) ^ (b + d) ≤ 2 ^ e := by
          exact pow_le_pow_right₀ (by norm_num) (by omega)
        rw [h53]
        have hB : (0 : ℚ) < 2 ^ b := by positivity
        have hE : (0 : ℚ) < 2 ^ e := by positivity
        have hD : (0 : ℚ) < 2 ^ d := by positivity
        rw [pow_add] at hde ⊢
        refine le_trans (le_sub_iff_add_le.2 h1) ?_
        rw [mul_assoc, ← mul_inv, ← sub_nonneg]
        have key : (((q : ℚ) + 1) * 2 ^ e - 1) * (((2 : ℚ) ^ b * 2 ^ e)⁻¹ * (2 ^ b * 2 ^ d - 1)) - (((q : ℚ) + 1) * 2 ^ d - 1)
            = ((2 ^ b - (q + 1)) * 2 ^ e - (2 ^ b * 2 ^ d - 1)) * ((2 : ℚ) ^ b * 2 ^ e)⁻¹ := by
          field_simp
          ring
        rw [key]
        apply mul_nonneg _ (by positivity)
        have : 2 ^ e ≤ (2 ^ b - ((q : ℚ) + 1)) * 2 ^ e := by
          have h3 : (1 : ℚ) ≤ 2 ^ b - (q + 1) := by linarith
          nlinarith
        linarith
      -- multiplication by a power of two is exact
      have h4 : (2 : ℚ) ^ b * v ≤ (((q + 1) * 2 ^ e - 1 : ℕ) : ℚ) * 2 ^ (-(e : ℤ)) := by
        have := mul_le_mul_of_nonneg_left hvhi (show (0 : ℚ) ≤ 2 ^ b by positivity)
        refine this.trans (le_of_eq ?_)
        have h53 : (2 : ℚ) ^ (-53 : ℤ) = ((2 : ℚ) ^ b)⁻¹ * ((2 : ℚ) ^ e)⁻¹ := by
          rw [← mul_inv, ← pow_add, ← he, zpow_neg]; norm_cast
        rw [h53, zpow_neg, zpow_natCast]
        field_simp
      have h5 := Fl.rnd_mono h4
      rw [Fl.rnd_exact hm, hmc] at h5
      refine lt_of_le_of_lt h5 ?_
      rw [zpow_neg, zpow_natCast, sub_mul, mul_assoc, mul_inv_cancel₀ (by positivity), mul_one, one_mul]
      have : (0 : ℚ) < ((2 : ℚ) ^ e)⁻¹ := by positivity
      linarith
    have h1 : ⌊Fl.rnd (2 ^ b * v)⌋ = (q : ℤ) := by
      rw [Int.floor_eq_iff]
      constructor
      · exact_mod_cast hlow
      · exact_mod_cast hup
    rw [h1]
    simp only [Int.toNat_natCast]
    omega

/-- C75, non-vacuity: 32-bit words and 2^21 bins are covered. -/
example (x : BitVec 32) : chi2BinIndex (2 ^ 21) x = .ok (x.toNat >>> 11) := C75_top_bits 21 (by norm_num) (by norm_num) (by norm_num) x

/-- C75. For 64-bit words and up to 2^53 bins the floating point bin is the top bits of the word or the next bin; it is the top
bits whenever the word is more than 1024 away from the end of its bin, and in the last bin. -/
theorem C75_top_bits64 (b : Nat) (hb : b ≤ 53) (x : BitVec 64) :
    ∃ i, chi2BinIndex (2 ^ b) x = .ok i ∧ (i = x.toNat >>> (64 - b) ∨ i = x.toNat >>> (64 - b) + 1) ∧ i < 2 ^ b ∧
      (x.toNat % 2 ^ (64 - b) + 1024 < 2 ^ (64 - b) → i = x.toNat >>> (64 - b)) := by
  have hb53 : (2 : ℕ) ^ b ≤ 2 ^ 53 := Nat.pow_le_pow_right (by norm_num) hb
  have hbpos : 0 < (2 : ℕ) ^ b := by positivity
  refine ⟨_, chi2BinIndex_eq _ (hb53.trans (by norm_num)) x, ?_⟩
  rw [Nat.shiftRight_eq_div_pow]
  obtain ⟨d, hd⟩ : ∃ d, 64 = b + d := ⟨64 - b, by omega⟩
  have hd' : 64 - b = d := by omega
  rw [hd']
  have hx := x.isLt
  set q := x.toNat / 2 ^ d with hq
  have hqlo : q * 2 ^ d ≤ x.toNat := Nat.div_mul_le_self _ _
  have hmod : x.toNat = q * 2 ^ d + x.toNat % 2 ^ d := by
    rw [hq, mul_comm]; exact (Nat.div_add_mod _ _).symm
  have hmodlt : x.toNat % 2 ^ d < 2 ^ d := Nat.mod_lt _ (by positivity)
  have hqb : q < 2 ^ b := by
    rw [hq, Nat.div_lt_iff_lt_mul (by positivity), ← pow_add, ← hd]; exact hx
  clear_value q
  -- the double of the word
  set f := Fl.ofNat x.toNat with hf
  have hflo : (q : ℚ) * 2 ^ d ≤ f := by
    have := Fl.rnd_exact (m := q) (e := (d : ℤ)) (by omega)
    rw [zpow_natCast] at this
    rw [← this, hf]
    apply Fl.rnd_mono
    exact_mod_cast hqlo
  have hfhi : f ≤ ((q : ℚ) + 1) * 2 ^ d := by
    have := Fl.rnd_exact (m := q + 1) (e := (d : ℤ)) (by omega)
    rw [zpow_natCast] at this
    push_cast at this
    rw [← this, hf]
    apply Fl.rnd_mono
    have h1 : x.toNat ≤ (q + 1) * 2 ^ d := by rw [add_mul, one_mul]; omega
    exact_mod_cast h1
  -- the double of the word is a multiple of a unit below 2^53, so division and multiplication by powers of two are exact
  obtain ⟨m, e, hm, hme⟩ : ∃ (m : ℕ) (e : ℤ), m ≤ 2 ^ 53 ∧ f = (m : ℚ) * 2 ^ e := by
    rw [hf]
    unfold Fl.ofNat
    rw [Fl.rnd_of_nonneg (by positivity)]
    unfold Fl.rndPos
    by_cases hz : (x.toNat : ℚ) = 0
    · rw [if_pos hz]; exact ⟨0, 0, by norm_num, by simp⟩
    · rw [if_neg hz]
      have hp : (0 : ℚ) < (x.toNat : ℚ) := lt_of_le_of_ne (by positivity) (Ne.symm hz)
      have h1 := Fl.le_div_ulp hp
      have h2 := Fl.div_ulp_lt hp
      have hle : Fl.roundEven ((x.toNat : ℚ) / Fl.ulp x.toNat) ≤ 2 ^ 53 := by
        have h3 := Fl.roundEven_mono h2.le
        have h4 : Fl.roundEven ((2 : ℚ) ^ 53) = 2 ^ 53 := by
          have := Fl.roundEven_int (2 ^ 53)
          push_cast at this
          exact this
        rw [h4] at h3; exact h3
      have hge : 0 ≤ Fl.roundEven ((x.toNat : ℚ) / Fl.ulp x.toNat) := by
        have h3 := Fl.roundEven_mono (show (0 : ℚ) ≤ (x.toNat : ℚ) / Fl.ulp x.toNat by linarith)
        have h4 : Fl.roundEven (0 : ℚ) = 0 := by simpa using Fl.roundEven_int 0
        rw [h4] at h3; exact h3
      refine ⟨(Fl.roundEven ((x.toNat : ℚ) / Fl.ulp x.toNat)).toNat, Int.log 2 (x.toNat : ℚ) - 52, by omega, ?_⟩
      have : (((Fl.roundEven ((x.toNat : ℚ) / Fl.ulp x.toNat)).toNat : ℕ) : ℚ) =
          ((Fl.roundEven ((x.toNat : ℚ) / Fl.ulp x.toNat) : ℤ) : ℚ) := by
        have h5 : (((Fl.roundEven ((x.toNat : ℚ) / Fl.ulp x.toNat)).toNat : ℕ) : ℤ) = Fl.roundEven ((x.toNat : ℚ) / Fl.ulp x.toNat) :=
          Int.toNat_of_nonneg hge
        exact_mod_cast h5
      rw [this]
      rfl
  have hval : Fl.mul (Fl.ofNat (2 ^ b)) (rescaleTypeTo01 x) = f / 2 ^ d := by
    have e3 : Fl.ofNat (2 ^ b) = 2 ^ b := by
      have := Fl.rnd_two_pow b
      unfold Fl.ofNat
      push_cast
      exact this
    have hv : rescaleTypeTo01 x = (m : ℚ) * 2 ^ (e - 64) := by
      unfold rescaleTypeTo01 Fl.div
      rw [rnd_max64, ← hf, hme]
      have : (m : ℚ) * 2 ^ e / 2 ^ 64 = (m : ℚ) * 2 ^ (e - 64) := by
        rw [zpow_sub₀ (by norm_num), mul_div_assoc]; norm_cast
      rw [this, Fl.rnd_exact hm]
    unfold Fl.mul
    rw [e3, hv]
    have : (2 : ℚ) ^ b * ((m : ℚ) * 2 ^ (e - 64)) = (m : ℚ) * 2 ^ (e - 64 + b) := by
      rw [zpow_add₀ (by norm_num), zpow_natCast]; ring
    rw [this, Fl.rnd_exact hm, hme, mul_div_assoc]
    congr 1
    have h64 : ((64 : ℤ)) = (b : ℤ) + (d : ℤ) := by exact_mod_cast hd
    have : e - 64 + b = e - d := by omega
    rw [this, zpow_sub₀ (by norm_num), zpow_natCast]
  unfold Spec.bin
  rw [hval]
  have hD : (0 : ℚ) < 2 ^ d := by positivity
  have hlo : (q : ℤ) ≤ ⌊f / 2 ^ d⌋ := by
    rw [Int.le_floor, le_div_iff₀ hD]; exact_mod_cast hflo
  have hhi : ⌊f / 2 ^ d⌋ ≤ (q : ℤ) + 1 := by
    have h1 : f / 2 ^ d ≤ (((q : ℤ) + 1 : ℤ) : ℚ) := by
      rw [div_le_iff₀ hD]; push_cast; exact hfhi
    have := Int.floor_mono h1
    rwa [Int.floor_intCast] at this
  refine ⟨by omega, by omega, ?_⟩
  intro hr
  have hlt : ⌊f / 2 ^ d⌋ < (q : ℤ) + 1 := by
    rw [Int.floor_lt, div_lt_iff₀ hD]
    push_cast
    have herr : f ≤ (x.toNat : ℚ) + 1024 := by
      by_cases hz : (x.toNat : ℚ) = 0
      · rw [hf]; unfold Fl.ofNat; rw [hz]
        have : Fl.rnd 0 = 0 := by simpa using Fl.rnd_natCast (m := 0) (by norm_num)
        rw [this]; norm_num
      · have hp : (0 : ℚ) < (x.toNat : ℚ) := lt_of_le_of_ne (by positivity) (Ne.symm hz)
        have h1 := Fl.abs_rnd_sub_le hp
        have h2 : Fl.ulp (x.toNat : ℚ) ≤ 2048 := by
          unfold Fl.ulp
          have hl : Int.log 2 (x.toNat : ℚ) ≤ 63 := by
            rw [Int.log_natCast]
            have : Nat.log 2 x.toNat < 64 := Nat.log_lt_of_lt_pow (by intro h0; rw [h0] at hz; simp at hz) hx
            omega
          calc (2 : ℚ) ^ (Int.log 2 (x.toNat : ℚ) - 52) ≤ 2 ^ (11 : ℤ) :=
                zpow_le_zpow_right₀ (by norm_num) (by omega)
            _ = 2048 := by norm_num
        have h3 := (abs_le.1 h1).2
        have h4 : f = Fl.rnd (x.toNat : ℚ) := hf
        linarith
    have h5 : x.toNat + 1024 < (q + 1) * 2 ^ d := by rw [add_mul, one_mul]; omega
    have h6 : (x.toNat : ℚ) + 1024 < ((q : ℚ) + 1) * 2 ^ d := by exact_mod_cast h5
    linarith
  omega

/-- C75. The next bin does occur: of the two bins of 64-bit words, `2^63 - 1` (top bit 0) is counted in bin 1. -/
theorem C75_next_bin : chi2BinIndex 2 (0x7fffffffffffffff#64) = .ok 1 := by decide +kernel

/-- C75. The largest word, whose rescaled value is 1, is in the last bin. -/
theorem C75_max (b : Nat) (hb : b ≤ 53) : chi2BinIndex (2 ^ b) (BitVec.allOnes 64) = .ok (2 ^ b - 1) := by
  obtain ⟨i, h1, h2, h3, -⟩ := C75_top_bits64 b hb (BitVec.allOnes 64)
  rw [h1]
  congr 1
  rw [Nat.shiftRight_eq_div_pow] at h2
  have : (BitVec.allOnes 64).toNat / 2 ^ (64 - b) = 2 ^ b - 1 := by
    rw [BitVec.toNat_allOnes]
    have h64 : (2 : ℕ) ^ 64 = 2 ^ (64 - b) * 2 ^ b := by rw [← pow_add]; congr 1; omega
    have hp : 0 < (2 : ℕ) ^ (64 - b) := by positivity
    rw [h64]
    have hb0 : 0 < (2 : ℕ) ^ b := by positivity
    obtain ⟨k, hk⟩ : ∃ k, 2 ^ b = k + 1 := ⟨2 ^ b - 1, by omega⟩
    rw [hk, Nat.add_sub_cancel]
    apply Nat.div_eq_of_lt_le
    · have : 2 ^ (64 - b) * (k + 1) = k * 2 ^ (64 - b) + 2 ^ (64 - b) := by ring
      omega
    · have : 2 ^ (64 - b) * (k + 1) = (k + 1) * 2 ^ (64 - b) := mul_comm _ _
      have h0 : 0 < (k + 1) * 2 ^ (64 - b) := by positivity
      omega
  omega

end TFR
