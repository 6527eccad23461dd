import Mathlib.Data.Nat.Bitwise
import Verif.Props.Bins
import Verif.Lemmas.Tails
import Verif.Props.PowerEven
import Verif.Props.SelfCheckDraws
/-
C132. What the self-check of `-inspect-test` prints about the uniformity test: every view of the counter is rejected, because a bit is stuck or
because the sample is too even.
-/
namespace TFR
open Spec
variable {w : Nat}


/-! ### The bins of 64-bit words -/

theorem bin64 (b : Nat) (x : BitVec 64) (hb : b ≤ 53) :
    Spec.bin (2 ^ b) x = min (2 ^ b - 1) ⌊Fl.rnd (x.toNat : ℚ) / 2 ^ (64 - b)⌋.toNat := by
  obtain ⟨d, hd⟩ : ∃ d, 64 = b + d := ⟨64 - b, by omega⟩
  rw [show 64 - b = d by omega]
  set f := Fl.ofNat x.toNat with hf
  obtain ⟨m, e, hm, hme⟩ : ∃ (m : ℕ) (e : ℤ), m ≤ 2 ^ 53 ∧ f = (m : ℚ) * 2 ^ e := by
    rw [hf]
    unfold Fl.ofNat
    rw [Fl.rnd_of_nonneg (by positivity)]
    unfold Fl.rndPos
    by_cases hz : (x.toNat : ℚ) = 0
    · rw [if_pos hz]; exact ⟨0, 0, by norm_num, by simp⟩
    · rw [if_neg hz]
      have hp : (0 : ℚ) < (x.toNat : ℚ) := lt_of_le_of_ne (by positivity) (Ne.symm hz)
      have h1 := Fl.le_div_ulp hp
      have h2 := Fl.div_ulp_lt hp
      have hle : Fl.roundEven ((x.toNat : ℚ) / Fl.ulp x.toNat) ≤ 2 ^ 53 := by
        have h3 := Fl.roundEven_mono h2.le
        have h4 : Fl.roundEven ((2 : ℚ) ^ 53) = 2 ^ 53 := by
          have := Fl.roundEven_int (2 ^ 53)
          push_cast at this
          exact this
        rw [h4] at h3; exact h3
      have hge : 0 ≤ Fl.roundEven ((x.toNat : ℚ) / Fl.ulp x.toNat) := by
        have h3 := Fl.roundEven_mono (show (0 : ℚ) ≤ (x.toNat : ℚ) / Fl.ulp x.toNat by linarith)
        have h4 : Fl.roundEven (0 : ℚ) = 0 := by simpa using Fl.roundEven_int 0
        rw [h4] at h3; exact h3
      refine ⟨(Fl.roundEven ((x.toNat : ℚ) / Fl.ulp x.toNat)).toNat, Int.log 2 (x.toNat : ℚ) - 52, by omega, ?_⟩
      have : (((Fl.roundEven ((x.toNat : ℚ) / Fl.ulp x.toNat)).toNat : ℕ) : ℚ) =
          ((Fl.roundEven ((x.toNat : ℚ) / Fl.ulp x.toNat) : ℤ) : ℚ) := by
        have h5 : (((Fl.roundEven ((x.toNat : ℚ) / Fl.ulp x.toNat)).toNat : ℕ) : ℤ) = Fl.roundEven ((x.toNat : ℚ) / Fl.ulp x.toNat) :=
          Int.toNat_of_nonneg hge
        exact_mod_cast h5
      rw [this]
      rfl
  have hval : Fl.mul (Fl.ofNat (2 ^ b)) (rescaleTypeTo01 x) = f / 2 ^ d := by
    have e3 : Fl.ofNat (2 ^ b) = 2 ^ b := by
      have := Fl.rnd_two_pow b
      unfold Fl.ofNat
      push_cast
      exact this
    have hv : rescaleTypeTo01 x = (m : ℚ) * 2 ^ (e - 64) := by
      unfold rescaleTypeTo01 Fl.div
      rw [rnd_max64, ← hf, hme]
      have : (m : ℚ) * 2 ^ e / 2 ^ 64 = (m : ℚ) * 2 ^ (e - 64) := by
        rw [zpow_sub₀ (by norm_num), mul_div_assoc]; norm_cast
      rw [this, Fl.rnd_exact hm]
    unfold Fl.mul
    rw [e3, hv]
    have : (2 : ℚ) ^ b * ((m : ℚ) * 2 ^ (e - 64)) = (m : ℚ) * 2 ^ (e - 64 + b) := by
      rw [zpow_add₀ (by norm_num), zpow_natCast]; ring
    rw [this, Fl.rnd_exact hm, hme, mul_div_assoc]
    congr 1
    have h64 : ((64 : ℤ)) = (b : ℤ) + (d : ℤ) := by exact_mod_cast hd
    have : e - 64 + b = e - d := by omega
    rw [this, zpow_sub₀ (by norm_num), zpow_natCast]
  unfold Spec.bin
  rw [hval]
  rfl

/-- If a number is rounded up to the end of its block, so is the number one block higher. -/
theorem rnd_next_block (d x q : Nat) (hd : 12 ≤ d) (hx : 0 < x) (hy : x + 2 ^ d < 2 ^ 64)
    (h : ((q : ℚ) + 1) * 2 ^ d ≤ Fl.rnd (x : ℚ)) : ((q : ℚ) + 2) * 2 ^ d ≤ Fl.rnd ((x + 2 ^ d : ℕ) : ℚ) := by
  have hp : (0 : ℚ) < (x : ℚ) := by exact_mod_cast hx
  have hypos : (0 : ℚ) < ((x + 2 ^ d : ℕ) : ℚ) := by positivity
  have h1 := (abs_le.1 (Fl.abs_rnd_sub_le hp)).2
  -- the unit in the last place
  have hlog : Int.log 2 ((x + 2 ^ d : ℕ) : ℚ) ≤ 63 := by
    rw [Int.log_natCast]
    have : Nat.log 2 (x + 2 ^ d) < 64 := Nat.log_lt_of_lt_pow (by have := Nat.two_pow_pos d; omega) hy
    omega
  have hu : Fl.ulp (x : ℚ) ≤ Fl.ulp ((x + 2 ^ d : ℕ) : ℚ) := by
    unfold Fl.ulp
    apply zpow_le_zpow_right₀ (by norm_num)
    have : Int.log 2 (x : ℚ) ≤ Int.log 2 ((x + 2 ^ d : ℕ) : ℚ) := Int.log_mono_right hp (by push_cast; linarith [show (0 : ℚ) ≤ 2 ^ d by positivity])
    linarith
  set u := Fl.ulp ((x + 2 ^ d : ℕ) : ℚ) with hudef
  have hupos : 0 < u := Fl.ulp_pos _
  obtain ⟨N, hN⟩ : ∃ N : ℤ, ((q : ℚ) + 2) * 2 ^ d = (2 * N : ℤ) * u := by
    have he : Int.log 2 ((x + 2 ^ d : ℕ) : ℚ) - 52 ≤ 11 := by linarith
    rw [hudef]
    unfold Fl.ulp
    generalize Int.log 2 ((x + 2 ^ d : ℕ) : ℚ) - 52 = e at he
    obtain ⟨m, hm⟩ : ∃ m : ℕ, (d : ℤ) - 1 - e = m := ⟨((d : ℤ) - 1 - e).toNat, by omega⟩
    refine ⟨((q : ℤ) + 2) * 2 ^ m, ?_⟩
    have : (2 : ℚ) ^ d = 2 * 2 ^ m * 2 ^ e := by
      have h2 : (d : ℤ) = 1 + (m : ℤ) + e := by omega
      calc (2 : ℚ) ^ d = 2 ^ (d : ℤ) := (zpow_natCast _ _).symm
        _ = 2 * 2 ^ m * 2 ^ e := by rw [h2, zpow_add₀ (by norm_num), zpow_add₀ (by norm_num), zpow_one, zpow_natCast]
    rw [this]
    push_cast
    ring
  have hge : ((2 * N : ℤ) : ℚ) - 1 / 2 ≤ ((x + 2 ^ d : ℕ) : ℚ) / u := by
    rw [le_div_iff₀ hupos, sub_mul, ← hN]
    push_cast
    linarith
  have hre : Fl.roundEven (((2 * N : ℤ) : ℚ) - 1 / 2) = 2 * N := by
    have hfl : ⌊((2 * N : ℤ) : ℚ) - 1 / 2⌋ = 2 * N - 1 := by
      rw [Int.floor_eq_iff]
      push_cast
      constructor <;> linarith
    unfold Fl.roundEven
    rw [hfl]
    have e : ((2 * N : ℤ) : ℚ) - 1 / 2 - ((2 * N - 1 : ℤ) : ℚ) = 1 / 2 := by push_cast; ring
    rw [e, if_neg (lt_irrefl _), if_neg (lt_irrefl _), if_neg (by omega)]
    ring
  have h3 := Fl.roundEven_mono hge
  rw [hre] at h3
  rw [Fl.rnd_of_nonneg hypos.le, Fl.rndPos, if_neg hypos.ne', hN]
  apply mul_le_mul_of_nonneg_right _ hupos.le
  exact_mod_cast h3

theorem bin_lt (κ : Nat) (x : BitVec w) : Spec.bin (2 ^ κ) x < 2 ^ κ := by
  unfold Spec.bin
  have : 0 < 2 ^ κ := by positivity
  omega

/-- The bin of a word of 32 or 64 bits: the top bits, or the next bin for some words at the end of the block. -/
theorem bin_cases (t : WT) (κ : Nat) (hκ : κ ≤ 12) (hκt : κ ≤ t.bits) (x : BitVec t.bits) :
    Spec.bin (2 ^ κ) x = x.toNat / 2 ^ (t.bits - κ) ∨
    Spec.bin (2 ^ κ) x = x.toNat / 2 ^ (t.bits - κ) + 1 ∧ 2 ^ (t.bits - κ) ≤ x.toNat % 2 ^ (t.bits - κ) + 1024 := by
  rw [← Nat.shiftRight_eq_div_pow]
  by_cases ht : t = .u64
  · subst ht
    obtain ⟨i, g1, g2, g3, g4⟩ := C75_top_bits64 κ (by omega) x
    rw [chi2BinIndex_eq _ (Nat.pow_le_pow_right (by norm_num) (by omega))] at g1
    injection g1 with g1
    subst g1
    rcases g2 with g2 | g2
    · exact Or.inl g2
    · by_cases hn : x.toNat % 2 ^ (64 - κ) + 1024 < 2 ^ (64 - κ)
      · exact Or.inl (g4 hn)
      · exact Or.inr ⟨g2, not_lt.1 hn⟩
  · have hb32 : t.bits ≤ 32 := by cases t <;> simp_all [WT.bits]
    have h1 := C75_top_bits κ hκt (by cases t <;> simp [WT.bits]) (by omega) x
    rw [chi2BinIndex_eq _ (Nat.pow_le_pow_right (by norm_num) (by omega))] at h1
    injection h1 with h1
    exact Or.inl h1

theorem bin_next_block64 (κ : Nat) (hκ : κ ≤ 12) (x y : BitVec 64) (hy : y.toNat = x.toNat + 2 ^ (64 - κ))
    (h : Spec.bin (2 ^ κ) x = x.toNat / 2 ^ (64 - κ) + 1) (hlast : y.toNat / 2 ^ (64 - κ) + 1 < 2 ^ κ) :
    Spec.bin (2 ^ κ) y = y.toNat / 2 ^ (64 - κ) + 1 := by
  have e := bin64 κ x (by omega)
  have e' := bin64 κ y (by omega)
  have hc := bin_cases .u64 κ hκ (hκ.trans (by decide)) y
  change Spec.bin (2 ^ κ) y = y.toNat / 2 ^ (64 - κ) ∨ Spec.bin (2 ^ κ) y = y.toNat / 2 ^ (64 - κ) + 1 ∧ _ at hc
  have hc' := hc.imp_right And.left
  clear hc
  have hd : 12 ≤ 64 - κ := by omega
  have hyl := y.isLt
  rw [e] at h
  rw [e'] at hc' ⊢
  clear e e'
  generalize 64 - κ = d at *
  generalize x.toNat = a at *
  generalize y.toNat = b at *
  generalize 2 ^ κ = B at *
  subst hy
  have hdp : 0 < 2 ^ d := by positivity
  have hdiv : (a + 2 ^ d) / 2 ^ d = a / 2 ^ d + 1 := Nat.add_div_right _ hdp
  rw [hdiv] at hlast hc' ⊢
  have hlt : a < (a / 2 ^ d + 1) * 2 ^ d := by
    rw [mul_comm]; exact Nat.lt_mul_div_succ a hdp
  generalize a / 2 ^ d = q at *
  have hfl : (q : ℤ) + 1 ≤ ⌊Fl.rnd (a : ℚ) / 2 ^ d⌋ := by omega
  have hD : (0 : ℚ) < 2 ^ d := by positivity
  rw [Int.le_floor, le_div_iff₀ hD] at hfl
  push_cast at hfl
  have ha0 : 0 < a := by
    rcases Nat.eq_zero_or_pos a with h0 | h0
    · subst h0
      rw [Nat.cast_zero, Fl.rnd_zero] at hfl
      have : (0 : ℚ) < ((q : ℚ) + 1) * 2 ^ d := by positivity
      linarith
    · exact h0
  have h2 := rnd_next_block d a q hd ha0 hyl hfl
  have hge : (q : ℤ) + 2 ≤ ⌊Fl.rnd ((a + 2 ^ d : ℕ) : ℚ) / 2 ^ d⌋ := by
    rw [Int.le_floor, le_div_iff₀ hD]
    push_cast
    push_cast at h2
    exact h2
  omega

theorem bin_next_block (t : WT) (κ : Nat) (hκ : κ ≤ 12) (hκt : κ ≤ t.bits) (x y : BitVec t.bits) (hy : y.toNat = x.toNat + 2 ^ (t.bits - κ))
    (h : Spec.bin (2 ^ κ) x = x.toNat / 2 ^ (t.bits - κ) + 1) (hlast : y.toNat / 2 ^ (t.bits - κ) + 1 < 2 ^ κ) :
    Spec.bin (2 ^ κ) y = y.toNat / 2 ^ (t.bits - κ) + 1 := by
  by_cases ht : t = .u64
  · subst ht
    exact bin_next_block64 κ hκ x y hy h hlast
  · have hb32 : t.bits ≤ 32 := by cases t <;> simp_all [WT.bits]
    have h1 := C75_top_bits κ hκt (by cases t <;> simp [WT.bits]) (by omega) x
    rw [chi2BinIndex_eq _ (Nat.pow_le_pow_right (by norm_num) (by omega))] at h1
    injection h1 with h1
    rw [h, Nat.shiftRight_eq_div_pow] at h1
    omega

/-! ### A chi-square statistic that is too small -/

open MeasureTheory ProbabilityTheory Set in
/-- A bound of the lower tail of the chi-square law. -/
theorem chiSquare_lower_tail (k x : ℝ) (hk : 0 < k) :
    (Spec.chiSquareLaw k).real (Iic x) ≤ Real.exp (x / 2) * (1 / 2) ^ (k / 2) := by
  have hpos : (0 : ℝ) ≤ Real.exp (x / 2) * (1 / 2) ^ (k / 2) := by positivity
  have hprob : IsProbabilityMeasure (gammaMeasure (k / 2) 1) := isProbabilityMeasure_gammaMeasure (by linarith) (by norm_num)
  have hpdf : ∀ y, gammaPDFReal (k / 2) (1 / 2) y = (1 / 2) ^ (k / 2) * Real.exp (y / 2) * gammaPDFReal (k / 2) 1 y := by
    intro y
    unfold gammaPDFReal
    split_ifs with h
    · have e2 : Real.exp (-(1 / 2 * y)) = Real.exp (y / 2) * Real.exp (-(1 * y)) := by
        rw [← Real.exp_add]; congr 1; ring
      rw [e2, Real.one_rpow]; ring
    · simp
  unfold Measure.real Spec.chiSquareLaw
  apply ENNReal.toReal_le_of_le_ofReal hpos
  calc gammaMeasure (k / 2) (1 / 2) (Iic x) = ∫⁻ y in Iic x, gammaPDF (k / 2) (1 / 2) y := by
        unfold gammaMeasure; rw [withDensity_apply _ measurableSet_Iic]
    _ ≤ ∫⁻ y in Iic x, ENNReal.ofReal (Real.exp (x / 2) * (1 / 2) ^ (k / 2)) * gammaPDF (k / 2) 1 y := by
        apply setLIntegral_mono' measurableSet_Iic
        intro y hy
        unfold gammaPDF
        rw [← ENNReal.ofReal_mul hpos, hpdf]
        apply ENNReal.ofReal_le_ofReal
        apply mul_le_mul_of_nonneg_right _ (gammaPDFReal_nonneg (by linarith) (by norm_num) y)
        rw [mul_comm]
        apply mul_le_mul_of_nonneg_right _ (by positivity)
        apply Real.exp_le_exp.2
        have : y ≤ x := hy
        linarith
    _ = ENNReal.ofReal (Real.exp (x / 2) * (1 / 2) ^ (k / 2)) * gammaMeasure (k / 2) 1 (Iic x) := by
        rw [lintegral_const_mul' _ _ ENNReal.ofReal_ne_top]
        unfold gammaMeasure; rw [withDensity_apply _ measurableSet_Iic]
    _ ≤ ENNReal.ofReal (Real.exp (x / 2) * (1 / 2) ^ (k / 2)) * 1 := by gcongr; exact prob_le_one
    _ = _ := mul_one _

private theorem exp21 : Real.exp (-21) < 8 / 10 ^ 10 := by
  rw [Real.exp_neg, inv_lt_comm₀ (Real.exp_pos _) (by norm_num)]
  have h := Real.exp_one_gt_d9
  have : Real.exp 21 = Real.exp 1 ^ 21 := by rw [← Real.exp_nat_mul]; norm_num
  rw [this]
  calc ((8 : ℝ) / 10 ^ 10)⁻¹ < 2.7182818283 ^ 21 := by norm_num
    _ ≤ _ := pow_le_pow_left₀ (by norm_num) h.le 21

/-- A chi-square statistic of at most a third of the degrees of freedom is a failure: the sample is too even. -/
theorem C132_too_small (x df : ℝ) (hx0 : 0 ≤ x) (hdf : 120 ≤ df) (hdf2 : df < 1100000) (hx : 3 * x ≤ df) :
    1 - 1 / 10 ^ 9 ≤ chi2DistributionCdf x df ∧ comparableP ⟨.chi2, x, chi2DistributionCdf x df, df⟩ ≤ 1 / 10 ^ 9 ∧
    statPass ⟨.chi2, x, chi2DistributionCdf x df, df⟩ = false := by
  have h := abs_le.1 (C90_large_p_values x df hx0 (by linarith) hdf2 (Or.inr (by linarith)))
  have ht := chiSquare_lower_tail df x (by linarith)
  have hle : Real.exp (x / 2) * (1 / 2) ^ (df / 2) ≤ Real.exp (-21) := by
    rw [Real.rpow_def_of_pos (by norm_num), ← Real.exp_add]
    apply Real.exp_le_exp.2
    have h2 := Real.log_two_gt_d9
    rw [show (1 / 2 : ℝ) = 2⁻¹ by norm_num, Real.log_inv]
    nlinarith
  have hexp := exp21
  have h0 : 0 ≤ (Spec.chiSquareLaw df).real (Set.Iic x) := MeasureTheory.measureReal_nonneg
  have hp : 1 - 1 / 10 ^ 9 ≤ chi2DistributionCdf x df := by
    have : 1 - chi2DistributionCdf x df ≤ (1 + 2 / 10 ^ 11) * (Spec.chiSquareLaw df).real (Set.Iic x) := by linarith [h.2]
    norm_num at *
    nlinarith
  have hc : comparableP ⟨.chi2, x, chi2DistributionCdf x df, df⟩ ≤ 1 / 10 ^ 9 := by
    unfold comparableP
    rw [if_neg (by simp)]
    refine (min_le_right _ _).trans ?_
    dsimp only
    linarith
  refine ⟨hp, hc, ?_⟩
  rw [← Bool.not_eq_true, (C66_classes _ (hc.trans (by norm_num))).1, not_lt]
  exact hc

section
open Finset


/-- The words whose bits outside `F` are all `c`. -/
noncomputable def cube (F : Finset ℕ) (c : Bool) : Finset (BitVec w) := by
  classical exact univ.filter fun v => ∀ p < w, p ∉ F → v.getLsbD p = c

theorem mem_cube (F : Finset ℕ) (c : Bool) (v : BitVec w) : v ∈ cube F c ↔ ∀ p < w, p ∉ F → v.getLsbD p = c := by
  unfold cube; simp

/-- Bit `p` flipped. -/
def toggleBit (p : Nat) (v : BitVec w) : BitVec w := v ^^^ BitVec.twoPow w p

theorem toggle_bit (p q : Nat) (hq : q < w) (v : BitVec w) : (toggleBit p v).getLsbD q = (v.getLsbD q != decide (p = q)) := by
  unfold toggleBit
  rw [BitVec.getLsbD_xor, BitVec.getLsbD_twoPow]
  by_cases h : p = q
  · subst h; simp [hq]
  · simp [h]

theorem toggle_toggle (p : Nat) (v : BitVec w) : toggleBit p (toggleBit p v) = v := by
  unfold toggleBit; rw [BitVec.xor_assoc, BitVec.xor_self, BitVec.xor_zero]

/-- Half: a set of words all with bit `p`, in a set closed under flipping it. -/
theorem double_set (X Z : Finset (BitVec w)) (p : Nat) (hp : p < w) (hX : ∀ v ∈ X, v.getLsbD p = true) (hXZ : X ⊆ Z)
    (hZ : ∀ v ∈ Z, toggleBit p v ∈ Z) : ∃ Y ⊆ Z, Y.card = 2 * X.card ∧ ∀ q < w, q ≠ p → (∀ v ∈ X, v.getLsbD q = true) → ∀ v ∈ Y, v.getLsbD q = true := by
  classical
  refine ⟨X ∪ X.image (toggleBit p), ?_, ?_, ?_⟩
  · intro v hv
    rcases mem_union.1 hv with h | h
    · exact hXZ h
    · obtain ⟨u, hu, rfl⟩ := mem_image.1 h
      exact hZ _ (hXZ hu)
  · rw [card_union_of_disjoint, card_image_of_injective]
    · omega
    · intro a b h
      rw [← toggle_toggle p a, ← toggle_toggle p b, h]
    · rw [disjoint_left]
      intro v hv h
      obtain ⟨u, hu, rfl⟩ := mem_image.1 h
      have h1 := hX _ hv
      rw [toggle_bit p p hp, hX u hu] at h1
      simp at h1
  · intro q hq hqp hXq v hv
    rcases mem_union.1 hv with h | h
    · exact hXq v h
    · obtain ⟨u, hu, rfl⟩ := mem_image.1 h
      rw [toggle_bit p q hq, hXq u hu, decide_eq_false (fun e => hqp e.symm)]
      rfl

/-- At most an eighth of the words have three free bits set. -/
theorem eighth (X Z : Finset (BitVec w)) (W : Finset ℕ) (hW : 3 ≤ W.card) (hWw : ∀ p ∈ W, p < w) (hX : ∀ p ∈ W, ∀ v ∈ X, v.getLsbD p = true)
    (hXZ : X ⊆ Z) (hZ : ∀ p ∈ W, ∀ v ∈ Z, toggleBit p v ∈ Z) : 8 * X.card ≤ Z.card := by
  obtain ⟨W', hW', h3⟩ := exists_subset_card_eq hW
  obtain ⟨a, b, c, hab, hac, hbc, rfl⟩ := card_eq_three.1 h3
  have ha : a ∈ W := hW' (by simp)
  have hb : b ∈ W := hW' (by simp)
  have hc : c ∈ W := hW' (by simp)
  obtain ⟨Y, h1, h2, h3⟩ := double_set X Z a (hWw a ha) (hX a ha) hXZ (hZ a ha)
  obtain ⟨Y', g1, g2, g3⟩ := double_set Y Z b (hWw b hb) (h3 b (hWw b hb) hab.symm (hX b hb)) h1 (hZ b hb)
  obtain ⟨Y'', k1, k2, -⟩ := double_set Y' Z c (hWw c hc) (g3 c (hWw c hc) hbc.symm (h3 c (hWw c hc) hac.symm (hX c hc))) g1 (hZ c hc)
  have := card_le_card k1
  omega

theorem testBit_toNat (v : BitVec w) (q : Nat) : v.toNat.testBit q = v.getLsbD q := rfl

/-- The bits of a word at the end of its block. -/
theorem end_bits (s q : Nat) (hq : 10 ≤ q) (hqs : q < s) (v : BitVec w) (h : 2 ^ s ≤ v.toNat % 2 ^ s + 1024) : v.getLsbD q = true := by
  rw [← testBit_toNat]
  have h1 : v.toNat.testBit q = (v.toNat % 2 ^ s).testBit q := by
    rw [Nat.testBit_mod_two_pow]; simp [hqs]
  have hlt : v.toNat % 2 ^ s < 2 ^ s := Nat.mod_lt _ (by positivity)
  rw [h1]
  generalize v.toNat % 2 ^ s = r at *
  have e : 2 ^ s = 2 ^ (s - 10) * 1024 := by
    rw [show (1024 : ℕ) = 2 ^ 10 by norm_num, ← pow_add]; congr 1; omega
  have hdiv : r / 2 ^ 10 = 2 ^ (s - 10) - 1 := by
    have hp : 0 < 2 ^ (s - 10) := by positivity
    rw [e] at h hlt
    norm_num
    generalize 2 ^ (s - 10) = m at *
    omega
  have h2 : r.testBit q = (r / 2 ^ 10).testBit (q - 10) := by
    rw [Nat.testBit_div_two_pow]; congr 1; omega
  rw [h2, hdiv, Nat.testBit_two_pow_sub_one]
  simp; omega

/-- The word with its block replaced. -/
def inBlock (s b : Nat) (v : BitVec w) : BitVec w := BitVec.ofNat w (b * 2 ^ s + v.toNat % 2 ^ s)

theorem inBlock_toNat (s κ b : Nat) (hw : w = s + κ) (hb : b < 2 ^ κ) (v : BitVec w) : (inBlock s b v).toNat = b * 2 ^ s + v.toNat % 2 ^ s := by
  unfold inBlock
  have hm : v.toNat % 2 ^ s < 2 ^ s := Nat.mod_lt _ (by positivity)
  rw [BitVec.toNat_ofNat, Nat.mod_eq_of_lt]
  calc b * 2 ^ s + v.toNat % 2 ^ s < (b + 1) * 2 ^ s := by rw [add_mul]; omega
    _ ≤ 2 ^ κ * 2 ^ s := Nat.mul_le_mul_right _ hb
    _ = 2 ^ w := by rw [hw, pow_add]; ring

theorem inBlock_div (s κ b : Nat) (hw : w = s + κ) (hb : b < 2 ^ κ) (v : BitVec w) : (inBlock s b v).toNat / 2 ^ s = b := by
  rw [inBlock_toNat s κ b hw hb, mul_comm, Nat.mul_add_div (by positivity), Nat.div_eq_of_lt (Nat.mod_lt _ (by positivity)), add_zero]

theorem inBlock_mod (s κ b : Nat) (hw : w = s + κ) (hb : b < 2 ^ κ) (v : BitVec w) : (inBlock s b v).toNat % 2 ^ s = v.toNat % 2 ^ s := by
  rw [inBlock_toNat s κ b hw hb, mul_comm, Nat.mul_add_mod, Nat.mod_mod]

theorem inBlock_cube (F : Finset ℕ) (c : Bool) (s κ b : Nat) (hw : w = s + κ) (hb : b < 2 ^ κ) (hF : ∀ p < w, s ≤ p → p ∈ F) (v : BitVec w)
    (hv : v ∈ cube F c) : inBlock s b v ∈ cube F c := by
  rw [mem_cube] at hv ⊢
  intro p hp hpF
  have hps : p < s := by
    by_contra h
    exact hpF (hF p hp (by omega))
  rw [← hv p hp hpF, ← testBit_toNat, ← testBit_toNat]
  have h1 : ∀ x : Nat, x.testBit p = (x % 2 ^ s).testBit p := fun x => by
    rw [Nat.testBit_mod_two_pow]; simp [hps]
  rw [h1, inBlock_mod s κ b hw hb, ← h1]

theorem inBlock_inj (s κ b b' : Nat) (hw : w = s + κ) (hb : b < 2 ^ κ) (u v : BitVec w) (hu : u.toNat / 2 ^ s = b') (hv : v.toNat / 2 ^ s = b')
    (h : inBlock s b u = inBlock s b v) : u = v := by
  have h1 := congrArg (fun x => x.toNat % 2 ^ s) h
  simp only [inBlock_mod s κ b hw hb] at h1
  apply BitVec.eq_of_toNat_eq
  rw [← Nat.div_add_mod u.toNat (2 ^ s), ← Nat.div_add_mod v.toNat (2 ^ s), h1, hu, hv]

theorem toggle_block (s p : Nat) (hp : p < s) (v : BitVec w) : (toggleBit p v).toNat / 2 ^ s = v.toNat / 2 ^ s := by
  apply Nat.eq_of_testBit_eq
  intro i
  rw [Nat.testBit_div_two_pow, Nat.testBit_div_two_pow, testBit_toNat, testBit_toNat]
  by_cases h : i + s < w
  · rw [toggle_bit p _ h, decide_eq_false (by omega)]
    simp
  · rw [BitVec.getLsbD_of_ge _ _ (by omega), BitVec.getLsbD_of_ge _ _ (by omega)]

theorem toggle_cube (F : Finset ℕ) (c : Bool) (p : Nat) (hp : p ∈ F) (v : BitVec w) (hv : v ∈ cube F c) : toggleBit p v ∈ cube F c := by
  rw [mem_cube] at hv ⊢
  intro q hq hqF
  rw [toggle_bit p q hq, hv q hq hqF, decide_eq_false (by rintro rfl; exact hqF hp)]
  simp

/-- The free bits between the lowest ten and the top `κ` bits. -/
theorem window_card (F : Finset ℕ) (s κ : Nat) (hw : w = s + κ) (hF : ∀ p ∈ F, p < w) (hc : 25 ≤ F.card) (hκ : κ ≤ 12) :
    3 ≤ (F.filter fun p => 10 ≤ p ∧ p < s).card := by
  have h : F ⊆ (F.filter fun p => 10 ≤ p ∧ p < s) ∪ range 10 ∪ Ico s w := by
    intro p hp
    have := hF p hp
    simp only [mem_union, mem_filter, mem_range, mem_Ico]
    by_cases h1 : p < 10
    · exact Or.inl (Or.inr h1)
    · by_cases h2 : p < s
      · exact Or.inl (Or.inl ⟨hp, by omega, h2⟩)
      · exact Or.inr ⟨by omega, this⟩
  have h1 := card_le_card h
  have h2 := card_union_le ((F.filter fun p => 10 ≤ p ∧ p < s) ∪ range 10) (Ico s w)
  have h3 := card_union_le (F.filter fun p => 10 ≤ p ∧ p < s) (range 10)
  rw [card_range] at h3
  rw [Nat.card_Ico] at h2
  omega

/-- The sum of the squares of the steps up is at most the square of the end. -/
theorem sum_steps (a : ℕ → ℝ) (h0 : a 0 = 0) (m : ℕ) (hmono : ∀ b < m, a b ≤ a (b + 1)) :
    0 ≤ a m ∧ ∑ b ∈ range m, (a b - a (b + 1)) ^ 2 ≤ a m ^ 2 := by
  induction m with
  | zero => simp [h0]
  | succ m ih =>
    obtain ⟨h1, h2⟩ := ih fun b hb => hmono b (by omega)
    have h3 := hmono m (by omega)
    refine ⟨h1.trans h3, ?_⟩
    rw [sum_range_succ]
    nlinarith


/-! ### The bins of a cube -/

open Classical in
/-- The number of words of the cube in bin `b`. -/
noncomputable def cubeHits (F : Finset ℕ) (c : Bool) (κ : Nat) (w b : Nat) : Nat := ((cube F c : Finset (BitVec w)).filter fun v => Spec.bin (2 ^ κ) v = b).card

open Classical in
/-- The number of words of the cube in block `b`. -/
noncomputable def cubeBlock (F : Finset ℕ) (c : Bool) (κ : Nat) (w b : Nat) : Nat :=
  ((cube F c : Finset (BitVec w)).filter fun v => v.toNat / 2 ^ (w - κ) = b).card

open Classical in
/-- The number of words of the block before `b` that are in bin `b`. -/
noncomputable def carries (F : Finset ℕ) (c : Bool) (κ : Nat) (w b : Nat) : Nat :=
  ((cube F c : Finset (BitVec w)).filter fun v => v.toNat / 2 ^ (w - κ) + 1 = b ∧ Spec.bin (2 ^ κ) v = b).card

section cube
variable (t : WT) (F : Finset ℕ) (c : Bool) (κ : Nat)

theorem off_top (hκ : κ ≤ 12) (ht : 32 ≤ t.bits) (v : BitVec t.bits) (h : Spec.bin (2 ^ κ) v ≠ v.toNat / 2 ^ (t.bits - κ)) (q : Nat) (hq : 10 ≤ q)
    (hqs : q < t.bits - κ) : v.getLsbD q = true := by
  rcases bin_cases t κ hκ (by omega) v with h1 | ⟨-, h1⟩
  · exact absurd h1 h
  · exact end_bits _ q hq hqs v h1

open Classical in
theorem few_off (hκ : κ ≤ 12) (ht : 32 ≤ t.bits) (hF : ∀ p ∈ F, p < t.bits) (hc : 25 ≤ F.card) :
    8 * ((cube F c : Finset (BitVec t.bits)).filter fun v => Spec.bin (2 ^ κ) v ≠ v.toNat / 2 ^ (t.bits - κ)).card ≤
      (cube F c : Finset (BitVec t.bits)).card := by
  refine eighth _ _ (F.filter fun p => 10 ≤ p ∧ p < t.bits - κ) (window_card F (t.bits - κ) κ (by omega) hF hc hκ) ?_ ?_ (filter_subset _ _) ?_
  · intro p hp
    exact hF p (mem_filter.1 hp).1
  · intro p hp v hv
    obtain ⟨-, h1, h2⟩ := mem_filter.1 hp
    exact off_top t κ hκ ht v (mem_filter.1 hv).2 p h1 h2
  · intro p hp v hv
    exact toggle_cube F c p (mem_filter.1 hp).1 v hv

theorem few_carries (hκ : κ ≤ 12) (ht : 32 ≤ t.bits) (hF : ∀ p ∈ F, p < t.bits) (hc : 25 ≤ F.card) (b : Nat) :
    8 * carries F c κ t.bits (b + 1) ≤ cubeBlock F c κ t.bits b := by
  classical
  unfold carries cubeBlock
  refine eighth _ _ (F.filter fun p => 10 ≤ p ∧ p < t.bits - κ) (window_card F (t.bits - κ) κ (by omega) hF hc hκ) ?_ ?_ ?_ ?_
  · intro p hp
    exact hF p (mem_filter.1 hp).1
  · intro p hp v hv
    obtain ⟨-, h1, h2⟩ := mem_filter.1 hp
    obtain ⟨-, h3, h4⟩ := mem_filter.1 hv
    exact off_top t κ hκ ht v (by omega) p h1 h2
  · intro v hv
    obtain ⟨h1, h3, h4⟩ := mem_filter.1 hv
    exact mem_filter.2 ⟨h1, by omega⟩
  · intro p hp v hv
    obtain ⟨h0, h1, h2⟩ := mem_filter.1 hp
    obtain ⟨h3, h4⟩ := mem_filter.1 hv
    exact mem_filter.2 ⟨toggle_cube F c p h0 v h3, by rw [toggle_block _ p h2]; exact h4⟩

theorem block_le (hκt : κ ≤ t.bits) (htop : ∀ p < t.bits, t.bits - κ ≤ p → p ∈ F) (b b' : Nat) (hb' : b' < 2 ^ κ) :
    cubeBlock F c κ t.bits b ≤ cubeBlock F c κ t.bits b' := by
  classical
  unfold cubeBlock
  refine card_le_card_of_injOn (inBlock (t.bits - κ) b') ?_ ?_
  · intro v hv
    rw [mem_coe, mem_filter] at hv ⊢
    exact ⟨inBlock_cube F c _ κ b' (by omega) hb' htop v hv.1, inBlock_div _ κ b' (by omega) hb' v⟩
  · intro u hu v hv h
    rw [mem_coe, mem_filter] at hu hv
    exact inBlock_inj _ κ b' b (by omega) hb' u v hu.2 hv.2 h

theorem block_card (hκt : κ ≤ t.bits) (htop : ∀ p < t.bits, t.bits - κ ≤ p → p ∈ F) (b : Nat) (hb : b < 2 ^ κ) :
    cubeBlock F c κ t.bits b * 2 ^ κ = (cube F c : Finset (BitVec t.bits)).card := by
  classical
  rw [card_eq_sum_card_fiberwise (f := fun v : BitVec t.bits => v.toNat / 2 ^ (t.bits - κ)) (t := range (2 ^ κ))]
  · rw [sum_congr rfl (g := fun _ => cubeBlock F c κ t.bits b), sum_const, card_range, smul_eq_mul, mul_comm]
    intro b' hb'
    exact le_antisymm (block_le t F c κ hκt htop b' b hb) (block_le t F c κ hκt htop b b' (mem_range.1 hb'))
  · intro v _
    rw [mem_coe, mem_range, Nat.div_lt_iff_lt_mul (by positivity), ← pow_add, show κ + (t.bits - κ) = t.bits by omega]
    exact v.isLt

theorem carries_mono (hκ : κ ≤ 12) (ht : 32 ≤ t.bits) (htop : ∀ p < t.bits, t.bits - κ ≤ p → p ∈ F) (b : Nat) (hb : b + 1 < 2 ^ κ) :
    carries F c κ t.bits b ≤ carries F c κ t.bits (b + 1) := by
  classical
  unfold carries
  refine card_le_card_of_injOn (inBlock (t.bits - κ) b) ?_ ?_
  · intro v hv
    rw [mem_coe, mem_filter] at hv ⊢
    obtain ⟨h1, h2, h3⟩ := hv
    have hdiv := inBlock_div (t.bits - κ) κ b (by omega) (by omega) v
    refine ⟨inBlock_cube F c _ κ b (by omega) (by omega) htop v h1, by rw [hdiv], ?_⟩
    have hn := bin_next_block t κ hκ (by omega) v (inBlock (t.bits - κ) b v) ?_ (by rw [h3, h2]) (by rw [hdiv]; exact hb)
    · rw [hn, hdiv]
    rw [inBlock_toNat _ κ b (by omega) (by omega)]
    have := Nat.div_add_mod v.toNat (2 ^ (t.bits - κ))
    rw [← h2, add_mul, one_mul]
    rw [mul_comm] at this
    omega
  · intro u hu v hv h
    rw [mem_coe, mem_filter] at hu hv
    exact inBlock_inj _ κ b (b - 1) (by omega) (by omega) u v (Nat.eq_sub_of_add_eq hu.2.1) (Nat.eq_sub_of_add_eq hv.2.1) h

theorem carries_zero : carries F c κ t.bits 0 = 0 := by
  unfold carries
  rw [card_eq_zero, filter_eq_empty_iff]
  rintro v - ⟨h, -⟩
  exact Nat.succ_ne_zero _ h

theorem carries_last : carries F c κ t.bits (2 ^ κ) = 0 := by
  unfold carries
  rw [card_eq_zero, filter_eq_empty_iff]
  rintro v - ⟨-, h⟩
  have := bin_lt κ v
  omega

theorem hits_eq (hκ : κ ≤ 12) (hκt : κ ≤ t.bits) (b : Nat) :
    cubeHits F c κ t.bits b + carries F c κ t.bits (b + 1) = cubeBlock F c κ t.bits b + carries F c κ t.bits b := by
  classical
  unfold cubeHits carries cubeBlock
  rw [← card_union_of_disjoint, ← card_union_of_disjoint]
  · congr 1
    ext v
    simp only [mem_union, mem_filter]
    rcases bin_cases t κ hκ hκt v with h | ⟨h, -⟩
    · rw [h]
      constructor
      · rintro (⟨h1, h2⟩ | ⟨h1, h2, h3⟩)
        · exact Or.inl ⟨h1, h2⟩
        · omega
      · rintro (⟨h1, h2⟩ | ⟨h1, h2, h3⟩)
        · exact Or.inl ⟨h1, h2⟩
        · omega
    · rw [h]
      constructor
      · rintro (⟨h1, h2⟩ | ⟨h1, h2, h3⟩)
        · exact Or.inr ⟨h1, h2, h2⟩
        · exact Or.inl ⟨h1, by omega⟩
      · rintro (⟨h1, h2⟩ | ⟨h1, h2, h3⟩)
        · exact Or.inr ⟨h1, by omega, by omega⟩
        · exact Or.inl ⟨h1, by omega⟩
  · rw [disjoint_left]
    intro v h1 h2
    have := (mem_filter.1 h1).2
    have := (mem_filter.1 h2).2.1
    omega
  · rw [disjoint_left]
    intro v h1 h2
    have := (mem_filter.1 h1).2
    have := (mem_filter.1 h2).2.2
    omega

/-- The bins of a cube whose top bits are free are almost even. -/
theorem cube_even (hκ : κ ≤ 12) (ht : 32 ≤ t.bits) (hF : ∀ p ∈ F, p < t.bits) (hc : 25 ≤ F.card)
    (htop : ∀ p < t.bits, t.bits - κ ≤ p → p ∈ F) (E : ℝ) (hE : E * 2 ^ κ = ((cube F c : Finset (BitVec t.bits)).card : ℝ)) :
    (∀ b < 2 ^ κ, |(cubeHits F c κ t.bits b : ℝ) - E| ≤ E / 8) ∧
    ∑ b ∈ range (2 ^ κ), ((cubeHits F c κ t.bits b : ℝ) - E) ^ 2 ≤ 2 * (E / 8) ^ 2 := by
  have hblk : ∀ b < 2 ^ κ, (cubeBlock F c κ t.bits b : ℝ) = E := by
    intro b hb
    have h1 := block_card t F c κ (by omega) htop b hb
    have h2 : (cubeBlock F c κ t.bits b : ℝ) * 2 ^ κ = E * 2 ^ κ := by rw [hE]; exact_mod_cast h1
    exact mul_right_cancel₀ (by positivity) h2
  set a : ℕ → ℝ := fun b => (carries F c κ t.bits b : ℝ) 
  have aeq : ∀ b, a b = (carries F c κ t.bits b : ℝ) := fun _ => rfl
  clear_value a
  have hpos : 0 < 2 ^ κ := by positivity
  have hE0 : 0 ≤ E := by rw [← hblk 0 hpos]; positivity
  have hd : ∀ b < 2 ^ κ, (cubeHits F c κ t.bits b : ℝ) - E = a b - a (b + 1) := by
    intro b hb
    have h1 : (cubeHits F c κ t.bits b : ℝ) + a (b + 1) = cubeBlock F c κ t.bits b + a b := by
      rw [aeq, aeq]; exact_mod_cast hits_eq t F c κ hκ (by omega) b
    rw [hblk b hb] at h1
    linarith
  have ha0 : a 0 = 0 := by rw [aeq]; exact_mod_cast carries_zero t F c κ
  have hnn : ∀ b, 0 ≤ a b := fun b => by rw [aeq]; exact Nat.cast_nonneg _
  have hle : ∀ b ≤ 2 ^ κ, a b ≤ E / 8 := by
    intro b hb
    rcases b with _ | b
    · rw [ha0]; positivity
    · have h1 : 8 * a (b + 1) ≤ cubeBlock F c κ t.bits b := by rw [aeq]; exact_mod_cast few_carries t F c κ hκ ht hF hc b
      rw [hblk b (by omega)] at h1
      linarith
  constructor
  · intro b hb
    rw [hd b hb, abs_le]
    have h1 := hle b hb.le
    have h2 := hle (b + 1) hb
    have h3 := hnn b
    have h4 := hnn (b + 1)
    constructor <;> linarith
  · rw [sum_congr rfl (g := fun b => (a b - a (b + 1)) ^ 2) (fun b hb => by rw [hd b (mem_range.1 hb)])]
    obtain ⟨m, hm⟩ : ∃ m, 2 ^ κ = m + 1 := ⟨2 ^ κ - 1, by omega⟩
    rw [hm, sum_range_succ]
    have hlast : a (m + 1) = 0 := by rw [← hm, aeq]; exact_mod_cast carries_last t F c κ
    obtain ⟨h1, h2⟩ := sum_steps a ha0 m (fun b hb => by
      have := carries_mono t F c κ hκ ht htop b (by omega)
      rw [aeq, aeq]; exact_mod_cast this)
    rw [hlast, sub_zero]
    have h3 := hle m (by omega)
    have h4 : a m ^ 2 ≤ (E / 8) ^ 2 := pow_le_pow_left₀ h1 h3 2
    linarith

end cube

/-! ### The views of the counter -/

/-- The counter from 1 instead of 0. -/
theorem shift_count {α : Type} (g : Nat → α) (P : α → Prop) [DecidablePred P] (n : Nat) :
    ((range n).filter fun i => P (g (i + 1))).card + (if P (g 0) then 1 else 0) = ((range n).filter fun i => P (g i)).card + (if P (g n) then 1 else 0) := by
  rw [card_filter, card_filter, ← sum_range_succ' (fun i => if P (g i) then 1 else 0), ← sum_range_succ (fun i => if P (g i) then 1 else 0)]

/-- The value of the view when the counter is `c`. -/
def viewAt (t : WT) (rot : Nat) (ty : RrcType) (c : Nat) : BitVec t.bits := permute t (BitVec.ofNat t.bits c) rot ty

/-- The bits of the view that change within `2^25` values. -/
def freeBits (t : WT) (rot : Nat) (ty : RrcType) : Finset ℕ := (range t.bits).filter fun p => fromBit t.bits rot ty p < 25

theorem freeBits_card (t : WT) (ht : 32 ≤ t.bits) (rot : Nat) (hrot : rot < t.bits) (ty : RrcType) : 25 ≤ (freeBits t rot ty).card := by
  have h : (range 25).card ≤ (freeBits t rot ty).card := by
    refine card_le_card_of_surjOn (fromBit t.bits rot ty) ?_
    intro l hl
    rw [mem_coe, mem_range] at hl
    obtain ⟨p, hp, rfl⟩ := fromBit_onto t.bits rot hrot ty l (by omega)
    exact ⟨p, by rw [mem_coe]; exact mem_filter.2 ⟨mem_range.2 hp, hl⟩, rfl⟩
  rwa [card_range] at h

theorem viewAt_inj (t : WT) (ht : 32 ≤ t.bits) (rot : Nat) (ty : RrcType) (a b : Nat) (ha : a < 2 ^ 25) (hb : b < 2 ^ 25)
    (h : viewAt t rot ty a = viewAt t rot ty b) : a = b := by
  have h32 : 2 ^ 32 ≤ 2 ^ t.bits := Nat.pow_le_pow_right (by norm_num) ht
  have h2 := congrArg BitVec.toNat ((C10_permute_bijective t rot ty).1 h)
  rw [BitVec.toNat_ofNat, BitVec.toNat_ofNat, Nat.mod_eq_of_lt (by omega), Nat.mod_eq_of_lt (by omega)] at h2
  exact h2

theorem view_cube (t : WT) (ht : 32 ≤ t.bits) (rot : Nat) (hrot : rot < t.bits) (ty : RrcType) :
    (range (2 ^ 25)).image (viewAt t rot ty) = cube (freeBits t rot ty) (complements ty) := by
  have h32 : 2 ^ 32 ≤ 2 ^ t.bits := Nat.pow_le_pow_right (by norm_num) ht
  ext v
  rw [mem_image, mem_cube]
  constructor
  · rintro ⟨c, hc, rfl⟩ p hp hpF
    rw [mem_range] at hc
    have hσ : 25 ≤ fromBit t.bits rot ty p := by
      by_contra h
      exact hpF (mem_filter.2 ⟨mem_range.2 hp, by omega⟩)
    unfold viewAt
    rw [permute_bit t _ rot ty p hp, BitVec.getLsbD_ofNat, Nat.testBit_lt_two_pow (lt_of_lt_of_le hc (Nat.pow_le_pow_right (by norm_num) hσ))]
    simp
  · intro h
    obtain ⟨x, hx⟩ := (C10_permute_bijective t rot ty).2 v
    have hx : permute t x rot ty = v := hx
    have hlt : x.toNat < 2 ^ 25 := by
      apply Nat.lt_pow_two_of_testBit
      intro i hi
      rw [testBit_toNat]
      by_cases hiw : i < t.bits
      · obtain ⟨p, hp, hpi⟩ := fromBit_onto t.bits rot hrot ty i hiw
        have h1 := h p hp (by
          intro hmem
          have := (mem_filter.1 hmem).2
          omega)
        rw [← hx, permute_bit t _ rot ty p hp, hpi] at h1
        generalize x.getLsbD i = y at h1
        revert h1
        cases y <;> cases complements ty <;> simp
      · exact BitVec.getLsbD_of_ge _ _ (by omega)
    refine ⟨x.toNat, mem_range.2 hlt, ?_⟩
    unfold viewAt
    rw [BitVec.ofNat_toNat, BitVec.setWidth_eq, hx]

theorem cube_card (t : WT) (ht : 32 ≤ t.bits) (rot : Nat) (hrot : rot < t.bits) (ty : RrcType) :
    (cube (freeBits t rot ty) (complements ty) : Finset (BitVec t.bits)).card = 2 ^ 25 := by
  rw [← view_cube t ht rot hrot ty, card_image_of_injOn, card_range]
  intro a ha b hb h
  rw [mem_coe, mem_range] at ha hb
  exact viewAt_inj t ht rot ty a b ha hb h

theorem view_count (t : WT) (ht : 32 ≤ t.bits) (rot : Nat) (hrot : rot < t.bits) (ty : RrcType) (P : BitVec t.bits → Prop) [DecidablePred P] :
    ((range (2 ^ 25)).filter fun i => P (viewAt t rot ty (i + 1))).card + (if P (viewAt t rot ty 0) then 1 else 0) =
      ((cube (freeBits t rot ty) (complements ty) : Finset (BitVec t.bits)).filter P).card + (if P (viewAt t rot ty (2 ^ 25)) then 1 else 0) := by
  rw [shift_count (viewAt t rot ty) P (2 ^ 25)]
  refine congrArg (fun x => x + if P (viewAt t rot ty (2 ^ 25)) then 1 else 0) ?_
  rw [← view_cube t ht rot hrot ty, filter_image, card_image_of_injOn]
  intro a ha b hb h
  rw [mem_coe, mem_filter, mem_range] at ha hb
  exact viewAt_inj t ht rot ty a b ha.1 hb.1 h

theorem bins_2048 (t : WT) (ht : 32 ≤ t.bits) (κ : Nat) (hup : (2 : ℝ) ^ κ < 2 * (2 * (((2 ^ 25 : ℕ) : ℝ)) ^ (4 / 10 : ℝ) + 1))
    (hlo : 2 * (((2 ^ 25 : ℕ) : ℝ)) ^ (4 / 10 : ℝ) ≤ 2 ^ κ ∨ κ = t.bits) : κ = 11 ∨ κ = 12 := by
  have e : (((2 ^ 25 : ℕ) : ℝ)) ^ (4 / 10 : ℝ) = 2 ^ 10 := by
    rw [show (((2 ^ 25 : ℕ) : ℝ)) = (2 : ℝ) ^ (25 : ℝ) by norm_num, ← Real.rpow_mul (by norm_num), ← Real.rpow_natCast]
    norm_num
  rw [e] at hup hlo
  have h12 : κ ≤ 12 := by
    by_contra h
    have : (2 : ℝ) ^ 13 ≤ 2 ^ κ := pow_le_pow_right₀ (by norm_num) (by omega)
    norm_num at this hup
    linarith
  have h11 : 11 ≤ κ := by
    rcases hlo with h | h
    · by_contra h'
      have : (2 : ℝ) ^ κ ≤ 2 ^ 10 := pow_le_pow_right₀ (by norm_num) (by omega)
      norm_num at this h
      linarith
    · omega
  omega

/-- The bins with a given bit. -/
theorem bit_bins (κ j : Nat) (hj : j < κ) (c : Bool) : ((range (2 ^ κ)).filter fun b => b.testBit j = c).card = 2 ^ (κ - 1) := by
  classical
  have h := count_testBit κ j hj (!c)
  have h2 := shift_count (fun i : Nat => i) (fun i => i.testBit j = c) (2 ^ κ)
  have e0 : (0 : Nat).testBit j = (2 ^ κ).testBit j := by
    rw [Nat.zero_testBit, Nat.testBit_two_pow_of_ne (by omega)]
  rw [e0] at h2
  have h3 := Nat.add_right_cancel h2
  have h4 : ((range (2 ^ κ)).filter fun b => b.testBit j = c).card = ((range (2 ^ κ)).filter fun b => (b + 1).testBit j = c).card := by
    rw [h3]
  rw [h4, ← h, countP_range]
  congr 1
  ext i
  simp only [mem_filter]
  generalize (i + 1).testBit j = x
  cases x <;> cases c <;> simp

/-- The statistic of the uniformity test. -/
theorem uniform_value (cdf : ℝ → ℝ → ℝ) (t : WT) (n : BitVec 64) (hn : n ≠ 0#64) : ∃ k, 1 ≤ k ∧ k ≤ t.bits ∧
    (2 : ℝ) ^ k < 2 * (2 * (n.toNat : ℝ) ^ (4 / 10 : ℝ) + 1) ∧
    (2 * (n.toNat : ℝ) ^ (4 / 10 : ℝ) ≤ 2 ^ k ∨ k = t.bits) ∧
    ∀ s : Stream (BitVec t.bits), ∃ st, uniformTest cdf n s = .ok [⟨"", some st⟩] ∧ st.type = .chi2 ∧ st.df = 2 ^ k - 1 ∧
      st.pValue = cdf st.value st.df ∧
      st.value = ∑ j ∈ range (2 ^ k), ((binHits s.nth n.toNat (2 ^ k) j : ℝ) - (n.toNat : ℝ) / 2 ^ k) ^ 2 / ((n.toNat : ℝ) / 2 ^ k) ∧
      ∀ S : Finset ℕ, S ⊆ range (2 ^ k) →
        4 * (((List.range n.toNat).countP fun i => decide (Spec.bin (2 ^ k) (s.nth i) ∈ S) : ℕ) - S.card * ((n.toNat : ℝ) / 2 ^ k)) ^ 2 / n.toNat
          ≤ st.value := by
  have hn0 : 0 < n.toNat := Nat.pos_of_ne_zero fun h => hn (BitVec.eq_of_toNat_eq (by simpa using h))
  have hn' : (0 : ℝ) < n.toNat := by exact_mod_cast hn0
  obtain ⟨k, hk1, hkt, hup, hlo, hu⟩ := C79_uniform cdf t n hn
  refine ⟨k, hk1, hkt, hup, hlo, fun s => ?_⟩
  have h2k : 2 ≤ 2 ^ k := by
    calc 2 = 2 ^ 1 := rfl
      _ ≤ _ := Nat.pow_le_pow_right (by norm_num) hk1
  have he : (0 : ℝ) < (n.toNat : ℝ) / 2 ^ k := by positivity
  have hp : pearson cdf ((List.range (2 ^ k)).map fun j => ((binHits s.nth n.toNat (2 ^ k) j : ℝ), (n.toNat : ℝ) / 2 ^ k)) 0 =
      some ⟨.chi2, ∑ j ∈ range (2 ^ k), ((binHits s.nth n.toNat (2 ^ k) j : ℝ) - (n.toNat : ℝ) / 2 ^ k) ^ 2 / ((n.toNat : ℝ) / 2 ^ k),
        cdf (∑ j ∈ range (2 ^ k), ((binHits s.nth n.toNat (2 ^ k) j : ℝ) - (n.toNat : ℝ) / 2 ^ k) ^ 2 / ((n.toNat : ℝ) / 2 ^ k)) (2 ^ k - 1),
        2 ^ k - 1⟩ := by
    unfold pearson
    rw [used_all (2 ^ k) (fun j => (binHits s.nth n.toNat (2 ^ k) j : ℝ)) _ he,
      chiSquare_range (2 ^ k) (fun j => (binHits s.nth n.toNat (2 ^ k) j : ℝ)), if_neg (by simp; omega)]
    simp
  refine ⟨_, by rw [hu s, hp], rfl, rfl, rfl, rfl, fun S hS => ?_⟩
  have := two_groups (2 ^ k) (fun j => (binHits s.nth n.toNat (2 ^ k) j : ℝ)) ((n.toNat : ℝ) / 2 ^ k) n.toNat he
    (by push_cast; field_simp) (by exact_mod_cast binHits_sum s.nth n.toNat (2 ^ k) (by positivity)) S hS
  rw [← Nat.cast_sum, binHits_group] at this
  exact this

/-- Counts that are even but for an eighth, with one value moved. -/
theorem moved_sum (B : Nat) (h o : Nat → ℝ) (E : ℝ) (hE : 4 ≤ E) (x y : Nat) (hdev : ∀ b < B, |h b - E| ≤ E / 8)
    (hsum : ∑ b ∈ range B, (h b - E) ^ 2 ≤ 2 * (E / 8) ^ 2)
    (ho : ∀ b, o b + (if x = b then 1 else 0) = h b + (if y = b then 1 else 0)) :
    ∑ b ∈ range B, (o b - E) ^ 2 / E ≤ E / 32 + 1 := by
  have hind : ∀ z : Nat, ∑ b ∈ range B, (if z = b then (1 : ℝ) else 0) ≤ 1 := by
    intro z
    rw [sum_ite_eq]
    split_ifs <;> norm_num
  have hb : ∀ b ∈ range B, (o b - E) ^ 2 ≤ (h b - E) ^ 2 + (E / 4 + 1) * ((if x = b then 1 else 0) + (if y = b then 1 else 0)) := by
    intro b hb
    have h1 := abs_le.1 (hdev b (mem_range.1 hb))
    have h2 := ho b
    by_cases hx : x = b <;> by_cases hy : y = b
    · rw [if_pos hx, if_pos hy] at h2 ⊢
      have : o b = h b := by linarith
      rw [this]; nlinarith
    · rw [if_pos hx, if_neg hy] at h2 ⊢
      have : o b = h b - 1 := by linarith
      rw [this]; nlinarith
    · rw [if_neg hx, if_pos hy] at h2 ⊢
      have : o b = h b + 1 := by linarith
      rw [this]; nlinarith
    · rw [if_neg hx, if_neg hy] at h2 ⊢
      have : o b = h b := by linarith
      rw [this]; linarith
  have h3 := sum_le_sum hb
  rw [sum_add_distrib, ← mul_sum, sum_add_distrib] at h3
  have h4 := hind x
  have h5 := hind y
  rw [← sum_div, div_le_iff₀ (by linarith)]
  have h6 : (E / 4 + 1) * (∑ b ∈ range B, (if x = b then (1 : ℝ) else 0) + ∑ b ∈ range B, (if y = b then (1 : ℝ) else 0)) ≤ (E / 4 + 1) * 2 :=
    mul_le_mul_of_nonneg_left (by linarith) (by linarith)
  nlinarith

theorem stuck_num (κ : Nat) (hκ : κ = 11 ∨ κ = 12) (N : ℝ) (hN : 29360127 ≤ N) :
    7 / 5 * ((2 : ℝ) ^ κ - 1) + 84 ≤ 4 * (N - ((2 ^ (κ - 1) : ℕ) : ℝ) * (((2 ^ 25 : ℕ) : ℝ) / 2 ^ κ)) ^ 2 / ((2 ^ 25 : ℕ) : ℝ) := by
  have key : (8388608 : ℝ) ≤ 4 * (N - 16777216) ^ 2 / 33554432 := by
    rw [le_div_iff₀ (by norm_num)]
    have : (8388608 : ℝ) ≤ N - 16777216 := by linarith
    nlinarith
  have e1 : ((2 ^ (κ - 1) : ℕ) : ℝ) * (((2 ^ 25 : ℕ) : ℝ) / 2 ^ κ) = 16777216 := by
    rcases hκ with rfl | rfl <;> norm_num
  have e2 : ((2 ^ 25 : ℕ) : ℝ) = 33554432 := by norm_num
  have e3 : (2 : ℝ) ^ κ ≤ 4096 := by rcases hκ with rfl | rfl <;> norm_num
  rw [e1, e2]
  linarith

/-- C132. 32- and 64-bit words: the uniformity test rejects a counter whose bits are rotated, reversed or complemented, with `2^25` values. -/
theorem C132_counter (t : WT) (ht : t = .u32 ∨ t = .u64) (ty : RrcType) (rot : Nat) (hrot : rot < t.bits) (s : Stream (BitVec t.bits))
    (hs : ∀ i, s.nth i = permute t (BitVec.ofNat t.bits (i + 1)) rot ty) :
    ∃ st, uniformTest chi2DistributionCdf (BitVec.ofNat 64 (2 ^ 25)) s = .ok [⟨"", some st⟩] ∧ comparableP st ≤ 1 / 10 ^ 9 ∧ statPass st = false := by
  classical
  have ht32 : 32 ≤ t.bits := by rcases ht with rfl | rfl <;> decide
  have hv : ∀ i, s.nth i = viewAt t rot ty (i + 1) := hs
  obtain ⟨κ, hk1, hkt, hup, hlo, hu⟩ := uniform_value chi2DistributionCdf t (BitVec.ofNat 64 (2 ^ 25)) (by decide)
  have hn : (BitVec.ofNat 64 (2 ^ 25)).toNat = 2 ^ 25 := by decide
  rw [hn] at hup hlo
  simp only [hn] at hu
  have hκ := bins_2048 t ht32 κ hup hlo
  have hκ12 : κ ≤ 12 := by omega
  obtain ⟨st, hst, h1, h2, h3, hval, h4⟩ := hu s
  refine ⟨st, hst, ?_⟩
  set F := freeBits t rot ty with hF
  have hFw : ∀ p ∈ F, p < t.bits := fun p hp => mem_range.1 (mem_filter.1 hp).1
  have hFc : 25 ≤ F.card := freeBits_card t ht32 rot hrot ty
  have hcard := cube_card t ht32 rot hrot ty
  have hcnt := fun P => view_count t ht32 rot hrot ty P
  by_cases htop : ∀ p < t.bits, t.bits - κ ≤ p → p ∈ F
  · -- the top bits all change: too even
    have hE : ((2 : ℝ) ^ 25 / 2 ^ κ) * 2 ^ κ = ((cube F (complements ty) : Finset (BitVec t.bits)).card : ℝ) := by
      rw [hcard, div_mul_cancel₀ _ (by positivity)]; norm_num
    obtain ⟨he1, he2⟩ := cube_even t F (complements ty) κ hκ12 ht32 hFw hFc htop _ hE
    set E : ℝ := (2 : ℝ) ^ 25 / 2 ^ κ with hEdef
    have hE0 : 0 < E := by positivity
    have hhit : ∀ b, (binHits s.nth (2 ^ 25) (2 ^ κ) b : ℝ) + (if Spec.bin (2 ^ κ) (viewAt t rot ty 0) = b then 1 else 0) =
        cubeHits F (complements ty) κ t.bits b + (if Spec.bin (2 ^ κ) (viewAt t rot ty (2 ^ 25)) = b then 1 else 0) := by
      intro b
      have h := view_count t ht32 rot hrot ty fun v => Spec.bin (2 ^ κ) v = b
      have e : binHits s.nth (2 ^ 25) (2 ^ κ) b = ((range (2 ^ 25)).filter fun i => Spec.bin (2 ^ κ) (viewAt t rot ty (i + 1)) = b).card := by
        unfold binHits
        rw [countP_range]
        simp only [decide_eq_true_eq, hv]
      have e2 : cubeHits F (complements ty) κ t.bits b =
          ((cube (freeBits t rot ty) (complements ty) : Finset (BitVec t.bits)).filter fun v => Spec.bin (2 ^ κ) v = b).card := by
        unfold cubeHits
        congr!
      rw [e, e2]
      exact_mod_cast h
    have hEκ : 4 ≤ E ∧ 3 * (E / 32 + 1) ≤ (2 : ℝ) ^ κ - 1 ∧ (120 : ℝ) ≤ 2 ^ κ - 1 ∧ (2 : ℝ) ^ κ - 1 < 1100000 := by
      rw [hEdef]
      rcases hκ with rfl | rfl <;> norm_num
    have hsmall := moved_sum (2 ^ κ) (fun b => (cubeHits F (complements ty) κ t.bits b : ℝ)) (fun b => (binHits s.nth (2 ^ 25) (2 ^ κ) b : ℝ)) E
      hEκ.1 _ _ he1 he2 hhit
    have hv2 : st.value ≤ E / 32 + 1 := by
      have e25 : ((2 ^ 25 : ℕ) : ℝ) = 2 ^ 25 := by norm_num
      rw [hval, e25]
      exact hsmall
    have hv0 : 0 ≤ st.value := by
      rw [hval]
      exact sum_nonneg fun j _ => by positivity
    obtain ⟨-, g1, g2⟩ := C132_too_small st.value st.df hv0 (by rw [h2]; exact hEκ.2.2.1) (by rw [h2]; exact hEκ.2.2.2)
      (by rw [h2]; linarith [hEκ.2.1])
    have e : st = ⟨.chi2, st.value, chi2DistributionCdf st.value st.df, st.df⟩ := by
      rw [← h1, ← h3]
    rw [e]
    exact ⟨g1, g2⟩
  · -- a top bit is stuck
    push Not at htop
    obtain ⟨p, hp, hps, hpF⟩ := htop
    have hj : p - (t.bits - κ) < κ := by omega
    obtain ⟨S, hSr, hSc, hSm⟩ : ∃ S ⊆ range (2 ^ κ), S.card = 2 ^ (κ - 1) ∧ ∀ b < 2 ^ κ, b.testBit (p - (t.bits - κ)) = complements ty → b ∈ S :=
      ⟨_, filter_subset _ _, bit_bins κ _ hj (complements ty), fun b hb h => mem_filter.2 ⟨mem_range.2 hb, h⟩⟩
    have h5 := h4 _ hSr
    rw [hSc, countP_range] at h5
    simp only [decide_eq_true_eq, hv] at h5
    have hoff := few_off t F (complements ty) κ hκ12 ht32 hFw hFc
    rw [hcard] at hoff
    -- the words in these bins
    have hin : 2 ^ 25 ≤ ((cube F (complements ty) : Finset (BitVec t.bits)).filter fun v => Spec.bin (2 ^ κ) v ∈ S).card +
        ((cube F (complements ty) : Finset (BitVec t.bits)).filter fun v => Spec.bin (2 ^ κ) v ≠ v.toNat / 2 ^ (t.bits - κ)).card := by
      rw [← hcard]
      refine (card_le_card ?_).trans (card_union_le _ _)
      intro v hvc
      rw [mem_union, mem_filter, mem_filter]
      by_cases hb : Spec.bin (2 ^ κ) v = v.toNat / 2 ^ (t.bits - κ)
      · left
        refine ⟨hvc, hSm _ (bin_lt κ v) ?_⟩
        rw [hb, Nat.testBit_div_two_pow, testBit_toNat, show p - (t.bits - κ) + (t.bits - κ) = p by omega]
        exact (mem_cube F _ v).1 hvc p hp hpF
      · exact Or.inr ⟨hvc, hb⟩
    have hc2 := view_count t ht32 rot hrot ty fun v => Spec.bin (2 ^ κ) v ∈ S
    rw [← hF] at hc2
    have hge : 2 ^ 25 ≤ ((range (2 ^ 25)).filter fun i => Spec.bin (2 ^ κ) (viewAt t rot ty (i + 1)) ∈ S).card + 2 ^ 22 + 1 := by
      have : (if Spec.bin (2 ^ κ) (viewAt t rot ty 0) ∈ S then 1 else 0) ≤ 1 := by
        split_ifs <;> omega
      omega
    generalize ((range (2 ^ 25)).filter fun i => Spec.bin (2 ^ κ) (viewAt t rot ty (i + 1)) ∈ S).card = N at h5 hge
    have hgeR : (2 : ℝ) ^ 25 ≤ N + 2 ^ 22 + 1 := by exact_mod_cast hge
    have hN : (29360127 : ℝ) ≤ N := by norm_num at hgeR; linarith
    have hrej := reject_of_value st h1 h3 (by rw [h2]; exact one_le_df κ hk1) (by
      refine le_trans ?_ h5
      rw [h2]
      exact stuck_num κ hκ N hN)
    exact ⟨(comparableP_le _).trans hrej.1, hrej.2⟩


/-- Every view of a counter of 8 or 16 bits takes every value equally often among `2^25` of its values. -/
theorem small_view_even (t : WT) (ht : t.bits ≤ 25) (v : Nat → BitVec t.bits) (rot : Nat) (ty : RrcType)
    (hv : ∀ i, v i = permute t (BitVec.ofNat t.bits (i + 1)) rot ty) : PerfectlyEven v (2 ^ 25) := by
  refine even_of_period _ (weyl v (fun x => permute t x rot ty) 1#t.bits 0#t.bits (by cases t <;> decide)
    (C10_permute_bijective t rot ty) fun k => ?_).1 25 ht
  rw [hv]
  congr 1
  simp

/-- C132. The self-check prints `PASS` for the uniformity test. -/
theorem C132_self_check (t : WT) (hw : BitVec 32) (analyse : Battery ℝ → List ResultAnalysis) (ha : Analyses analyse)
    (eval : TestRow → Stream (BitVec t.bits) → BitVec 64 → Battery ℝ) (h : SelfCheckRuns t hw eval) (sources : List (Stream (BitVec t.bits)))
    (hs : createFailSources t = .ok sources) (lines : List InspectLine) (hl : inspectTests t analyse eval sources false = .ok lines) :
    lines.filter (fun l => decide (lineTest l = "uniform")) = [.pass "uniform"] := by
  have hth := defaultMaxThreads_pos hw
  refine pass_of_none t hw analyse ha eval h sources lines hl ⟨.uniform, true, false, .none, "uniform"⟩ (by decide) fun s hmem =>
      not_accepted _ 25 (by norm_num) le_rfl ?_
  rw [if_neg (by decide)] at hmem
  obtain ⟨ty, rot, hrot, hsrc⟩ := fail_source_cases t sources hs s hmem
  have hcase : (∃ st, uniformTest chi2DistributionCdf (BitVec.ofNat 64 (2 ^ 25)) (mixerStream s ⟨"identity", fun x => x⟩) = .ok [⟨"", some st⟩] ∧
      comparableP st ≤ 1 / 10 ^ 9) ∨ PerfectlyEven (mixerStream s ⟨"identity", fun x => x⟩).nth (2 ^ 25) := by
    rcases hsrc with rfl | ⟨c, rfl⟩
    · have hnth : ∀ i, (mixerStream (addRrc t (counterStream t.bits 1 0) rot ty) ⟨"identity", fun x => x⟩).nth i =
          permute t (BitVec.ofNat t.bits (i + 1)) rot ty := fun i => mixed_nth t ⟨"identity", fun x => x⟩ ty rot i
      by_cases hc : t = .u32 ∨ t = .u64
      · obtain ⟨st, g1, g2, -⟩ := C132_counter t hc ty rot hrot _ hnth
        exact Or.inl ⟨st, g1, g2⟩
      · refine Or.inr (small_view_even t ?_ _ rot ty hnth)
        cases t <;> first | decide | exact absurd (Or.inl rfl) hc | exact absurd (Or.inr rfl) hc
    · obtain ⟨st, g1, g2, -⟩ := C107_constant t (BitVec.ofNat 64 (2 ^ 25)) (by decide) _ _ (fun i _ => view_constant t ty rot c i)
      exact Or.inl ⟨st, g1, (comparableP_le _).trans g2⟩
  have hkey : (⟨.uniform, ""⟩ : TestKey) ∈ keys (eval ⟨.uniform, true, false, .none, "uniform"⟩ s (BitVec.ofNat 64 (2 ^ 25))) ∧
      ∃ r ∈ (eval ⟨.uniform, true, false, .none, "uniform"⟩ s (BitVec.ofNat 64 (2 ^ 25))).get ⟨.uniform, ""⟩, comparableP r.stats ≤ 1 / 10 ^ 9 := by
    rcases hcase with ⟨st, g1, g2⟩ | he
    · exact battery_failing_c chi2DistributionCdf .uniform _ (inspectSetup (defaultMaxThreads hw) ⟨.uniform, true, false, .none, "uniform"⟩ s)
        (by show 0 < defaultMaxThreads hw; omega) _ (h _ s 25 (by norm_num) le_rfl) List.mem_cons_self s List.mem_cons_self _ rfl
        [⟨"", some st⟩] (congrArg some g1) "" st List.mem_cons_self g2
    · exact battery_even t 25 (by norm_num) (inspectSetup (defaultMaxThreads hw) ⟨.uniform, true, false, .none, "uniform"⟩ s)
        (by show 0 < defaultMaxThreads hw; omega) _ (h _ s 25 (by norm_num) le_rfl) List.mem_cons_self s List.mem_cons_self he
  obtain ⟨hk, r, hr, hle⟩ := hkey
  exact fun hp => absurd ((hp _ hk).1 r hr) (not_lt.2 hle)

-- C132, non-vacuity: a counter read through a rotation and a reversal meets the hypotheses, and so do a value and its degrees of freedom.
example : (∃ s : Stream (BitVec WT.u64.bits), ∀ i, s.nth i = permute .u64 (BitVec.ofNat WT.u64.bits (i + 1)) 11 .reverse) ∧
    (0 : ℝ) ≤ 600 ∧ (120 : ℝ) ≤ 2047 ∧ (2047 : ℝ) < 1100000 ∧ 3 * (600 : ℝ) ≤ 2047 := by
  refine ⟨⟨mixerStream (addRrc .u64 (counterStream WT.u64.bits 1 0) 11 .reverse) ⟨"identity", fun x => x⟩,
    fun i => mixed_nth .u64 ⟨"identity", fun x => x⟩ .reverse 11 i⟩, ?_⟩
  norm_num

-- C132, non-vacuity: the sources exist for every size, and so do runs of the self-check on them.
example (t : WT) (hw : BitVec 32) (analyse : Battery ℝ → List ResultAnalysis) (ha : Analyses analyse) :
    ∃ sources eval lines, createFailSources t = .ok sources ∧ SelfCheckRuns t hw eval ∧ inspectTests t analyse eval sources false = .ok lines := by
  obtain ⟨c, s0, s1, s2, s3, hs, -⟩ := C97_fail_sources t
  choose f hf using fun (test : TestRow) (s : Stream (BitVec t.bits)) n =>
    C35_terminates (suiteDef chi2DistributionCdf) n (inspectSetup (defaultMaxThreads hw) test s)
  exact ⟨_, f, _, hs, fun test s k _ _ => hf test s _, (C97_inspect chi2DistributionCdf t hw analyse ha f (fun test s k _ _ => hf test s _) _).1⟩

end
end TFR
