import Verif.Model.RealStats
import Verif.Lemmas.Float
import Verif.Props.ChiSquare
import Verif.Props.Kolmogorov
import Mathlib.Data.Nat.Choose.Sum
import Mathlib.Data.Nat.Choose.Bounds
import Mathlib.Algebra.Order.Ring.Pow
/-
C61: binomial coefficients and distributions.
-/
namespace TFR
open Finset

private theorem hbind {α β : Type} (x : α) (f : α → R β) : ((Except.ok x : R α) >>= f) = f x := rfl

/-- The loop after `j` rounds, for `diff = d`. -/
private theorem loop_choose {K : Type} [Field K] [CharZero K] (d j : Nat) :
    (List.range j).foldl (fun c i => c * (((d : Nat) : K) / ((i + 1 : Nat) : K) + 1)) 1 = ((d + j).choose j : K) := by
  induction j with
  | zero => simp
  | succ j ih =>
    rw [List.range_succ, List.foldl_append, ih]
    simp only [List.foldl_cons, List.foldl_nil]
    have h := Nat.add_one_mul_choose_eq (d + j) j
    have h' : ((d + j + 1 : ℕ) : K) * ((d + j).choose j : K) = ((d + (j + 1)).choose (j + 1) : K) * ((j + 1 : ℕ) : K) := by
      exact_mod_cast h
    have hj : ((j + 1 : ℕ) : K) ≠ 0 := by exact_mod_cast Nat.succ_ne_zero j
    apply mul_right_cancel₀ hj
    rw [← h']
    field_simp
    push_cast
    ring

/-- C61. In exact arithmetic the loop of `binomial_coefficient` computes `n choose k`. -/
theorem C61_binomial (n k : Nat) : binomialCoefficient n k = n.choose k := by
  unfold binomialCoefficient
  by_cases h : k > n
  · rw [if_pos h, Nat.choose_eq_zero_of_lt h]
  · rw [if_neg h]
    unfold binomialLoop
    rw [loop_choose (K := ℚ) (n - k) k, Nat.sub_add_cancel (not_lt.1 h)]
    unfold roundAway
    have : ⌊((n.choose k : ℕ) : ℚ) + 1 / 2⌋ = ((n.choose k : ℕ) : ℤ) := by
      rw [Int.floor_eq_iff]; push_cast; constructor <;> linarith
    rw [this]; simp

/-- C61. The probabilities of `flip_coin_pdf(n, ·)` are non-negative and sum to one. -/
theorem C61_flip_coin (n : Nat) : (∀ k, 0 ≤ flipCoinPdf n k) ∧ ∑ k ∈ range (n + 1), flipCoinPdf n k = 1 ∧
    ∀ k, flipCoinPdf n k = ((univ.filter fun v : Fin n → Bool => (univ.filter fun i => v i = true).card = k).card : ℝ) / 2 ^ n := by
  unfold flipCoinPdf
  refine ⟨fun k => by positivity, ?_, ?_⟩
  · rw [← sum_div, div_eq_one_iff_eq (by positivity)]
    simp_rw [C61_binomial]
    exact_mod_cast Nat.sum_range_choose n
  · intro k
    congr 2
    rw [C61_binomial]
    have h1 : (univ.filter fun v : Fin n → Bool => (univ.filter fun i => v i = true).card = k).card =
        ((univ : Finset (Fin n)).powersetCard k).card := by
      apply card_bij' (fun v _ => univ.filter fun i => v i = true) (fun s _ => fun i => decide (i ∈ s))
      · intro v _
        funext i
        simp
      · intro s _
        ext i; simp
      · intro v hv
        rw [mem_powersetCard]
        exact ⟨subset_univ _, (mem_filter.1 hv).2⟩
      · intro s hs
        rw [mem_filter]
        refine ⟨mem_univ _, ?_⟩
        rw [mem_powersetCard] at hs
        rw [← hs.2]
        congr 1
        ext i; simp
    rw [h1, card_powersetCard, card_univ, Fintype.card_fin]

/-- C61. The probabilities of `binomial_pdf(n, p, ·)` sum to one for every `p`, and are non-negative for `p` in [0,1]. -/
theorem C61_binomial_pdf (n : Nat) (p : ℝ) : ∑ k ∈ range (n + 1), binomialPdf n p k = 1 ∧
    (0 ≤ p → p ≤ 1 → ∀ k, 0 ≤ binomialPdf n p k) := by
  constructor
  · have h := add_pow p (1 - p) n
    rw [add_sub_cancel, one_pow] at h
    rw [h]
    apply sum_congr rfl
    intro k _
    unfold binomialPdf
    rw [C61_binomial]; ring
  · intro h0 h1 k
    unfold binomialPdf
    have : 0 ≤ 1 - p := by linarith
    positivity

/-- C61. `binomial_cdf(n, p, k)` is the sum of the binomial probabilities up to `k`, for `p` farther than 1e-10 from 0 and 1. -/
theorem C61_binomial_cdf (n k : Nat) (p : ℝ) (h0 : 1 / 10 ^ 10 < p) (h1 : p < 1 - 1 / 10 ^ 10) (hk : k ≤ n) :
    binomialCdf n p k = ∑ i ∈ range (k + 1), (n.choose i : ℝ) * p ^ i * (1 - p) ^ (n - i) := by
  have hp : 0 < p := lt_trans (by norm_num) h0
  have hq : 0 < 1 - p := by
    have : (0 : ℝ) < 1 / 10 ^ 10 := by norm_num
    linarith
  have hloop : ∀ m, m ≤ n → (List.range m).foldl (fun (st : ℝ × ℝ) j =>
      let b := st.1 + (Real.log ((n - (j + 1) + 1 : Nat) : ℝ) - Real.log ((j + 1 : Nat) : ℝ))
      (b, st.2 + Real.exp (b + ((j + 1 : Nat) : ℝ) * Real.log p + ((n - (j + 1) : Nat) : ℝ) * Real.log (1 - p)))) (0, (1 - p) ^ n) =
      (Real.log (n.choose m : ℝ), ∑ i ∈ range (m + 1), (n.choose i : ℝ) * p ^ i * (1 - p) ^ (n - i)) := by
    intro m
    induction m with
    | zero => intro _; simp
    | succ m ih =>
      intro hm
      rw [List.range_succ, List.foldl_append, ih (by omega)]
      simp only [List.foldl_cons, List.foldl_nil]
      have hc1 : (0 : ℝ) < (n.choose m : ℝ) := by exact_mod_cast Nat.choose_pos (by omega)
      have hc2 : (0 : ℝ) < (n.choose (m + 1) : ℝ) := by exact_mod_cast Nat.choose_pos hm
      have hb : Real.log (n.choose m : ℝ) + (Real.log ((n - (m + 1) + 1 : Nat) : ℝ) - Real.log ((m + 1 : Nat) : ℝ)) =
          Real.log (n.choose (m + 1) : ℝ) := by
        have hn : n - (m + 1) + 1 = n - m := by omega
        rw [hn]
        have hnm : (0 : ℝ) < ((n - m : ℕ) : ℝ) := by
          have : 0 < n - m := by omega
          exact_mod_cast this
        have hm1 : (0 : ℝ) < ((m + 1 : ℕ) : ℝ) := by positivity
        have h := Nat.choose_succ_right_eq n m
        have h' : (n.choose (m + 1) : ℝ) * ((m + 1 : ℕ) : ℝ) = (n.choose m : ℝ) * ((n - m : ℕ) : ℝ) := by exact_mod_cast h
        have := congrArg Real.log h'
        rw [Real.log_mul hc2.ne' hm1.ne', Real.log_mul hc1.ne' hnm.ne'] at this
        linarith
      rw [hb]
      congr 1
      rw [sum_range_succ _ (m + 1)]
      congr 1
      rw [Real.exp_add, Real.exp_add, Real.exp_log hc2, mul_comm ((m + 1 : ℕ) : ℝ), Real.exp_mul, Real.exp_log hp,
        mul_comm ((n - (m + 1) : ℕ) : ℝ), Real.exp_mul, Real.exp_log hq, Real.rpow_natCast, Real.rpow_natCast]
  unfold binomialCdf
  have hn0 : ¬ isNearR p 0 (1 / 10 ^ 10) = true := by
    rw [isNearR_iff, sub_zero, abs_of_pos hp]; linarith
  have hn1 : ¬ isNearR p 1 (1 / 10 ^ 10) = true := by
    rw [isNearR_iff, abs_of_nonpos (by linarith)]
    linarith
  rw [if_neg hn0, if_neg hn1]
  dsimp only
  rw [hloop k hk]
  dsimp only
  have hnn : ∀ i, 0 ≤ (n.choose i : ℝ) * p ^ i * (1 - p) ^ (n - i) := fun i => by positivity
  have hle : ∑ i ∈ range (k + 1), (n.choose i : ℝ) * p ^ i * (1 - p) ^ (n - i) ≤ 1 := by
    refine le_trans (sum_le_sum_of_subset_of_nonneg (range_mono (Nat.succ_le_succ hk)) (fun i _ _ => hnn i))
      (le_of_eq (Eq.trans ?_ (C61_binomial_pdf n p).1))
    apply sum_congr rfl
    intro i _
    unfold binomialPdf
    rw [C61_binomial]
  unfold clamp01
  rw [if_neg (not_lt.2 (sum_nonneg fun i _ => hnn i)), if_neg (not_lt.2 hle)]

/-- C61. Near the ends: for `p` within 1e-10 of 0 it returns 1, and for `p` within 1e-10 of 1 it returns 0 for every `k`, also for
`k = n`, where the distribution function is 1. -/
theorem C61_binomial_cdf_ends (n k : Nat) : binomialCdf n 0 k = 1 ∧ binomialCdf n 1 k = 0 := by
  constructor
  · unfold binomialCdf
    rw [if_pos ((isNearR_iff _ _ _).2 (by norm_num))]
  · unfold binomialCdf
    rw [if_neg (by rw [isNearR_iff]; norm_num), if_pos ((isNearR_iff _ _ _).2 (by norm_num))]

/-! ### with binary64 rounding -/

/-- The relative error of one rounding. -/
private theorem rnd_rel {x : ℚ} (h : 0 ≤ x) : x * (1 - 1 / 2 ^ 53) ≤ Fl.rnd x ∧ Fl.rnd x ≤ x * (1 + 1 / 2 ^ 53) := by
  have := abs_le.1 (Fl.abs_rnd_sub_le_rel h)
  constructor
  · have h1 := this.1
    have : x * (1 - 1 / 2 ^ 53) = x - x / 2 ^ 53 := by ring
    linarith
  · have h1 := this.2
    have : x * (1 + 1 / 2 ^ 53) = x + x / 2 ^ 53 := by ring
    linarith

private theorem float_loop (d j : Nat) (hd : d ≤ 2 ^ 53) (hj : j ≤ 2 ^ 53) :
    ((d + j).choose j : ℚ) * (1 - 1 / 2 ^ 53) ^ (3 * j) ≤
      (List.range j).foldl (fun c i => Fl.mul c (Fl.add (Fl.div (Fl.ofNat d) (Fl.ofNat (i + 1))) 1)) 1 ∧
    (List.range j).foldl (fun c i => Fl.mul c (Fl.add (Fl.div (Fl.ofNat d) (Fl.ofNat (i + 1))) 1)) 1 ≤
      ((d + j).choose j : ℚ) * (1 + 1 / 2 ^ 53) ^ (3 * j) := by
  induction j with
  | zero => simp
  | succ j ih =>
    obtain ⟨ih1, ih2⟩ := ih (by omega)
    rw [List.range_succ, List.foldl_append]
    simp only [List.foldl_cons, List.foldl_nil]
    set c := (List.range j).foldl (fun c i => Fl.mul c (Fl.add (Fl.div (Fl.ofNat d) (Fl.ofNat (i + 1))) 1)) 1
    have hd' : Fl.ofNat d = (d : ℚ) := Fl.rnd_natCast hd
    have hj' : Fl.ofNat (j + 1) = ((j + 1 : ℕ) : ℚ) := Fl.rnd_natCast hj
    rw [hd', hj']
    set u : ℚ := 1 / 2 ^ 53 with hu
    have hu0 : 0 < u := by positivity
    have hu1 : u < 1 := by rw [hu]; norm_num
    have hl0 : 0 < 1 - u := by linarith
    set a : ℚ := (d : ℚ) / ((j + 1 : ℕ) : ℚ) with ha
    have ha0 : 0 ≤ a := by positivity
    obtain ⟨q1, q2⟩ := rnd_rel ha0
    rw [← hu] at q1 q2
    have hq0 : 0 ≤ Fl.div (d : ℚ) ((j + 1 : ℕ) : ℚ) := Fl.rnd_nonneg ha0
    set q := Fl.div (d : ℚ) ((j + 1 : ℕ) : ℚ) with hq
    have hqa : q = Fl.rnd a := rfl
    rw [← hqa] at q1 q2
    obtain ⟨s1, s2⟩ := rnd_rel (show 0 ≤ q + 1 by linarith)
    rw [← hu] at s1 s2
    set t := Fl.add q 1 with ht
    have htq : t = Fl.rnd (q + 1) := rfl
    rw [← htq] at s1 s2
    have ht1 : (a + 1) * (1 - u) ^ 2 ≤ t := by
      refine le_trans ?_ s1
      have : (a + 1) * (1 - u) ≤ q + 1 := by nlinarith
      calc (a + 1) * (1 - u) ^ 2 = (a + 1) * (1 - u) * (1 - u) := by ring
        _ ≤ (q + 1) * (1 - u) := mul_le_mul_of_nonneg_right this hl0.le
    have ht2 : t ≤ (a + 1) * (1 + u) ^ 2 := by
      refine s2.trans ?_
      have : q + 1 ≤ (a + 1) * (1 + u) := by nlinarith
      calc (q + 1) * (1 + u) ≤ (a + 1) * (1 + u) * (1 + u) := mul_le_mul_of_nonneg_right this (by linarith)
        _ = _ := by ring
    have ht0 : 0 ≤ t := le_trans (by positivity) ht1
    have hc0 : 0 ≤ c := le_trans (by positivity) ih1
    obtain ⟨m1, m2⟩ := rnd_rel (mul_nonneg hc0 ht0)
    rw [← hu] at m1 m2
    have hchoose : ((d + (j + 1)).choose (j + 1) : ℚ) = ((d + j).choose j : ℚ) * (a + 1) := by
      have h1 := loop_choose (K := ℚ) d (j + 1)
      rw [List.range_succ, List.foldl_append, loop_choose] at h1
      simp only [List.foldl_cons, List.foldl_nil] at h1
      exact h1.symm
    rw [hchoose]
    constructor
    · refine le_trans ?_ m1
      have h1 : ((d + j).choose j : ℚ) * (1 - u) ^ (3 * j) * ((a + 1) * (1 - u) ^ 2) ≤ c * t :=
        mul_le_mul ih1 ht1 (by positivity) hc0
      calc ((d + j).choose j : ℚ) * (a + 1) * (1 - u) ^ (3 * (j + 1))
          = ((d + j).choose j : ℚ) * (1 - u) ^ (3 * j) * ((a + 1) * (1 - u) ^ 2) * (1 - u) := by ring
        _ ≤ c * t * (1 - u) := mul_le_mul_of_nonneg_right h1 hl0.le
    · refine m2.trans ?_
      have h1 : c * t ≤ ((d + j).choose j : ℚ) * (1 + u) ^ (3 * j) * ((a + 1) * (1 + u) ^ 2) :=
        mul_le_mul ih2 ht2 ht0 (by positivity)
      calc c * t * (1 + u) ≤ ((d + j).choose j : ℚ) * (1 + u) ^ (3 * j) * ((a + 1) * (1 + u) ^ 2) * (1 + u) :=
            mul_le_mul_of_nonneg_right h1 (by linarith)
        _ = _ := by ring

private theorem float_bound (d k : Nat) (hd : d ≤ 2 ^ 53) (hk : 6 * k ≤ 2 ^ 53) :
    |(List.range k).foldl (fun c i => Fl.mul c (Fl.add (Fl.div (Fl.ofNat d) (Fl.ofNat (i + 1))) 1)) 1 - ((d + k).choose k : ℚ)| ≤
      ((d + k).choose k : ℚ) * (6 * k) / 2 ^ 53 := by
  obtain ⟨h1, h2⟩ := float_loop d k hd (by omega)
  set c := (List.range k).foldl (fun c i => Fl.mul c (Fl.add (Fl.div (Fl.ofNat d) (Fl.ofNat (i + 1))) 1)) 1
  set u : ℚ := 1 / 2 ^ 53 with hu
  have hu0 : 0 < u := by positivity
  have hu1 : u < 1 := by rw [hu]; norm_num
  set C : ℚ := ((d + k).choose k : ℚ) with hC
  have hC0 : 0 ≤ C := by positivity
  set t : ℚ := ((3 * k : ℕ) : ℚ) * u with ht
  have ht0 : 0 ≤ t := by positivity
  have ht1 : t ≤ 1 / 2 := by
    rw [ht, hu, mul_one_div, div_le_iff₀ (by positivity)]
    have : ((6 * k : ℕ) : ℚ) ≤ ((2 ^ 53 : ℕ) : ℚ) := by exact_mod_cast hk
    push_cast at this ⊢
    linarith
  have hlow : 1 - t ≤ (1 - u) ^ (3 * k) := by
    have := one_add_mul_le_pow (show (-2 : ℚ) ≤ -u by linarith) (3 * k)
    rw [ht]
    have e : (1 : ℚ) + -u = 1 - u := by ring
    rw [e] at this
    linarith
  have hup : (1 + u) ^ (3 * k) ≤ 1 + 2 * t := by
    have hprod : (1 + u) ^ (3 * k) * (1 - t) ≤ 1 := by
      calc (1 + u) ^ (3 * k) * (1 - t) ≤ (1 + u) ^ (3 * k) * (1 - u) ^ (3 * k) :=
            mul_le_mul_of_nonneg_left hlow (by positivity)
        _ = ((1 + u) * (1 - u)) ^ (3 * k) := (mul_pow _ _ _).symm
        _ ≤ 1 := pow_le_one₀ (by nlinarith) (by nlinarith)
    by_contra hlt
    have hlt := not_le.1 hlt
    have : (1 + 2 * t) * (1 - t) < (1 + u) ^ (3 * k) * (1 - t) := mul_lt_mul_of_pos_right hlt (by linarith)
    nlinarith
  have hfin : C * (6 * k) / 2 ^ 53 = C * (2 * t) := by rw [ht, hu]; push_cast; ring
  rw [hfin, abs_le]
  constructor
  · have := mul_le_mul_of_nonneg_left hlow hC0
    nlinarith
  · have := mul_le_mul_of_nonneg_left hup hC0
    nlinarith

/-- C61. With binary64 rounding of every operation, `binomial_coefficient(n, k)` is exactly `n choose k` whenever
`12 k (n choose k) ≤ 2^53`. -/
theorem C61_binomial_float (n k : Nat) (hn : n < 2 ^ 32) (h : 12 * k * n.choose k < 2 ^ 53) :
    binomialCoefficientFl n k = .ok (BitVec.ofNat 64 (n.choose k)) := by
  unfold binomialCoefficientFl
  by_cases hk : k > n
  · rw [if_pos hk, Nat.choose_eq_zero_of_lt hk]
  · rw [if_neg hk]
    dsimp only
    have hkn := not_lt.1 hk
    have hb := float_bound (n - k) k (by omega) (by omega)
    rw [Nat.sub_add_cancel hkn] at hb
    set c := (List.range k).foldl (fun c i => Fl.mul c (Fl.add (Fl.div (Fl.ofNat (n - k)) (Fl.ofNat (i + 1))) 1)) 1
    have hlt : (n.choose k : ℚ) * (6 * k) / 2 ^ 53 < 1 / 2 := by
      rw [div_lt_iff₀ (by positivity)]
      have : ((12 * k * n.choose k : ℕ) : ℚ) < ((2 ^ 53 : ℕ) : ℚ) := by exact_mod_cast h
      push_cast at this
      linarith
    have hab := abs_lt.1 (lt_of_le_of_lt hb hlt)
    have hr : roundAway c = (n.choose k : ℤ) := by
      unfold roundAway
      rw [Int.floor_eq_iff]
      push_cast
      constructor <;> linarith [hab.1, hab.2]
    rw [hr]
    have hC64 : n.choose k < 2 ^ 64 := by
      rcases Nat.eq_zero_or_pos k with rfl | hk0
      · simp
      · have : 1 * n.choose k ≤ 12 * k * n.choose k := Nat.mul_le_mul_right _ (by omega)
        omega
    unfold toU64
    have hC64' : ((n.choose k : ℕ) : ℚ) < 2 ^ 64 := by exact_mod_cast hC64
    rw [if_pos ⟨by positivity, by exact_mod_cast hC64'⟩]
    have : ⌊(((n.choose k : ℕ) : ℤ) : ℚ)⌋ = ((n.choose k : ℕ) : ℤ) := Int.floor_intCast _
    rw [this]; simp

/-- C61. In particular for all the bit counts of words of at most 32 bits. -/
theorem C61_binomial_float_32 (n k : Nat) (hn : n ≤ 32) : binomialCoefficientFl n k = .ok (BitVec.ofNat 64 (n.choose k)) := by
  apply C61_binomial_float n k (by omega)
  by_cases hk : k ≤ n
  · have h1 : n.choose k ≤ 2 ^ n := Nat.choose_le_two_pow n k
    have h2 : (2 : ℕ) ^ n ≤ 2 ^ 32 := Nat.pow_le_pow_right (by norm_num) hn
    have h3 : 12 * k * n.choose k ≤ 12 * 32 * 2 ^ 32 := Nat.mul_le_mul (Nat.mul_le_mul_left _ (by omega)) (h1.trans h2)
    omega
  · rw [Nat.choose_eq_zero_of_lt (by omega)]; simp

/-- C61. For 64-bit words rounding shows: the computed `64 choose 17` is one too small, and differs from the computed
`64 choose 47`, which is one too large. -/
theorem C61_binomial_float_64 :
    binomialCoefficientFl 64 17 = .ok (BitVec.ofNat 64 (Nat.choose 64 17 - 1)) ∧
    binomialCoefficientFl 64 47 = .ok (BitVec.ofNat 64 (Nat.choose 64 17 + 1)) := by
  constructor <;> decide +kernel

end TFR
