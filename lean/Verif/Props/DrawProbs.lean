import Verif.Model.CountStats
import Verif.Lemmas.DrawCount
import Mathlib.Analysis.SpecificLimits.Normed
import Mathlib.Tactic.IntervalCases
/-
C47, C48 (probabilities): the expected distributions of the coupon and divisibility tests.
-/
namespace TFR
open Finset

/-! ### C47 -/

/-- C47. `stirling_second_kind(n, k)` is the Stirling number of the second kind modulo 2^64. -/
theorem C47_stirling (n k : Nat) : stirlingSecondKind n k = BitVec.ofNat 64 (Nat.stirlingSecond n k) := by
  induction n generalizing k with
  | zero => cases k <;> simp [stirlingSecondKind]
  | succ n ih =>
    cases k with
    | zero => simp [stirlingSecondKind]
    | succ k =>
      rw [stirlingSecondKind, ih, ih, Nat.stirlingSecond_succ_succ, BitVec.ofNat_add (n := 64) ((k + 1) * _) _, BitVec.ofNat_mul]

/-- C47. For every number of coupons `d ≥ 1` and every `i ≥ 1` for which `S(i-1, d-1)` fits in 64 bits, the value computed for
length `i` is the fraction of all `d^i` sequences of `i` draws for which all coupons have been seen after the last draw and
not all before it. -/
theorem C47_probability (d i : Nat) (hd : 0 < d) (hfit : Nat.stirlingSecond i (d - 1) < 2 ^ 64) :
    couponProbability d (i + 1) =
      ((univ.filter fun f : Fin (i + 1) → Fin d =>
        (∀ c, ∃ j, f j = c) ∧ ¬ ∀ c, ∃ j : Fin i, f j.castSucc = c).card : ℚ) / (d : ℚ) ^ (i + 1) := by
  have := card_firstComplete d i hd
  have e : (univ.filter fun f : Fin (i + 1) → Fin d =>
        (∀ c, ∃ j, f j = c) ∧ ¬ ∀ c, ∃ j : Fin i, f j.castSucc = c) =
      univ.filter fun f : Fin (i + 1) → Fin d => AllSeen f ∧ ¬ AllSeen (Fin.init f) := by
    apply filter_congr
    intro f _
    rfl
  rw [e, this]
  unfold couponProbability
  rw [Nat.add_sub_cancel, C47_stirling, BitVec.toNat_ofNat, Nat.mod_eq_of_lt hfit]
  push_cast
  ring

private theorem seen_ratio (d n : Nat) (hd : 0 < d) (hfit : Nat.stirlingSecond n (d - 1) < 2 ^ 64) :
    ((univ.filter fun f : Fin (n + 1) → Fin d => AllSeen f).card : ℚ) / (d : ℚ) ^ (n + 1) =
      ((univ.filter fun f : Fin n → Fin d => AllSeen f).card : ℚ) / (d : ℚ) ^ n + couponProbability d (n + 1) := by
  rw [card_allSeen_succ d n hd]
  unfold couponProbability
  rw [Nat.add_sub_cancel, C47_stirling, BitVec.toNat_ofNat, Nat.mod_eq_of_lt hfit]
  have hd' : (d : ℚ) ≠ 0 := by exact_mod_cast hd.ne'
  push_cast
  field_simp
  ring

/-- The computed probabilities, and when the loop stops. -/
private theorem couponLoop_eq (d fuel i : Nat) (ps : List ℚ) (sum : ℚ) :
    ∃ k, k ≤ fuel ∧ couponProbLoop d fuel i ps sum =
        (ps ++ (List.range k).map (fun j => couponProbability d (i + j)),
          sum + ((List.range k).map (fun j => couponProbability d (i + j))).sum) ∧
      (∀ m, m < k → sum + ((List.range m).map (fun j => couponProbability d (i + j))).sum < 99 / 100) ∧
      (k = fuel ∨ 99 / 100 ≤ sum + ((List.range k).map (fun j => couponProbability d (i + j))).sum) := by
  induction fuel generalizing i ps sum with
  | zero => exact ⟨0, le_rfl, by simp [couponProbLoop], by simp, Or.inl rfl⟩
  | succ fuel ih =>
    unfold couponProbLoop
    by_cases h : sum < 99 / 100
    · rw [if_pos h]
      obtain ⟨k, hk, h1, h2, h3⟩ := ih (i + 1) (ps ++ [couponProbability d i]) (sum + couponProbability d i)
      have hshift : ∀ m, (List.range (m + 1)).map (fun j => couponProbability d (i + j)) =
          couponProbability d i :: (List.range m).map (fun j => couponProbability d (i + 1 + j)) := by
        intro m
        rw [List.range_succ_eq_map]
        simp only [List.map_cons, List.map_map, Nat.add_zero]
        congr 1
        apply List.map_congr_left
        intro j _
        simp only [Function.comp, Nat.succ_eq_add_one]
        congr 1; omega
      refine ⟨k + 1, by omega, ?_, ?_, ?_⟩
      · dsimp only
        rw [h1, hshift]
        simp [add_assoc]
      · intro m hm
        cases m with
        | zero => simpa using h
        | succ m =>
          rw [hshift, List.sum_cons, ← add_assoc]
          exact h2 m (by omega)
      · rcases h3 with h3 | h3
        · left; omega
        · right
          rw [hshift, List.sum_cons, ← add_assoc]
          exact h3
    · rw [if_neg h]
      exact ⟨0, by omega, by simp, by simp, Or.inr (by simpa using h)⟩

/-- C47. For every `1 ≤ d ≤ 29` for which no Stirling number up to index 28 overflows (in particular for every `d ≤ 7`, and for
the `d = 5` the test uses): the list of expected probabilities consists of the probabilities of the lengths `d, d+1, ...` up
to the first length at which they add up to 0.99, or up to 29, followed by the probability that not all coupons have been
seen after that many draws.  All are non-negative and they sum to 1. -/
theorem C47_probabilities (d : Nat) (hd : 0 < d) (hd30 : d ≤ 29) (hfit : ∀ n, n < 29 → Nat.stirlingSecond n (d - 1) < 2 ^ 64) :
    ∃ k, k ≤ 30 - d ∧ (couponProbabilities d).length = k + 1 ∧
      (∀ j, j < k → (couponProbabilities d)[j]? = some (couponProbability d (d + j))) ∧
      (couponProbabilities d)[k]? = some
        (((univ.filter fun f : Fin (d + k - 1) → Fin d => ¬ ∀ c, ∃ j, f j = c).card : ℚ) / (d : ℚ) ^ (d + k - 1)) ∧
      (∀ m, m < k → ((couponProbabilities d).take m).sum < 99 / 100) ∧
      (k = 30 - d ∨ 99 / 100 ≤ ((couponProbabilities d).take k).sum) ∧
      (∀ p ∈ couponProbabilities d, 0 ≤ p) ∧ (couponProbabilities d).sum = 1 := by
  obtain ⟨k, hk, h1, h2, h3⟩ := couponLoop_eq d (30 - d) d [] 0
  simp only [List.nil_append, zero_add] at h1 h2 h3
  have hd' : (d : ℚ) ≠ 0 := by exact_mod_cast hd.ne'
  have hcp : couponProbabilities d = (List.range k).map (fun j => couponProbability d (d + j)) ++
      [1 - ((List.range k).map (fun j => couponProbability d (d + j))).sum] := by
    unfold couponProbabilities
    rw [h1]
  have hsum : ∀ m, m ≤ k → ((List.range m).map (fun j => couponProbability d (d + j))).sum =
      ((univ.filter fun f : Fin (d + m - 1) → Fin d => AllSeen f).card : ℚ) / (d : ℚ) ^ (d + m - 1) := by
    intro m hm
    induction m with
    | zero =>
      have : (univ.filter fun f : Fin (d + 0 - 1) → Fin d => AllSeen f) = ∅ := by
        rw [filter_eq_empty_iff]
        intro f _ hf
        rw [allSeen_iff_card] at hf
        have := (card_image_le (s := univ) (f := f))
        rw [hf, card_univ, Fintype.card_fin] at this
        omega
      rw [this]; simp
    | succ m ih =>
      rw [List.range_succ, List.map_append, List.sum_append, ih (by omega)]
      have e : d + (m + 1) - 1 = (d + m - 1) + 1 := by omega
      rw [e, seen_ratio d (d + m - 1) hd (hfit _ (by omega))]
      have e2 : d + m - 1 + 1 = d + m := by omega
      simp [e2]
  have hcompl : 1 - ((List.range k).map (fun j => couponProbability d (d + j))).sum =
      ((univ.filter fun f : Fin (d + k - 1) → Fin d => ¬ AllSeen f).card : ℚ) / (d : ℚ) ^ (d + k - 1) := by
    rw [hsum k le_rfl]
    have := card_filter_add_card_filter_not (s := (univ : Finset (Fin (d + k - 1) → Fin d))) (fun f => AllSeen f)
    rw [card_univ, Fintype.card_fun, Fintype.card_fin, Fintype.card_fin] at this
    have hq : ((univ.filter fun f : Fin (d + k - 1) → Fin d => AllSeen f).card : ℚ) +
        ((univ.filter fun f : Fin (d + k - 1) → Fin d => ¬ AllSeen f).card : ℚ) = (d : ℚ) ^ (d + k - 1) := by
      exact_mod_cast this
    have hp : (d : ℚ) ^ (d + k - 1) ≠ 0 := pow_ne_zero _ hd'
    rw [← hq] at hp ⊢
    field_simp
    ring
  have htake : ∀ m, m ≤ k → (couponProbabilities d).take m = (List.range m).map (fun j => couponProbability d (d + j)) := by
    intro m hm
    rw [hcp, List.take_append_of_le_length (by simpa using hm), ← List.map_take, List.take_range, Nat.min_eq_left hm]
  refine ⟨k, hk, by rw [hcp]; simp, ?_, ?_, ?_, ?_, ?_, ?_⟩
  · intro j hj
    rw [hcp, List.getElem?_append_left (by simpa using hj)]
    simp [hj]
  · rw [hcp, List.getElem?_append_right (by simp), hcompl]
    simp only [List.length_map, List.length_range, Nat.sub_self, List.getElem?_cons_zero]
    rfl
  · intro m hm
    rw [htake m (by omega)]
    exact h2 m hm
  · rw [htake k le_rfl]
    exact h3
  · intro p hp
    rw [hcp] at hp
    rcases List.mem_append.1 hp with hp | hp
    · obtain ⟨j, -, rfl⟩ := List.mem_map.1 hp
      unfold couponProbability
      positivity
    · rw [List.mem_singleton.1 hp, hcompl]
      positivity
  · rw [hcp, List.sum_append]
    simp

private theorem fits7 : ∀ d, d < 8 → ∀ n, n < 29 → Nat.stirlingSecond n (d - 1) < 2 ^ 64 := by decide +kernel

/-- C47. No overflow for up to 7 coupons, so `C47_probabilities` applies. -/
theorem C47_no_overflow (d : Nat) (hd : d ≤ 7) (n : Nat) (hn : n < 29) : Nat.stirlingSecond n (d - 1) < 2 ^ 64 :=
  fits7 d (by omega) n hn

/-- C47, the boundary of the previous theorem: with 8 coupons the 64-bit Stirling number for length 29 has wrapped around. -/
theorem C47_overflow_8 : couponProbability 8 29 ≠ (Nat.factorial 8 : ℚ) / 8 ^ 29 * (Nat.stirlingSecond 28 7 : ℚ) := by
  unfold couponProbability
  have h : (stirlingSecondKind (29 - 1) (8 - 1)).toNat < 2 ^ 64 := BitVec.isLt _
  have h2 : 2 ^ 64 ≤ Nat.stirlingSecond 28 7 := by decide +kernel
  intro heq
  have h3 : ((stirlingSecondKind (29 - 1) (8 - 1)).toNat : ℚ) = (Nat.stirlingSecond 28 7 : ℚ) := by
    have hne : (Nat.factorial 8 : ℚ) / 8 ^ 29 ≠ 0 := by positivity
    exact mul_left_cancel₀ hne (by exact_mod_cast heq)
  have h4 : (stirlingSecondKind (29 - 1) (8 - 1)).toNat = Nat.stirlingSecond 28 7 := by exact_mod_cast h3
  omega

/-- C47, non-vacuity: for two coupons the probabilities are 1/2, 1/4, ..., 1/128 and the tail 1/128. -/
example : couponProbabilities 2 = [1/2, 1/4, 1/8, 1/16, 1/32, 1/64, 1/128, 1/128] := by decide +kernel

/-! ### C48 -/

/-- C48. For every divisor `D ≥ 1`, group size `r ≥ 1` and `k`: the expected probability of entry `k` is the fraction of all
`D^(r+k)` residue sequences of length `r + k` which complete a group of `r` zero residues exactly at the last value. -/
theorem C48_probability (D r k : Nat) (hD : 0 < D) :
    negativeBinomialPdf (r + 1) (1 / D) k =
      ((univ.filter fun f : Fin (r + k + 1) → Fin D =>
        r + 1 ≤ (univ.filter fun j => (f j).val = 0).card ∧
        ¬ r + 1 ≤ (univ.filter fun j : Fin (r + k) => (f j.castSucc).val = 0).card).card : ℝ) / (D : ℝ) ^ (r + k + 1) := by
  have := card_groupComplete D hD (r + k) r
  have e : (univ.filter fun f : Fin (r + k + 1) → Fin D =>
        r + 1 ≤ (univ.filter fun j => (f j).val = 0).card ∧
        ¬ r + 1 ≤ (univ.filter fun j : Fin (r + k) => (f j.castSucc).val = 0).card) =
      univ.filter fun f : Fin (r + k + 1) → Fin D => r + 1 ≤ zeros f ∧ ¬ r + 1 ≤ zeros (Fin.init f) := by
    apply filter_congr
    intro f _
    rfl
  rw [e, this]
  unfold negativeBinomialPdf
  have h1 : k + (r + 1) - 1 = r + k := by omega
  have h2 : r + k - r = k := by omega
  rw [h1, h2, Nat.add_sub_cancel]
  have hD' : (D : ℝ) ≠ 0 := by exact_mod_cast hD.ne'
  have h3 : 1 - 1 / (D : ℝ) = ((D - 1 : ℕ) : ℝ) / D := by
    rw [Nat.cast_sub hD]; field_simp; simp
  rw [h3, div_pow, one_div, inv_pow]
  push_cast
  have h4 : (D : ℝ) ^ (r + k + 1) = (D : ℝ) ^ k * (D : ℝ) ^ (r + 1) := by rw [← pow_add]; congr 1; omega
  rw [h4]
  field_simp

private theorem nb_hasSum (D r : Nat) (hD : 0 < D) : HasSum (fun k => negativeBinomialPdf (r + 1) (1 / D) k) 1 := by
  have hD1 : (1 : ℝ) ≤ D := by exact_mod_cast hD
  have hp : 0 < 1 / (D : ℝ) := by positivity
  have hq : ‖1 - 1 / (D : ℝ)‖ < 1 := by
    rw [Real.norm_eq_abs, abs_lt]
    constructor
    · have : 1 / (D : ℝ) ≤ 1 := by rw [div_le_one (by linarith)]; exact hD1
      linarith
    · linarith
  have hs := hasSum_choose_mul_geometric_of_norm_lt_one r hq
  have hs2 := hs.mul_right ((1 / (D : ℝ)) ^ (r + 1))
  have e : 1 / (1 - (1 - 1 / (D : ℝ))) ^ (r + 1) * (1 / (D : ℝ)) ^ (r + 1) = 1 := by
    rw [sub_sub_cancel]
    field_simp
  rw [e] at hs2
  exact hs2

private theorem nb_nonneg (D r k : Nat) (hD : 0 < D) : 0 ≤ negativeBinomialPdf r (1 / D) k := by
  have hD1 : (1 : ℝ) ≤ D := by exact_mod_cast hD
  have : 1 / (D : ℝ) ≤ 1 := by rw [div_le_one (by linarith)]; exact hD1
  unfold negativeBinomialPdf
  have h1 : 0 ≤ 1 - 1 / (D : ℝ) := by linarith
  positivity

private theorem divLoop_eq (D r k i : Nat) (ps : List ℝ) (hik : i ≤ k) (S : Nat → ℝ)
    (hS : ∀ i, S (i + 1) = S i + negativeBinomialPdf r (1 / D) i)
    (hlt : ∀ j, j < k → S j < 99 / 100) (hge : ¬ S k < 99 / 100) :
    divProbLoop D r ps (S i) i =
      some (ps ++ (List.range (k - i)).map (fun j => negativeBinomialPdf r (1 / D) (i + j)), S k) := by
  induction hd : k - i generalizing i ps with
  | zero =>
    have : i = k := by omega
    subst this
    rw [divProbLoop, if_neg hge]
    simp
  | succ d ih =>
    have hi : i < k := by omega
    rw [divProbLoop, if_pos (hlt i hi)]
    dsimp only
    rw [← hS, ih (i + 1) _ (by omega) (by omega)]
    congr 2
    rw [List.append_assoc, List.range_succ_eq_map]
    simp only [List.map_cons, List.map_map, List.singleton_append, Nat.add_zero]
    congr 2
    apply List.map_congr_left
    intro j _
    simp only [Function.comp, Nat.succ_eq_add_one]
    congr 1
    omega

/-- C48. For every divisor and group size `≥ 1` the list of expected probabilities exists (the loop ends): it consists of the
negative binomial probabilities `0, ..., k-1`, where `k` is the least number at which they add up to 0.99, followed by the rest.
All are non-negative and they sum to 1. -/
theorem C48_probabilities (D r : Nat) (hD : 0 < D) :
    ∃ k ps, divProbabilities D (r + 1) = some ps ∧ ps.length = k + 1 ∧
      (∀ j, j < k → ps[j]? = some (negativeBinomialPdf (r + 1) (1 / D) j)) ∧
      (∀ m, m < k → (ps.take m).sum < 99 / 100) ∧ 99 / 100 ≤ (ps.take k).sum ∧
      (∀ p ∈ ps, 0 ≤ p) ∧ ps.sum = 1 := by
  let S : Nat → ℝ := fun m => ((List.range m).map fun j => negativeBinomialPdf (r + 1) (1 / D) j).sum
  have hSr : ∀ m, S m = ∑ j ∈ range m, negativeBinomialPdf (r + 1) (1 / D) j := by
    intro m
    induction m with
    | zero => simp [S]
    | succ m ih => rw [sum_range_succ, ← ih]; simp [S, List.range_succ]
  have hsum := nb_hasSum D r hD
  have hle : ∀ m, S m ≤ 1 := by
    intro m
    rw [hSr]
    exact sum_le_hasSum _ (fun j _ => nb_nonneg D (r + 1) j hD) hsum
  have hex : ∃ k, ¬ S k < 99 / 100 := by
    have ht := hsum.tendsto_sum_nat
    have := (ht.eventually (lt_mem_nhds (show (99 / 100 : ℝ) < 1 by norm_num))).exists
    obtain ⟨k, hk⟩ := this
    exact ⟨k, by rw [hSr, not_lt]; exact hk.le⟩
  classical
  let k := Nat.find hex
  have hk := Nat.find_spec hex
  have hmin : ∀ j, j < k → S j < 99 / 100 := fun j hj => not_not.1 (Nat.find_min hex hj)
  have hloop := divLoop_eq D (r + 1) k 0 [] (by omega) S (by intro i; simp [S, List.range_succ]) hmin hk
  have hS0 : S 0 = 0 := by simp [S]
  simp only [hS0, Nat.sub_zero, List.nil_append, Nat.zero_add] at hloop
  have htake : ∀ m, m ≤ k → ((List.range k).map (fun j => negativeBinomialPdf (r + 1) (1 / D) j) ++ [1 - S k]).take m =
      (List.range m).map (fun j => negativeBinomialPdf (r + 1) (1 / D) j) := by
    intro m hm
    rw [List.take_append_of_le_length (by simpa using hm), ← List.map_take, List.take_range, Nat.min_eq_left hm]
  refine ⟨k, (List.range k).map (fun j => negativeBinomialPdf (r + 1) (1 / D) j) ++ [1 - S k], ?_, by simp, ?_, ?_, ?_, ?_, ?_⟩
  · unfold divProbabilities
    rw [hloop]
    rfl
  · intro j hj
    rw [List.getElem?_append_left (by simpa using hj)]
    simp [hj]
  · intro m hm
    rw [htake m hm.le]; exact hmin m hm
  · rw [htake k le_rfl]; exact not_lt.1 hk
  · intro p hp
    rcases List.mem_append.1 hp with hp | hp
    · obtain ⟨j, -, rfl⟩ := List.mem_map.1 hp
      exact nb_nonneg D (r + 1) j hD
    · rw [List.mem_singleton.1 hp]; linarith [hle k]
  · rw [List.sum_append]; simp [S]

/-- C48, non-vacuity: with divisor 2 and groups of one, entry `k` has probability `2^-(k+1)`. -/
example : negativeBinomialPdf 1 (1 / 2) 3 = 1 / 16 := by
  unfold negativeBinomialPdf
  norm_num

end TFR
