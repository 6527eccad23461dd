import Verif.Lemmas.RunsReal
import Verif.Props.PowerRuns
import Mathlib.Data.Int.CardIntervalMod
/-
Runs in one bit of a counter.
-/
namespace TFR
open Finset Spec

theorem blocks_cons_ge (x : Bool) (l : List Bool) : blocks l ≤ blocks (x :: l) ∧ blocks (x :: l) ≤ blocks l + 1 := by
  cases l with
  | nil => rw [blocks_single]; simp [blocks]
  | cons y l =>
    rw [blocks_cons_cons]
    split <;> omega

/-- Leaving out elements does not make more blocks. -/
theorem blocks_sublist (l₁ l₂ : List Bool) (h : l₁.Sublist l₂) : blocks l₁ ≤ blocks l₂ ∧ ∀ x, blocks (x :: l₁) ≤ blocks (x :: l₂) := by
  induction h with
  | slnil => simp
  | cons y _ ih =>
    rename_i l₁ l₂ _
    refine ⟨ih.1.trans (blocks_cons_ge y l₂).1, fun x => ?_⟩
    rw [blocks_cons_cons]
    by_cases hxy : x = y
    · subst hxy; rw [if_pos rfl, zero_add]; exact ih.2 x
    · rw [if_neg hxy]
      have h1 := ih.2 y
      have h2 := (blocks_cons_ge x l₁).2
      have h3 := (blocks_cons_ge y l₁).1
      omega
  | cons_cons y _ ih =>
    rename_i l₁ l₂ _
    refine ⟨ih.2 y, fun x => ?_⟩
    rw [blocks_cons_cons, blocks_cons_cons]
    have := ih.2 y
    omega

/-- Bit `j` changes from `y` to `y + 1` exactly if `2^j` divides `y + 1`. -/
theorem testBit_succ_ne (y j : Nat) : (y + 1).testBit j ≠ y.testBit j ↔ 2 ^ j ∣ y + 1 := by
  rw [Nat.testBit_eq_decide_div_mod_eq, Nat.testBit_eq_decide_div_mod_eq]
  have hp : 0 < 2 ^ j := by positivity
  rw [Nat.succ_div]
  by_cases h : 2 ^ j ∣ y + 1
  · rw [if_pos h]
    simp only [h, iff_true, ne_eq, decide_eq_decide]
    omega
  · rw [if_neg h]
    simp [h]

theorem blocks_counter (j k : Nat) (c : Bool) : blocks ((List.range (2 ^ k)).map fun i => (i + 1).testBit j != c) ≤ 1 + 2 ^ k / 2 ^ j := by
  obtain ⟨m, hm⟩ : ∃ m, 2 ^ k = m + 1 := ⟨2 ^ k - 1, (Nat.sub_add_cancel Nat.one_le_two_pow).symm⟩
  rw [hm, blocks_map]
  apply Nat.add_le_add_left
  have h1 : ((List.range m).countP fun i => ((i + 1 + 1).testBit j != c) != ((i + 1).testBit j != c)) ≤ #{e ∈ range (m + 1) | 2 ^ j ∣ e + 1} := by
    rw [List.countP_eq_length_filter, ← List.toFinset_card_of_nodup (List.nodup_range.filter _)]
    refine (card_le_card_of_injOn (fun i => i + 1) ?_ ?_)
    · intro i hi
      simp only [coe_filter, mem_range, Set.mem_ofPred_eq, List.coe_toFinset, List.mem_filter, List.mem_range] at hi ⊢
      refine ⟨by omega, (testBit_succ_ne _ _).1 fun h => ?_⟩
      have := hi.2
      rw [h] at this
      simp at this
    · intro a _ b _ h
      simpa using h
  refine h1.trans ?_
  rw [Nat.card_multiples]

/-- Half of the numbers `1, ..., 2^k` have bit `j < k`. -/
theorem count_testBit (k j : Nat) (hj : j < k) (c : Bool) : (List.range (2 ^ k)).countP (fun i => (i + 1).testBit j != c) = 2 ^ (k - 1) := by
  have base : ∀ k j, j < k → (List.range (2 ^ k)).countP (fun i => i.testBit j) = 2 ^ (k - 1) := by
    intro k
    induction k with
    | zero => intro j hj; omega
    | succ k ih =>
      intro j hj
      have e : 2 ^ (k + 1) = 2 ^ k + 2 ^ k := by rw [pow_succ]; ring
      rw [e, List.range_add, List.countP_append, List.countP_map, Nat.add_sub_cancel]
      by_cases hjk : j = k
      · subst hjk
        have h1 : (List.range (2 ^ j)).countP (fun i => i.testBit j) = 0 := by
          rw [List.countP_eq_zero]
          intro i hi
          rw [Nat.testBit_lt_two_pow (List.mem_range.1 hi)]; simp
        have h2 : (List.range (2 ^ j)).countP ((fun i => i.testBit j) ∘ fun x => 2 ^ j + x) = 2 ^ j := by
          rw [List.countP_eq_length.2, List.length_range]
          intro i hi
          simp [Nat.testBit_two_pow_add_eq, Nat.testBit_lt_two_pow (List.mem_range.1 hi)]
        rw [h1, h2, zero_add]
      · have hj' : j < k := by omega
        have h2 : (List.range (2 ^ k)).countP ((fun i => i.testBit j) ∘ fun x => 2 ^ k + x) = (List.range (2 ^ k)).countP (fun i => i.testBit j) := by
          apply List.countP_congr
          intro i _
          simp [Nat.testBit_two_pow_add_gt hj']
        rw [h2, ih j hj']
        obtain ⟨k', rfl⟩ : ∃ k', k = k' + 1 := ⟨k - 1, by omega⟩
        rw [Nat.add_sub_cancel, pow_succ]; ring
  have shift : (List.range (2 ^ k)).countP (fun i => (i + 1).testBit j) = 2 ^ (k - 1) := by
    have h1 : (List.range (2 ^ k + 1)).countP (fun i => i.testBit j) = 2 ^ (k - 1) := by
      rw [List.range_succ, List.countP_append, base k j hj, List.countP_singleton, Nat.testBit_two_pow]
      have : ¬ k = j := by omega
      simp [this]
    rw [List.range_succ_eq_map, List.countP_cons, List.countP_map] at h1
    rw [show (fun i : ℕ => (i + 1).testBit j) = (fun i => i.testBit j) ∘ Nat.succ from rfl]
    simpa using h1
  cases c
  · simpa using shift
  · have h2 := List.length_eq_countP_add_countP (fun i => (i + 1).testBit j) (l := List.range (2 ^ k))
    rw [List.length_range, shift] at h2
    have h3 : (List.range (2 ^ k)).countP (fun i => (i + 1).testBit j != true) = (List.range (2 ^ k)).countP (fun i => decide ¬ (i + 1).testBit j = true) := by
      apply List.countP_congr
      intro i _
      simp
    rw [h3]
    have h4 : 2 ^ k = 2 ^ (k - 1) + 2 ^ (k - 1) := by
      obtain ⟨k', rfl⟩ : ∃ k', k = k' + 1 := ⟨k - 1, by omega⟩
      rw [Nat.add_sub_cancel, pow_succ]; ring
    omega

/-- How many of the numbers `1, ..., 2^k` are `q` modulo `2^w`. -/
theorem count_residue (k w q : Nat) (hq : q < 2 ^ w) :
    (List.range (2 ^ k)).countP (fun i => decide ((i + 1) % 2 ^ w = q)) ≤ 2 ^ k / 2 ^ w + 1 ∧
    (w ≤ k → (List.range (2 ^ k)).countP (fun i => decide ((i + 1) % 2 ^ w = q)) = 2 ^ (k - w)) := by
  have hp : 0 < 2 ^ w := by positivity
  have h1 : (List.range (2 ^ k)).countP (fun i => decide ((i + 1) % 2 ^ w = q)) = (2 ^ k).count (· ≡ (q + 2 ^ w - 1) [MOD 2 ^ w]) := by
    rw [List.countP_eq_length_filter, ← List.toFinset_card_of_nodup (List.nodup_range.filter _), Nat.count_eq_card_filter_range]
    congr 1
    ext i
    simp only [List.mem_toFinset, List.mem_filter, List.mem_range, mem_filter, mem_range, decide_eq_true_eq]
    refine and_congr_right fun _ => ?_
    have e : q + 2 ^ w - 1 + 1 ≡ q [MOD 2 ^ w] := by
      rw [show q + 2 ^ w - 1 + 1 = q + 2 ^ w by omega]
      exact Nat.add_modEq_right
    constructor
    · intro h
      apply Nat.ModEq.add_right_cancel' 1
      refine Nat.ModEq.trans ?_ e.symm
      unfold Nat.ModEq
      rw [h, Nat.mod_eq_of_lt hq]
    · intro h
      have := (Nat.ModEq.add_right 1 h).trans e
      unfold Nat.ModEq at this
      rwa [Nat.mod_eq_of_lt hq] at this
  rw [h1, Nat.count_modEq_card _ hp]
  refine ⟨by split <;> omega, fun h => ?_⟩
  have : 2 ^ k % 2 ^ w = 0 := Nat.mod_eq_zero_of_dvd (Nat.pow_dvd_pow 2 h)
  rw [this, if_neg (by omega), add_zero, Nat.pow_div h (by norm_num)]

/-- Every second number below `2h`. -/
theorem sublist_parity (h e : Nat) (he : e < 2) : ((List.range h).map fun u => 2 * u + e).Sublist (List.range (2 * h)) := by
  induction h with
  | zero => simp
  | succ h ih =>
    rw [List.range_succ, List.map_append, show 2 * (h + 1) = 2 * h + 1 + 1 by ring, List.range_succ, List.range_succ, List.append_assoc]
    refine ih.append ?_
    rcases (by omega : e = 0 ∨ e = 1) with rfl | rfl
    · simp
    · simp

/-- Leaving out an element loses at most two blocks. -/
theorem blocks_filter (f keep : Nat → Bool) (xs : List Nat) :
    blocks (xs.map f) ≤ blocks ((xs.filter keep).map f) + 2 * xs.countP (fun i => !keep i) := by
  have gen : ∀ xs : List Nat, (blocks (xs.map f) ≤ blocks ((xs.filter keep).map f) + 2 * xs.countP (fun i => !keep i)) ∧
      ∀ x, blocks (x :: xs.map f) ≤ blocks (x :: (xs.filter keep).map f) + 2 * xs.countP (fun i => !keep i) := by
    intro xs
    induction xs with
    | nil => simp
    | cons y xs ih =>
      rw [List.countP_cons, List.map_cons]
      cases hk : keep y
      · rw [List.filter_cons_of_neg (by simp [hk])]
        simp only [Bool.not_false, if_true]
        refine ⟨?_, fun x => ?_⟩
        · have := (blocks_cons_ge (f y) (xs.map f)).2
          have := ih.1
          omega
        · have h1 := (blocks_cons_ge x (f y :: xs.map f)).2
          have h2 := (blocks_cons_ge (f y) (xs.map f)).2
          have h3 := (blocks_cons_ge x (xs.map f)).1
          have h4 := ih.2 x
          omega
      · rw [List.filter_cons_of_pos hk, List.map_cons]
        simp only [Bool.not_true, Bool.false_eq_true, if_false, add_zero]
        refine ⟨ih.2 (f y), fun x => ?_⟩
        rw [blocks_cons_cons, blocks_cons_cons]
        have := ih.2 (f y)
        omega
  exact (gen xs).1

/-- An alternating sequence. -/
theorem blocks_alternating (h : Nat) (c : Bool) : blocks ((List.range h).map fun u => (u.testBit 0) != c) = h := by
  cases h with
  | zero => rfl
  | succ h =>
    rw [blocks_map, List.countP_eq_length.2, List.length_range]
    · ring
    · intro u _
      have := (testBit_succ_ne u 0).2 (by simp)
      revert this
      generalize (u + 1).testBit 0 = x
      generalize u.testBit 0 = y
      cases x <;> cases y <;> cases c <;> simp

/-! ### z-scores -/

theorem runs_num_reject (H m r : ℝ) (hH : 512 ≤ H) (hm0 : 0 ≤ m) (hm : m ≤ H / 64) (hr : r ≤ 2 + H / 2 ∨ 3 / 2 * H ≤ r) :
    let μ := 2 * H * (H - m) / (H + (H - m)) + 1
    6.2 ^ 2 * ((μ - 1) * (μ - 2) / (H + (H - m))) ≤ (r - μ) ^ 2 ∧ 0 < (μ - 1) * (μ - 2) / (H + (H - m)) := by
  intro μ
  have hN : 0 < H + (H - m) := by linarith
  have h1 : H - m ≤ μ - 1 := by
    show H - m ≤ 2 * H * (H - m) / (H + (H - m)) + 1 - 1
    rw [add_sub_cancel_right, le_div_iff₀ hN]
    nlinarith
  have h2 : μ - 1 ≤ H := by
    show 2 * H * (H - m) / (H + (H - m)) + 1 - 1 ≤ H
    rw [add_sub_cancel_right, div_le_iff₀ hN]
    nlinarith
  clear_value μ
  have hv : (μ - 1) * (μ - 2) / (H + (H - m)) ≤ 51 / 100 * H := by
    rw [div_le_iff₀ hN]
    nlinarith
  refine ⟨?_, div_pos (mul_pos (by linarith) (by linarith)) hN⟩
  have hd : (47 / 100 * H) ^ 2 ≤ (r - μ) ^ 2 := by
    rw [sq_le_sq, abs_of_nonneg (by linarith : (0:ℝ) ≤ 47 / 100 * H)]
    rcases hr with h | h
    · rw [abs_of_nonpos (by linarith)]; linarith
    · rw [abs_of_nonneg (by linarith)]; linarith
  nlinarith

theorem runs_num_accept (H m r : ℝ) (hH : 512 ≤ H) (hH2 : H ≤ 2 ^ 24) (hm0 : 0 ≤ m) (hm : m ≤ H / 2 ^ 15 + 1) (hr : H ≤ r) (hr2 : r ≤ 2 + H) :
    let μ := 2 * H * (H - m) / (H + (H - m)) + 1
    (r - μ) ^ 2 ≤ 6 ^ 2 * ((μ - 1) * (μ - 2) / (H + (H - m))) ∧ 0 < (μ - 1) * (μ - 2) / (H + (H - m)) := by
  intro μ
  norm_num at hm hH2
  have hmH : m ≤ H / 64 := by linarith
  have hN : 0 < H + (H - m) := by linarith
  have h1 : H - m ≤ μ - 1 := by
    show H - m ≤ 2 * H * (H - m) / (H + (H - m)) + 1 - 1
    rw [add_sub_cancel_right, le_div_iff₀ hN]
    nlinarith
  have h2 : μ - 1 ≤ H := by
    show 2 * H * (H - m) / (H + (H - m)) + 1 - 1 ≤ H
    rw [add_sub_cancel_right, div_le_iff₀ hN]
    nlinarith
  clear_value μ
  have hv : 2 / 5 * H ≤ (μ - 1) * (μ - 2) / (H + (H - m)) := by
    rw [le_div_iff₀ hN]
    have e1 : 63 / 64 * H ≤ μ - 1 := by linarith
    have e2 : 62 / 64 * H ≤ μ - 2 := by linarith
    have : (63 / 64 * H) * (62 / 64 * H) ≤ (μ - 1) * (μ - 2) := mul_le_mul e1 e2 (by linarith) (by linarith)
    nlinarith
  refine ⟨?_, lt_of_lt_of_le (by linarith) hv⟩
  have hd : (r - μ) ^ 2 ≤ (H / 32768 + 3) ^ 2 := by
    rw [sq_le_sq, abs_of_nonneg (by linarith : (0:ℝ) ≤ H / 32768 + 3), abs_le]
    constructor <;> linarith
  nlinarith

theorem runs_num_narrow (H m r : ℝ) (hH : 2 ^ 24 = H) (hm : m = H / 128) (hr : H ≤ r) :
    let μ : ℝ := 2 * H * (H - m) / (H + (H - m)) + 1
    6.2 ^ 2 * ((μ - 1) * (μ - 2) / (H + (H - m))) ≤ (r - μ) ^ 2 ∧ 0 < (μ - 1) * (μ - 2) / (H + (H - m)) := by
  intro μ
  have hH0 : 0 < H := by rw [← hH]; positivity
  have hHl : 16000000 ≤ H := by rw [← hH]; norm_num
  have hHu : H ≤ 17000000 := by rw [← hH]; norm_num
  have e : μ = 254 / 255 * H + 1 := by
    show 2 * H * (H - m) / (H + (H - m)) + 1 = _
    subst hm
    field_simp
    ring
  have eN : H + (H - m) = 255 / 128 * H := by subst hm; ring
  rw [eN]
  clear_value μ
  subst e
  have hv : (254 / 255 * H + 1 - 1) * (254 / 255 * H + 1 - 2) / (255 / 128 * H) = (254 / 255) * (128 / 255) * (254 / 255 * H - 1) := by
    field_simp
    ring
  rw [hv]
  refine ⟨?_, by nlinarith⟩
  have h1 : (60000 : ℝ) ^ 2 ≤ (r - (254 / 255 * H + 1)) ^ 2 := by
    apply pow_le_pow_left₀ (by norm_num)
    linarith
  nlinarith
end TFR
