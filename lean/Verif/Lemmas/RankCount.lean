import Mathlib.LinearAlgebra.Matrix.Rank
import Mathlib.LinearAlgebra.FiniteDimensional.Lemmas
import Mathlib.FieldTheory.Finiteness
import Mathlib.Data.ZMod.Basic
import Mathlib.Algebra.Field.ZMod
import Mathlib.Algebra.BigOperators.Fin
import Mathlib.Data.Real.Basic
import Mathlib.Tactic.Ring
import Mathlib.Tactic.FieldSimp
import Mathlib.Tactic.Linarith
import Mathlib.Tactic.Positivity
/-
Counting the bit matrices of given rank.
-/
namespace TFR
open Module

abbrev F2 := ZMod 2

/-- Rank of a list of rows: dimension of their span. -/
noncomputable def rowRank {m n : Nat} (A : Fin m → Fin n → F2) : Nat := finrank F2 (Submodule.span F2 (Set.range A))

/-- Number of families of `m` rows of length `n` with rank `r`. -/
noncomputable def rankCount (m n r : Nat) : Nat := Nat.card {A : Fin m → Fin n → F2 // rowRank A = r}

theorem span_range_cons {m n : Nat} (v : Fin n → F2) (A : Fin m → Fin n → F2) :
    Submodule.span F2 (Set.range (Fin.cons v A : Fin (m + 1) → Fin n → F2)) =
      Submodule.span F2 {v} ⊔ Submodule.span F2 (Set.range A) := by
  rw [Fin.range_cons, Submodule.span_insert]

theorem rowRank_cons_mem {m n : Nat} (v : Fin n → F2) (A : Fin m → Fin n → F2)
    (h : v ∈ Submodule.span F2 (Set.range A)) : rowRank (Fin.cons v A : Fin (m + 1) → Fin n → F2) = rowRank A := by
  unfold rowRank
  rw [span_range_cons, sup_eq_right.2]
  rw [Submodule.span_le]; simpa using h

theorem rowRank_cons_not_mem {m n : Nat} (v : Fin n → F2) (A : Fin m → Fin n → F2)
    (h : v ∉ Submodule.span F2 (Set.range A)) : rowRank (Fin.cons v A : Fin (m + 1) → Fin n → F2) = rowRank A + 1 := by
  unfold rowRank
  rw [span_range_cons]
  have hv : v ≠ 0 := by rintro rfl; exact h (Submodule.zero_mem _)
  have hsum := Submodule.finrank_sup_add_finrank_inf_eq (Submodule.span F2 {v}) (Submodule.span F2 (Set.range A))
  have hdisj : Submodule.span F2 {v} ⊓ Submodule.span F2 (Set.range A) = ⊥ := by
    rw [eq_bot_iff]
    intro x hx
    obtain ⟨h1, h2⟩ := Submodule.mem_inf.1 hx
    obtain ⟨a, rfl⟩ := Submodule.mem_span_singleton.1 h1
    by_cases ha : a = 0
    · simp [ha]
    · exfalso
      apply h
      have := Submodule.smul_mem _ a⁻¹ h2
      rwa [smul_smul, inv_mul_cancel₀ ha, one_smul] at this
  rw [hdisj, finrank_bot, finrank_span_singleton hv] at hsum
  omega

theorem rowRank_le {m n : Nat} (A : Fin m → Fin n → F2) : rowRank A ≤ n := by
  have := Submodule.finrank_le (Submodule.span F2 (Set.range A))
  rw [finrank_fin_fun] at this
  exact this

theorem card_mem_span {m n : Nat} (A : Fin m → Fin n → F2) :
    Nat.card {v : Fin n → F2 // v ∈ Submodule.span F2 (Set.range A)} = 2 ^ rowRank A := by
  have := Module.natCard_eq_pow_finrank (K := F2) (V := Submodule.span F2 (Set.range A))
  rw [Nat.card_zmod] at this
  exact this

theorem card_not_mem_span {m n : Nat} (A : Fin m → Fin n → F2) :
    Nat.card {v : Fin n → F2 // v ∉ Submodule.span F2 (Set.range A)} = 2 ^ n - 2 ^ rowRank A := by
  classical
  have h := card_mem_span A
  rw [Nat.card_eq_fintype_card] at h ⊢
  rw [Fintype.card_subtype_compl, h]
  congr 1
  simp [Fintype.card_pi, ZMod.card]

/-- The number of ways to extend `A` by one row to rank `k`. -/
theorem card_extend {m n k : Nat} (A : Fin m → Fin n → F2) :
    Nat.card {v : Fin n → F2 // rowRank (Fin.cons v A : Fin (m + 1) → Fin n → F2) = k} =
      if k = rowRank A then 2 ^ rowRank A else if k = rowRank A + 1 then 2 ^ n - 2 ^ rowRank A else 0 := by
  split
  · next h =>
    subst h
    rw [← card_mem_span A]
    apply Nat.card_congr
    apply Equiv.subtypeEquivRight
    intro v
    by_cases hv : v ∈ Submodule.span F2 (Set.range A)
    · simp [hv, rowRank_cons_mem v A hv]
    · simp [hv, rowRank_cons_not_mem v A hv]
  · next h =>
    split
    · next h2 =>
      subst h2
      rw [← card_not_mem_span A]
      apply Nat.card_congr
      apply Equiv.subtypeEquivRight
      intro v
      by_cases hv : v ∈ Submodule.span F2 (Set.range A)
      · simp [hv, rowRank_cons_mem v A hv]
      · simp [hv, rowRank_cons_not_mem v A hv]
    · next h2 =>
      rw [Nat.card_eq_zero]
      left
      constructor
      rintro ⟨v, hv⟩
      by_cases hm : v ∈ Submodule.span F2 (Set.range A)
      · rw [rowRank_cons_mem v A hm] at hv; exact h hv.symm
      · rw [rowRank_cons_not_mem v A hm] at hv; exact h2 hv.symm

theorem rankCount_succ_sum (m n k : Nat) :
    rankCount (m + 1) n k = ∑ A : Fin m → Fin n → F2,
      Nat.card {v : Fin n → F2 // rowRank (Fin.cons v A : Fin (m + 1) → Fin n → F2) = k} := by
  classical
  unfold rankCount
  rw [← Nat.card_sigma]
  apply Nat.card_congr
  refine ⟨fun B => ⟨Fin.tail B.1, ⟨B.1 0, ?_⟩⟩, fun x => ⟨Fin.cons x.2.1 x.1, x.2.2⟩, ?_, ?_⟩
  · show rowRank (Fin.cons (B.1 0) (Fin.tail B.1)) = k
    rw [Fin.cons_self_tail]; exact B.2
  · rintro ⟨B, hB⟩
    apply Subtype.ext
    exact Fin.cons_self_tail B
  · rintro ⟨A, v, hv⟩
    rfl

theorem rankCount_eq_sum (m n k : Nat) : rankCount m n k = ∑ A : Fin m → Fin n → F2, if k = rowRank A then 1 else 0 := by
  classical
  unfold rankCount
  rw [Nat.card_eq_fintype_card, Fintype.card_subtype, Finset.card_filter]
  apply Finset.sum_congr rfl
  intro A _
  by_cases h : rowRank A = k
  · simp [h]
  · rw [if_neg h, if_neg (fun q => h q.symm)]

theorem rankCount_zero_rows (n k : Nat) : rankCount 0 n k = if k = 0 then 1 else 0 := by
  rw [rankCount_eq_sum]
  have : ∀ A : Fin 0 → Fin n → F2, rowRank A = 0 := by
    intro A; unfold rowRank
    rw [Set.range_eq_empty, Submodule.span_empty, finrank_bot]
  simp [this]

theorem rankCount_succ_zero (m n : Nat) : rankCount (m + 1) n 0 = rankCount m n 0 := by
  rw [rankCount_succ_sum, rankCount_eq_sum]
  apply Finset.sum_congr rfl
  intro A _
  rw [card_extend]
  by_cases h : 0 = rowRank A
  · simp [← h]
  · simp [h]

theorem rankCount_succ_succ (m n r : Nat) :
    rankCount (m + 1) n (r + 1) = 2 ^ (r + 1) * rankCount m n (r + 1) + (2 ^ n - 2 ^ r) * rankCount m n r := by
  rw [rankCount_succ_sum, rankCount_eq_sum, rankCount_eq_sum, Finset.mul_sum, Finset.mul_sum, ← Finset.sum_add_distrib]
  apply Finset.sum_congr rfl
  intro A _
  rw [card_extend]
  by_cases h : r + 1 = rowRank A
  · rw [if_pos h, if_pos h, if_neg (by omega), ← h]; simp
  · rw [if_neg h, if_neg h]
    by_cases h2 : r = rowRank A
    · subst h2; simp
    · rw [if_neg (by omega), if_neg h2]; simp

/-! closed form -/

/-- `Π_{i<r} (2^m - 2^i)`. -/
noncomputable def descPow (m r : Nat) : ℝ := ∏ i ∈ Finset.range r, ((2 : ℝ) ^ m - 2 ^ i)

theorem descPow_succ (m r : Nat) : descPow m (r + 1) = descPow m r * (2 ^ m - 2 ^ r) := Finset.prod_range_succ _ _

theorem descPow_succ_succ (m r : Nat) : descPow (m + 1) (r + 1) = (2 ^ (m + 1) - 1) * 2 ^ r * descPow m r := by
  unfold descPow
  rw [Finset.prod_range_succ']
  have : ∀ i ∈ Finset.range r, ((2 : ℝ) ^ (m + 1) - 2 ^ (i + 1)) = 2 * (2 ^ m - 2 ^ i) := by
    intro i _; ring
  rw [Finset.prod_congr rfl this, Finset.prod_mul_distrib]
  simp; ring

theorem descPow_self_pos (r : Nat) : 0 < descPow r r := by
  apply Finset.prod_pos
  intro i hi
  have : (2 : ℝ) ^ i < 2 ^ r := pow_lt_pow_right₀ (by norm_num) (Finset.mem_range.1 hi)
  linarith

theorem descPow_zero_of_lt {m r : Nat} (h : m < r) : descPow m r = 0 :=
  Finset.prod_eq_zero (Finset.mem_range.2 h) (by simp)

theorem rankCount_closed (n : Nat) : ∀ m r, (rankCount m n r : ℝ) = descPow m r * descPow n r / descPow r r := by
  intro m
  induction m with
  | zero =>
    intro r
    rw [rankCount_zero_rows]
    cases r with
    | zero => simp [descPow]
    | succ r => rw [descPow_zero_of_lt (Nat.succ_pos r)]; simp
  | succ m ih =>
    intro r
    cases r with
    | zero => rw [rankCount_succ_zero, ih]; simp [descPow]
    | succ r =>
      rw [rankCount_succ_succ]
      by_cases hr : r ≤ n
      · have hle : 2 ^ r ≤ 2 ^ n := Nat.pow_le_pow_right (by norm_num) hr
        rw [Nat.cast_add, Nat.cast_mul, Nat.cast_mul, Nat.cast_sub hle, ih, ih]
        have h1 := descPow_self_pos r
        have h2 : (0 : ℝ) < 2 ^ (r + 1) - 1 := by
          have : (1 : ℝ) < 2 ^ (r + 1) := one_lt_pow₀ (by norm_num) (by omega)
          linarith
        rw [descPow_succ_succ m r, descPow_succ_succ r r, descPow_succ m r, descPow_succ n r]
        push_cast
        have h3 : (0 : ℝ) < 2 ^ r := by positivity
        field_simp
        ring
      · have hz : 2 ^ n - 2 ^ r = 0 := Nat.sub_eq_zero_of_le (Nat.pow_le_pow_right (by norm_num) (by omega))
        rw [hz, Nat.cast_add, Nat.cast_mul, ih, descPow_zero_of_lt (show n < r + 1 by omega)]
        simp

end TFR
