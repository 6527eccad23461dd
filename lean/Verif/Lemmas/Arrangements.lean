import Verif.Lemmas.Average
import Mathlib.Data.Fintype.Powerset
import Mathlib.Data.Nat.Choose.Basic
import Mathlib.Algebra.Order.Ring.Nat
/-
Arrangements of `a` ones and `b` zeros, and the number of changes from one place to the next.
-/
namespace TFR

/-- The sequences of `a` ones and `b` zeros. -/
abbrev Spec.Arrangement (a b : Nat) : Type := {f : Fin (a + b) → Bool // (Finset.univ.filter fun i => f i = true).card = a}

open Spec Finset

/-- How many have ones in `T` and zeros in `F`. -/
theorem card_arrangements (a b : Nat) (T F : Finset (Fin (a + b))) (hTF : Disjoint T F) (hT : T.card ≤ a) :
    (univ.filter fun f : Arrangement a b => (∀ i ∈ T, f.1 i = true) ∧ ∀ i ∈ F, f.1 i = false).card =
      (a + b - (T.card + F.card)).choose (a - T.card) := by
  classical
  have hc : ((univ : Finset (Fin (a + b))) \ (T ∪ F)).card = a + b - (T.card + F.card) := by
    rw [card_sdiff_of_subset (subset_univ _), card_univ, Fintype.card_fin, card_union_of_disjoint hTF]
  rw [← hc, ← card_powersetCard]
  apply card_bij (fun (f : Arrangement a b) _ => (univ.filter fun i => f.1 i = true) \ T)
  · intro f hf
    obtain ⟨h1, h2⟩ := (mem_filter.1 hf).2
    rw [mem_powersetCard]
    constructor
    · intro i hi
      rw [mem_sdiff, mem_filter] at hi
      rw [mem_sdiff, mem_union]
      refine ⟨mem_univ _, ?_⟩
      rintro (h | h)
      · exact hi.2 h
      · have := h2 i h; rw [hi.1.2] at this; exact absurd this (by decide)
    · rw [card_sdiff_of_subset, f.2]
      intro i hi
      exact mem_filter.2 ⟨mem_univ _, h1 i hi⟩
  · intro f hf g hg h
    obtain ⟨h1, -⟩ := (mem_filter.1 hf).2
    obtain ⟨h2, -⟩ := (mem_filter.1 hg).2
    apply Subtype.ext
    funext i
    by_cases hi : i ∈ T
    · rw [h1 i hi, h2 i hi]
    · have h3 : i ∈ (univ.filter fun i => f.1 i = true) \ T ↔ i ∈ (univ.filter fun i => g.1 i = true) \ T := by
        have h' : (univ.filter fun i => f.1 i = true) \ T = (univ.filter fun i => g.1 i = true) \ T := h
        rw [h']
      simp only [mem_sdiff, mem_filter, mem_univ, true_and, hi, not_false_eq_true, and_true] at h3
      exact Bool.eq_iff_iff.2 h3
  · intro S hS
    obtain ⟨h1, h2⟩ := mem_powersetCard.1 hS
    have hST : Disjoint T S := by
      rw [disjoint_left]
      intro i hi hi'
      exact (mem_sdiff.1 (h1 hi')).2 (mem_union_left _ hi)
    have hfil : (univ.filter fun i : Fin (a + b) => decide (i ∈ T ∪ S) = true) = T ∪ S := by ext i; simp
    refine ⟨⟨fun i => decide (i ∈ T ∪ S), ?_⟩, ?_, ?_⟩
    · rw [hfil, card_union_of_disjoint hST, h2]; omega
    · rw [mem_filter]
      refine ⟨mem_univ _, fun i hi => by simp [hi], fun i hi => ?_⟩
      have hT : i ∉ T := fun h => disjoint_left.1 hTF h hi
      have hS : i ∉ S := fun h => (mem_sdiff.1 (h1 h)).2 (mem_union_right _ hi)
      simp [hT, hS]
    · show (univ.filter fun i : Fin (a + b) => decide (i ∈ T ∪ S) = true) \ T = S
      rw [hfil, union_sdiff_left, sdiff_eq_self_of_disjoint hST.symm]

theorem card_all_arrangements (a b : Nat) : Fintype.card (Arrangement a b) = (a + b).choose a := by
  have h := card_arrangements a b ∅ ∅ (disjoint_empty_left _) (by simp)
  simpa using h

instance (a b : Nat) : Nonempty (Arrangement a b) :=
  Fintype.card_pos_iff.1 (by rw [card_all_arrangements]; exact Nat.choose_pos (by omega))

private theorem choose_two (a b : Nat) :
    (((a + b).choose a : ℕ) : ℝ) * ((a + b + 1) * (a + b + 2)) = ((a + 1 + (b + 1)).choose (a + 1) : ℕ) * ((a + 1) * (b + 1)) := by
  have h1 := Nat.add_choose_mul_factorial_mul_factorial a b
  have h2 := Nat.add_choose_mul_factorial_mul_factorial (a + 1) (b + 1)
  rw [← Nat.choose_symm_add] at h1 h2
  have h3 : (a + 1 + (b + 1)).factorial = (a + b + 2) * ((a + b + 1) * (a + b).factorial) := by
    rw [show a + 1 + (b + 1) = (a + b + 1) + 1 by ring, Nat.factorial_succ, Nat.factorial_succ]
  rw [h3, ← h1, Nat.factorial_succ, Nat.factorial_succ] at h2
  have ha : (a.factorial : ℝ) ≠ 0 := by exact_mod_cast a.factorial_ne_zero
  have hb : (b.factorial : ℝ) ≠ 0 := by exact_mod_cast b.factorial_ne_zero
  have h4 := congrArg (fun x : Nat => (x : ℝ)) h2
  push_cast at h4
  have : (a.factorial : ℝ) * b.factorial ≠ 0 := mul_ne_zero ha hb
  apply mul_left_cancel₀ this
  push_cast
  linarith

/-- The probability that two given places differ. -/
theorem average_differ (a b : Nat) (i j : Fin (a + 1 + (b + 1))) (hij : i ≠ j) :
    average (fun f : Arrangement (a + 1) (b + 1) => if f.1 i ≠ f.1 j then (1 : ℝ) else 0) =
      2 * ((a + 1) * (b + 1)) / ((a + b + 2) * (a + b + 1)) := by
  classical
  have hd1 : Disjoint ({i} : Finset (Fin (a + 1 + (b + 1)))) {j} := by simpa using hij
  have hd2 : Disjoint ({j} : Finset (Fin (a + 1 + (b + 1)))) {i} := hd1.symm
  have c1 := card_arrangements (a + 1) (b + 1) {i} {j} hd1 (by simp)
  have c2 := card_arrangements (a + 1) (b + 1) {j} {i} hd2 (by simp)
  rw [card_singleton, card_singleton, show a + 1 + (b + 1) - (1 + 1) = a + b by omega, show a + 1 - 1 = a by omega] at c1 c2
  have hsplit : ∀ f : Arrangement (a + 1) (b + 1), (if f.1 i ≠ f.1 j then (1 : ℝ) else 0) =
      (if (∀ k ∈ ({i} : Finset (Fin (a + 1 + (b + 1)))), f.1 k = true) ∧ ∀ k ∈ ({j} : Finset (Fin (a + 1 + (b + 1)))), f.1 k = false then (1 : ℝ) else 0) +
      (if (∀ k ∈ ({j} : Finset (Fin (a + 1 + (b + 1)))), f.1 k = true) ∧ ∀ k ∈ ({i} : Finset (Fin (a + 1 + (b + 1)))), f.1 k = false then (1 : ℝ) else 0) := by
    intro f
    simp only [mem_singleton, forall_eq]
    cases f.1 i <;> cases f.1 j <;> simp
  rw [average_congr _ _ hsplit, average_add, average_indicator, average_indicator]
  unfold fraction
  rw [c1, c2, card_all_arrangements]
  have h := choose_two a b
  have hpos : (0 : ℝ) < ((a + 1 + (b + 1)).choose (a + 1) : ℕ) := by exact_mod_cast Nat.choose_pos (by omega)
  have h1 : (0 : ℝ) < (a + b + 2 : ℝ) * (a + b + 1) := by positivity
  rw [← add_div, div_eq_div_iff hpos.ne' h1.ne']
  linarith

/-- The probability that two disjoint pairs both differ. -/
theorem average_differ_differ (a b : Nat) (i j k l : Fin (a + 1 + (b + 1))) (hij : i ≠ j) (hkl : k ≠ l) (hik : i ≠ k) (hil : i ≠ l)
    (hjk : j ≠ k) (hjl : j ≠ l) :
    average (fun f : Arrangement (a + 1) (b + 1) => (if f.1 i ≠ f.1 j then (1 : ℝ) else 0) * (if f.1 k ≠ f.1 l then (1 : ℝ) else 0)) *
      ((a + b + 2) * (a + b + 1) * (a + b) * (a + b - 1)) = 4 * ((a + 1) * a * ((b + 1) * b)) := by
  classical
  let ind : Fin (a + 1 + (b + 1)) → Fin (a + 1 + (b + 1)) → Fin (a + 1 + (b + 1)) → Fin (a + 1 + (b + 1)) → Arrangement (a + 1) (b + 1) → ℝ :=
    fun p q r s f => if (∀ x ∈ ({p, q} : Finset (Fin (a + 1 + (b + 1)))), f.1 x = true) ∧
      ∀ x ∈ ({r, s} : Finset (Fin (a + 1 + (b + 1)))), f.1 x = false then (1 : ℝ) else 0
  have hsplit : ∀ f : Arrangement (a + 1) (b + 1), (if f.1 i ≠ f.1 j then (1 : ℝ) else 0) * (if f.1 k ≠ f.1 l then (1 : ℝ) else 0) =
      (ind i k j l f + ind i l j k f) + (ind j k i l f + ind j l i k f) := by
    intro f
    simp only [ind, mem_insert, mem_singleton, forall_eq_or_imp, forall_eq]
    cases f.1 i <;> cases f.1 j <;> cases f.1 k <;> cases f.1 l <;> simp
  rw [average_congr _ _ hsplit, average_add, average_add, average_add]
  -- one of the patterns
  have key : ∀ p q r s : Fin (a + 1 + (b + 1)), p ≠ q → r ≠ s → p ≠ r → p ≠ s → q ≠ r → q ≠ s →
      average (ind p q r s) * ((a + b + 2) * (a + b + 1) * (a + b) * (a + b - 1)) = (a + 1) * a * ((b + 1) * b) := by
    intro p q r s hpq hrs hpr hps hqr hqs
    have hpos : (0 : ℝ) < ((a + 1 + (b + 1)).choose (a + 1) : ℕ) := by exact_mod_cast Nat.choose_pos (by omega)
    have hav : average (ind p q r s) = fraction fun f : Arrangement (a + 1) (b + 1) =>
        (∀ x ∈ ({p, q} : Finset (Fin (a + 1 + (b + 1)))), f.1 x = true) ∧ ∀ x ∈ ({r, s} : Finset (Fin (a + 1 + (b + 1)))), f.1 x = false :=
      average_indicator _
    have hfil : ∀ (A : Finset (Fin (a + 1 + (b + 1)))) (f : Arrangement (a + 1) (b + 1)), (∀ x ∈ A, f.1 x = true) → A.card ≤ a + 1 := by
      intro A f hA
      refine le_trans (card_le_card fun x hx => ?_) f.2.le
      exact mem_filter.2 ⟨mem_univ _, hA x hx⟩
    have hfil0 : ∀ (A : Finset (Fin (a + 1 + (b + 1)))) (f : Arrangement (a + 1) (b + 1)), (∀ x ∈ A, f.1 x = false) → A.card ≤ b + 1 := by
      intro A f hA
      have h1 : (A ∪ univ.filter fun x => f.1 x = true).card ≤ a + 1 + (b + 1) := (card_le_univ _).trans (by rw [Fintype.card_fin])
      rw [card_union_of_disjoint, f.2] at h1
      · omega
      · rw [disjoint_left]
        intro x hx hx'
        have := hA x hx
        rw [(mem_filter.1 hx').2] at this
        exact absurd this (by decide)
    rcases Nat.eq_zero_or_pos a with rfl | ha
    · have : average (ind p q r s) = 0 := by
        rw [hav]; unfold fraction
        rw [filter_false_of_mem]
        · simp
        · rintro f - ⟨h1, -⟩
          have := hfil _ f h1
          rw [card_pair hpq] at this
          omega
      rw [this]; simp
    rcases Nat.eq_zero_or_pos b with rfl | hb
    · have : average (ind p q r s) = 0 := by
        rw [hav]; unfold fraction
        rw [filter_false_of_mem]
        · simp
        · rintro f - ⟨-, h1⟩
          have := hfil0 _ f h1
          rw [card_pair hrs] at this
          omega
      rw [this]; simp
    obtain ⟨a, rfl⟩ := Nat.exists_eq_succ_of_ne_zero ha.ne'
    obtain ⟨b, rfl⟩ := Nat.exists_eq_succ_of_ne_zero hb.ne'
    have hd : Disjoint ({p, q} : Finset (Fin (a + 1 + 1 + (b + 1 + 1)))) {r, s} := by
      rw [disjoint_left]
      intro x hx hx'
      rw [mem_insert, mem_singleton] at hx hx'
      rcases hx with rfl | rfl <;> rcases hx' with h | h
      · exact hpr h
      · exact hps h
      · exact hqr h
      · exact hqs h
    have c := card_arrangements (a + 1 + 1) (b + 1 + 1) {p, q} {r, s} hd (by rw [card_pair hpq]; omega)
    rw [card_pair hpq, card_pair hrs, show a + 1 + 1 + (b + 1 + 1) - (2 + 2) = a + b by omega, show a + 1 + 1 - 2 = a by omega] at c
    rw [hav]
    unfold fraction
    rw [show (univ.filter fun f : Arrangement (Nat.succ a + 1) (Nat.succ b + 1) =>
        (∀ x ∈ ({p, q} : Finset (Fin (a + 1 + 1 + (b + 1 + 1)))), f.1 x = true) ∧
        ∀ x ∈ ({r, s} : Finset (Fin (a + 1 + 1 + (b + 1 + 1)))), f.1 x = false).card = _ from c,
      show Fintype.card (Arrangement (Nat.succ a + 1) (Nat.succ b + 1)) = (a + 1 + 1 + (b + 1 + 1)).choose (a + 1 + 1) from card_all_arrangements _ _]
    have h1 := choose_two a b
    have h2 := choose_two (a + 1) (b + 1)
    have hpos' : (0 : ℝ) < ((a + 1 + 1 + (b + 1 + 1)).choose (a + 1 + 1) : ℕ) := hpos
    push_cast [Nat.succ_eq_add_one] at h1 h2 ⊢
    generalize ((a + 1 + 1 + (b + 1 + 1)).choose (a + 1 + 1) : ℝ) = X at *
    generalize ((a + 1 + (b + 1)).choose (a + 1) : ℝ) = Y at *
    generalize ((a + b).choose a : ℝ) = Z at *
    rw [div_mul_eq_mul_div, div_eq_iff hpos'.ne']
    have h3 : (a : ℝ) + 1 + (b + 1) + 1 = a + b + 3 := by ring
    have e1 : Z * ((↑a + ↑b + 1) * (↑a + ↑b + 2)) * ((↑a + 1 + (↑b + 1) + 1) * (↑a + 1 + (↑b + 1) + 2)) =
        (Y * ((↑a + 1) * (↑b + 1))) * ((↑a + 1 + (↑b + 1) + 1) * (↑a + 1 + (↑b + 1) + 2)) := by rw [h1]
    have e2 : (Y * ((↑a + 1) * (↑b + 1))) * ((↑a + 1 + (↑b + 1) + 1) * (↑a + 1 + (↑b + 1) + 2)) =
        (X * ((↑a + 1 + 1) * (↑b + 1 + 1))) * (((a : ℝ) + 1) * (↑b + 1)) := by rw [← h2]; ring
    have e3 := e1.trans e2
    linarith [e3]
  have k1 := key i k j l hik hjl hij hil hjk.symm hkl
  have k2 := key i l j k hil hjk hij hik hjl.symm hkl.symm
  have k3 := key j k i l hjk hil hij.symm hjl hik.symm hkl
  have k4 := key j l i k hjl hik hij.symm hjk hil.symm hkl.symm
  linarith

/-- The probability that three places in a row differ pairwise from their neighbours. -/
theorem average_differ_share (a b : Nat) (i j k : Fin (a + 1 + (b + 1))) (hij : i ≠ j) (hjk : j ≠ k) (hik : i ≠ k) :
    average (fun f : Arrangement (a + 1) (b + 1) => (if f.1 i ≠ f.1 j then (1 : ℝ) else 0) * (if f.1 j ≠ f.1 k then (1 : ℝ) else 0)) =
      ((a + 1) * (b + 1)) / ((a + b + 2) * (a + b + 1)) := by
  have h : ∀ f : Arrangement (a + 1) (b + 1), (if f.1 i ≠ f.1 j then (1 : ℝ) else 0) * (if f.1 j ≠ f.1 k then (1 : ℝ) else 0) =
      (((if f.1 i ≠ f.1 j then (1 : ℝ) else 0) + (if f.1 j ≠ f.1 k then (1 : ℝ) else 0)) - (if f.1 i ≠ f.1 k then (1 : ℝ) else 0)) / 2 := by
    intro f
    cases f.1 i <;> cases f.1 j <;> cases f.1 k <;> simp
  rw [average_congr _ _ h, average_div, average_sub, average_add, average_differ a b i j hij, average_differ a b j k hjk, average_differ a b i k hik]
  ring

end TFR
