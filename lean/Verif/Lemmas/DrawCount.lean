import Mathlib.Combinatorics.Enumerative.Stirling
import Mathlib.Data.Fintype.BigOperators
import Mathlib.Data.Fin.Tuple.Basic
import Mathlib.Algebra.BigOperators.Fin
import Mathlib.Algebra.Group.Action.Defs
import Mathlib.Data.Nat.Factorial.Basic
import Mathlib.Tactic.Ring
/-
Counting sequences of draws: by the number of distinct values seen, and by the number of zeros.
-/
namespace TFR
open Finset

/-- Number of sequences of `n` draws from `d` coupons which show exactly `k` different coupons. -/
def distinctCount (d n k : Nat) : Nat := (univ.filter fun f : Fin n → Fin d => (univ.image f).card = k).card

/-- Sequences of length `n + 1` are pairs of a last value and a sequence of length `n`. -/
theorem card_snoc {d n : Nat} (P : (Fin n → Fin d) → Fin d → Prop) [∀ g c, Decidable (P g c)] :
    (univ.filter fun f : Fin (n + 1) → Fin d => P (Fin.init f) (f (Fin.last n))).card =
      ∑ g : Fin n → Fin d, (univ.filter fun c => P g c).card := by
  rw [← card_sigma]
  apply card_bij (fun f _ => (⟨Fin.init f, f (Fin.last n)⟩ : Σ _ : Fin n → Fin d, Fin d))
  · intro f hf
    simpa using hf
  · intro f _ f' _ h
    simp only [Sigma.mk.injEq, heq_eq_eq] at h
    rw [← Fin.snoc_init_self f, ← Fin.snoc_init_self f', h.1, h.2]
  · rintro ⟨g, c⟩ h
    refine ⟨Fin.snoc g c, ?_, ?_⟩
    · simpa using h
    · simp

theorem image_snoc {d n : Nat} (f : Fin (n + 1) → Fin d) :
    univ.image f = insert (f (Fin.last n)) (univ.image (Fin.init f)) := by
  ext c
  simp only [mem_image, mem_univ, true_and, mem_insert]
  constructor
  · rintro ⟨j, rfl⟩
    refine Fin.lastCases ?_ (fun i => ?_) j
    · exact Or.inl rfl
    · exact Or.inr ⟨i, rfl⟩
  · rintro (rfl | ⟨i, rfl⟩)
    · exact ⟨Fin.last n, rfl⟩
    · exact ⟨i.castSucc, rfl⟩

private theorem card_insert_filter {d : Nat} (S : Finset (Fin d)) (k : Nat) :
    (univ.filter fun c => (insert c S).card = k + 1).card =
      (if S.card = k + 1 then k + 1 else 0) + (if S.card = k then d - k else 0) := by
  by_cases h1 : S.card = k + 1
  · have : (univ.filter fun c => (insert c S).card = k + 1) = S := by
      ext c
      simp only [mem_filter, mem_univ, true_and]
      by_cases hc : c ∈ S
      · simp [hc, h1]
      · simp [hc, card_insert_of_notMem hc, h1]
    rw [this, if_pos h1, if_neg (by omega), h1]
  · by_cases h2 : S.card = k
    · have : (univ.filter fun c => (insert c S).card = k + 1) = Sᶜ := by
        ext c
        simp only [mem_filter, mem_univ, true_and, mem_compl]
        by_cases hc : c ∈ S
        · simp [hc, h2]
        · simp [hc, card_insert_of_notMem hc, h2]
      rw [this, if_neg h1, if_pos h2, card_compl, Fintype.card_fin, h2, Nat.zero_add]
    · have : (univ.filter fun c => (insert c S).card = k + 1) = ∅ := by
        rw [filter_eq_empty_iff]
        intro c _ hh
        by_cases hc : c ∈ S
        · rw [insert_eq_of_mem hc] at hh; exact h1 hh
        · rw [card_insert_of_notMem hc] at hh; omega
      rw [this, if_neg h1, if_neg h2]; rfl

theorem distinctCount_succ (d n k : Nat) :
    distinctCount d (n + 1) (k + 1) = (k + 1) * distinctCount d n (k + 1) + (d - k) * distinctCount d n k := by
  unfold distinctCount
  simp only [image_snoc]
  rw [card_snoc (fun g c => (insert c (univ.image g)).card = k + 1)]
  simp only [card_insert_filter, sum_add_distrib]
  rw [← sum_filter, ← sum_filter, sum_const, sum_const, smul_eq_mul, smul_eq_mul, Nat.mul_comm, Nat.mul_comm (d - k)]

theorem distinctCount_zero_zero (d : Nat) : distinctCount d 0 0 = 1 := by
  simp [distinctCount]

theorem distinctCount_zero_succ (d k : Nat) : distinctCount d 0 (k + 1) = 0 := by
  simp [distinctCount]

theorem distinctCount_succ_zero (d n : Nat) : distinctCount d (n + 1) 0 = 0 := by
  unfold distinctCount
  rw [card_eq_zero, filter_eq_empty_iff]
  intro f _ h
  rw [card_eq_zero] at h
  have : f 0 ∈ univ.image f := mem_image_of_mem _ (mem_univ _)
  rw [h] at this
  simp at this

theorem distinctCount_eq (d n k : Nat) : distinctCount d n k = d.descFactorial k * Nat.stirlingSecond n k := by
  induction n generalizing k with
  | zero =>
    cases k with
    | zero => simp [distinctCount_zero_zero]
    | succ k => simp [distinctCount_zero_succ]
  | succ n ih =>
    cases k with
    | zero => simp [distinctCount_succ_zero]
    | succ k =>
      rw [distinctCount_succ, ih, ih, Nat.stirlingSecond_succ_succ, Nat.descFactorial_succ]
      ring

/-- All coupons seen. -/
def AllSeen {d n : Nat} (f : Fin n → Fin d) : Prop := ∀ c, ∃ j, f j = c

instance {d n : Nat} (f : Fin n → Fin d) : Decidable (AllSeen f) := by unfold AllSeen; infer_instance

theorem allSeen_iff {d n : Nat} (f : Fin n → Fin d) : AllSeen f ↔ univ.image f = univ := by
  constructor
  · intro h
    ext c
    simpa using h c
  · intro h c
    have : c ∈ univ.image f := by rw [h]; exact mem_univ c
    simpa using this

theorem allSeen_iff_card {d n : Nat} (f : Fin n → Fin d) : AllSeen f ↔ (univ.image f).card = d := by
  rw [allSeen_iff]
  constructor
  · intro h; rw [h]; simp
  · intro h
    apply eq_univ_of_card
    rw [h, Fintype.card_fin]

/-- Number of draw sequences of length `n + 1` at whose last draw, and not before, all coupons have been seen. -/
theorem card_firstComplete (d n : Nat) (hd : 0 < d) :
    (univ.filter fun f : Fin (n + 1) → Fin d => AllSeen f ∧ ¬ AllSeen (Fin.init f)).card =
      d.factorial * Nat.stirlingSecond n (d - 1) := by
  obtain ⟨k, rfl⟩ : ∃ k, d = k + 1 := ⟨d - 1, by omega⟩
  have h1 : (univ.filter fun f : Fin (n + 1) → Fin (k + 1) => AllSeen f ∧ ¬ AllSeen (Fin.init f)) =
      univ.filter fun f : Fin (n + 1) → Fin (k + 1) =>
        (insert (f (Fin.last n)) (univ.image (Fin.init f))).card = k + 1 ∧ (univ.image (Fin.init f)).card ≠ k + 1 := by
    apply filter_congr
    intro f _
    rw [allSeen_iff_card, allSeen_iff_card, image_snoc]
  rw [h1, card_snoc (fun g c => (insert c (univ.image g)).card = k + 1 ∧ (univ.image g).card ≠ k + 1)]
  have h2 : ∀ g : Fin n → Fin (k + 1), (univ.filter fun c =>
      (insert c (univ.image g)).card = k + 1 ∧ (univ.image g).card ≠ k + 1).card =
      if (univ.image g).card = k then 1 else 0 := by
    intro g
    by_cases hk : (univ.image g).card = k + 1
    · rw [if_neg (by omega), card_eq_zero, filter_eq_empty_iff]
      intro c _ h
      exact h.2 hk
    · have := card_insert_filter (univ.image g) k
      rw [if_neg hk, Nat.zero_add] at this
      have e : (univ.filter fun c => (insert c (univ.image g)).card = k + 1 ∧ (univ.image g).card ≠ k + 1) =
          univ.filter fun c => (insert c (univ.image g)).card = k + 1 := by
        apply filter_congr
        intro c _
        simp [hk]
      rw [e, this]
      split_ifs <;> omega
  simp only [h2]
  rw [← card_filter]
  show distinctCount (k + 1) n k = _
  rw [distinctCount_eq, Nat.add_sub_cancel]
  congr 1
  have := Nat.descFactorial_self (k + 1)
  rw [Nat.descFactorial_succ] at this
  simpa using this

/-- The number of complete sequences grows by the first completions. -/
theorem card_allSeen_succ (d n : Nat) (hd : 0 < d) :
    (univ.filter fun f : Fin (n + 1) → Fin d => AllSeen f).card =
      d * (univ.filter fun f : Fin n → Fin d => AllSeen f).card + d.factorial * Nat.stirlingSecond n (d - 1) := by
  rw [← card_firstComplete d n hd]
  have hsplit : (univ.filter fun f : Fin (n + 1) → Fin d => AllSeen f) =
      (univ.filter fun f : Fin (n + 1) → Fin d => AllSeen (Fin.init f)) ∪
      (univ.filter fun f : Fin (n + 1) → Fin d => AllSeen f ∧ ¬ AllSeen (Fin.init f)) := by
    ext f
    simp only [mem_filter, mem_univ, true_and, mem_union]
    constructor
    · intro h
      by_cases hi : AllSeen (Fin.init f)
      · exact Or.inl hi
      · exact Or.inr ⟨h, hi⟩
    · rintro (h | h)
      · intro c
        obtain ⟨j, hj⟩ := h c
        exact ⟨j.castSucc, hj⟩
      · exact h.1
  rw [hsplit, card_union_of_disjoint]
  · congr 1
    rw [card_snoc (fun g _ => AllSeen g)]
    have : ∀ g : Fin n → Fin d, (univ.filter fun _ : Fin d => AllSeen g).card = if AllSeen g then d else 0 := by
      intro g
      by_cases h : AllSeen g <;> simp [h]
    simp only [this]
    rw [← sum_filter, sum_const, smul_eq_mul, Nat.mul_comm]
  · rw [disjoint_filter]
    intro f _ h1 h2
    exact h2.2 h1

/-! ### Zeros -/

/-- Number of zeros among the draws. -/
def zeros {d n : Nat} (f : Fin n → Fin d) : Nat := (univ.filter fun j => (f j).val = 0).card

theorem zeros_snoc {d n : Nat} (f : Fin (n + 1) → Fin d) :
    zeros f = zeros (Fin.init f) + if (f (Fin.last n)).val = 0 then 1 else 0 := by
  unfold zeros
  rw [card_filter, card_filter, Fin.sum_univ_castSucc]
  rfl

private theorem card_zero (d : Nat) (hd : 0 < d) : (univ.filter fun c : Fin d => c.val = 0).card = 1 := by
  rw [card_eq_one]
  refine ⟨⟨0, hd⟩, ?_⟩
  ext c
  simp [Fin.ext_iff]

private theorem card_nonzero (d : Nat) (hd : 0 < d) : (univ.filter fun c : Fin d => ¬ c.val = 0).card = d - 1 := by
  have := card_filter_add_card_filter_not (s := (univ : Finset (Fin d))) (fun c => c.val = 0)
  rw [card_zero d hd, card_univ, Fintype.card_fin] at this
  omega

theorem card_zeros (d : Nat) (hd : 0 < d) (n r : Nat) :
    (univ.filter fun f : Fin n → Fin d => zeros f = r).card = n.choose r * (d - 1) ^ (n - r) := by
  induction n generalizing r with
  | zero =>
    cases r with
    | zero => simp [zeros]
    | succ r => simp [zeros]
  | succ n ih =>
    simp only [zeros_snoc]
    rw [card_snoc (fun g c => zeros g + (if c.val = 0 then 1 else 0) = r)]
    have : ∀ g : Fin n → Fin d, (univ.filter fun c : Fin d => zeros g + (if c.val = 0 then 1 else 0) = r).card =
        (if zeros g = r then d - 1 else 0) + (if zeros g + 1 = r then 1 else 0) := by
      intro g
      by_cases h1 : zeros g = r
      · rw [if_pos h1, if_neg (by omega), Nat.add_zero, ← card_nonzero d hd]
        congr 1
        apply filter_congr
        intro c _
        split_ifs with hc <;> constructor <;> intro _ <;> first | assumption | omega
      · by_cases h2 : zeros g + 1 = r
        · rw [if_neg h1, if_pos h2, Nat.zero_add]
          refine Eq.trans ?_ (card_zero d hd)
          congr 1
          apply filter_congr
          intro c _
          split_ifs with hc <;> constructor <;> intro _ <;> first | assumption | omega
        · rw [if_neg h1, if_neg h2, card_eq_zero, filter_eq_empty_iff]
          intro c _
          split_ifs <;> omega
    simp only [this, sum_add_distrib]
    rw [← sum_filter, ← sum_filter, sum_const, sum_const, ih, smul_eq_mul, smul_eq_mul, Nat.mul_one]
    cases r with
    | zero =>
      have : (univ.filter fun g : Fin n → Fin d => zeros g + 1 = 0) = ∅ := by
        rw [filter_eq_empty_iff]; intro g _; omega
      rw [this]
      simp [pow_succ]
    | succ r =>
      have : (univ.filter fun g : Fin n → Fin d => zeros g + 1 = r + 1) = univ.filter fun g : Fin n → Fin d => zeros g = r := by
        apply filter_congr; intro g _; omega
      rw [this, ih, Nat.choose_succ_succ]
      by_cases hr : r < n
      · have e1 : n - r = n - (r + 1) + 1 := by omega
        have e2 : n + 1 - (r + 1) = n - (r + 1) + 1 := by omega
        rw [e2, e1, pow_succ]; ring
      · rw [Nat.choose_eq_zero_of_lt (show n < r + 1 by omega)]
        have e2 : n + 1 - (r + 1) = n - r := by omega
        rw [e2]; ring

/-- Number of sequences of length `n + 1` which complete a group of `r + 1` zeros exactly at the last draw. -/
theorem card_groupComplete (d : Nat) (hd : 0 < d) (n r : Nat) :
    (univ.filter fun f : Fin (n + 1) → Fin d => r + 1 ≤ zeros f ∧ ¬ r + 1 ≤ zeros (Fin.init f)).card =
      n.choose r * (d - 1) ^ (n - r) := by
  simp only [zeros_snoc]
  rw [card_snoc (fun g c => r + 1 ≤ zeros g + (if c.val = 0 then 1 else 0) ∧ ¬ r + 1 ≤ zeros g)]
  have : ∀ g : Fin n → Fin d, (univ.filter fun c : Fin d =>
      r + 1 ≤ zeros g + (if c.val = 0 then 1 else 0) ∧ ¬ r + 1 ≤ zeros g).card = if zeros g = r then 1 else 0 := by
    intro g
    by_cases h : zeros g = r
    · rw [if_pos h]
      refine Eq.trans ?_ (card_zero d hd)
      congr 1
      apply filter_congr
      intro c _
      split_ifs with hc <;> constructor <;> intro _ <;> first | assumption | omega
    · rw [if_neg h, card_eq_zero, filter_eq_empty_iff]
      intro c _
      split_ifs <;> omega
  simp only [this]
  rw [← card_filter, card_zeros d hd]

end TFR
