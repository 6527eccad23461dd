import Verif.Spec.Average
import Mathlib.Algebra.BigOperators.Field
import Mathlib.Tactic.Ring
import Mathlib.Tactic.FieldSimp
import Mathlib.Tactic.Linarith
/-
Averages over finite types, in particular over all sequences of a given length: independence of the coordinates, and the
first two moments of the number of hits.
-/
namespace TFR
open Spec Finset

section
variable {α β : Type} [Fintype α] [Fintype β]

theorem average_add (f g : α → ℝ) : average (fun x => f x + g x) = average f + average g := by
  unfold average; rw [sum_add_distrib, add_div]

theorem average_sub (f g : α → ℝ) : average (fun x => f x - g x) = average f - average g := by
  unfold average; rw [sum_sub_distrib, sub_div]

theorem average_mul_left (c : ℝ) (f : α → ℝ) : average (fun x => c * f x) = c * average f := by
  unfold average; rw [← mul_sum, mul_div_assoc]

theorem average_div (c : ℝ) (f : α → ℝ) : average (fun x => f x / c) = average f / c := by
  unfold average; rw [← sum_div]; ring

theorem average_const [Nonempty α] (c : ℝ) : average (fun _ : α => c) = c := by
  unfold average
  have : (Fintype.card α : ℝ) ≠ 0 := by exact_mod_cast Fintype.card_ne_zero
  rw [sum_const, card_univ, nsmul_eq_mul]; field_simp

theorem average_sum {ι : Type} (s : Finset ι) (f : ι → α → ℝ) :
    average (fun x => ∑ i ∈ s, f i x) = ∑ i ∈ s, average (f i) := by
  unfold average; rw [sum_comm, sum_div]

theorem average_list_sum {ι : Type} (l : List ι) (f : ι → α → ℝ) :
    average (fun x => (l.map fun i => f i x).sum) = (l.map fun i => average (f i)).sum := by
  induction l with
  | nil => simp [average]
  | cons a l ih => simp only [List.map_cons, List.sum_cons]; rw [average_add, ih]

theorem average_congr (f g : α → ℝ) (h : ∀ x, f x = g x) : average f = average g := by
  unfold average; rw [sum_congr rfl fun x _ => h x]

/-- The average of an indicator is the fraction of the elements with the property. -/
theorem average_indicator (p : α → Prop) [DecidablePred p] : average (fun x => if p x then (1 : ℝ) else 0) = fraction p := by
  unfold average fraction; rw [sum_boole]

/-- An average over the image of a map all of whose fibres have the same size. -/
theorem average_map [Nonempty α] [DecidableEq β] (π : α → β) (K : Nat) (h : ∀ y, (univ.filter fun x => π x = y).card = K) (f : β → ℝ) :
    average (fun x => f (π x)) = average f := by
  have hcard : Fintype.card α = Fintype.card β * K := by
    rw [← card_univ, card_eq_sum_card_fiberwise (f := π) (t := univ) (fun _ _ => mem_univ _), sum_congr rfl fun y _ => h y, sum_const,
      card_univ, smul_eq_mul]
  have hsum : ∑ x, f (π x) = K * ∑ y, f y := by
    rw [← sum_fiberwise_of_maps_to (s := univ) (t := univ) (g := π) (fun _ _ => mem_univ _), mul_sum]
    apply sum_congr rfl
    intro y _
    rw [sum_congr rfl (fun x hx => by rw [(mem_filter.1 hx).2] : ∀ x ∈ univ.filter fun x => π x = y, f (π x) = f y), sum_const, h y,
      nsmul_eq_mul]
  have hα : (Fintype.card α : ℝ) ≠ 0 := by exact_mod_cast Fintype.card_ne_zero
  unfold average
  rw [hsum]
  rw [hcard] at hα ⊢
  push_cast at hα ⊢
  have h1 : (K : ℝ) ≠ 0 := right_ne_zero_of_mul hα
  have h2 : (Fintype.card β : ℝ) ≠ 0 := left_ne_zero_of_mul hα
  field_simp

/-- In particular over a bijection. -/
theorem average_equiv (e : α ≃ β) (f : β → ℝ) : average (fun x => f (e x)) = average f := by
  unfold average; rw [Equiv.sum_comp e f, Fintype.card_congr e]
end

section
variable {ι Ω : Type} [Fintype ι] [DecidableEq ι] [Fintype Ω]

/-- The coordinates of a uniformly random sequence are independent. -/
theorem average_prod (h : ι → Ω → ℝ) : average (fun x : ι → Ω => ∏ k, h k (x k)) = ∏ k, average (h k) := by
  unfold average
  rw [prod_div_distrib, prod_univ_sum, Fintype.piFinset_univ, Fintype.card_fun, prod_const, card_univ]
  push_cast; rfl

variable [Nonempty Ω]

theorem average_coord (i : ι) (F : Ω → ℝ) : average (fun x : ι → Ω => F (x i)) = average F := by
  have h := average_prod (fun (k : ι) (o : Ω) => if k = i then F o else 1)
  rw [average_congr (fun x : ι → Ω => F (x i)) _ fun x => ?_]
  · rw [h, prod_eq_single i]
    · simp
    · intro k _ hk; simp only [if_neg hk]; exact average_const 1
    · simp
  · rw [prod_eq_single i]
    · simp
    · intro k _ hk; rw [if_neg hk]
    · simp

theorem average_coord2 (i j : ι) (hij : i ≠ j) (F G : Ω → ℝ) :
    average (fun x : ι → Ω => F (x i) * G (x j)) = average F * average G := by
  have h := average_prod (fun (k : ι) (o : Ω) => (if k = i then F o else 1) * (if k = j then G o else 1))
  rw [average_congr (fun x : ι → Ω => F (x i) * G (x j)) _ fun x => ?_]
  · rw [h]
    rw [prod_congr rfl (g := fun k => (if k = i then average F else 1) * (if k = j then average G else 1)) fun k _ => ?_]
    · rw [prod_mul_distrib, prod_ite_eq' univ i, prod_ite_eq' univ j]; simp
    · by_cases h1 : k = i
      · subst h1; simp [hij]
      · by_cases h2 : k = j
        · subst h2; simp [h1]
        · simp only [if_neg h1, if_neg h2, mul_one]; exact average_const 1
  · rw [prod_mul_distrib, prod_eq_single i, prod_eq_single j]
    · simp
    · intro k _ hk; rw [if_neg hk]
    · simp
    · intro k _ hk; rw [if_neg hk]
    · simp

/-- The variance of a sum of independent terms with mean zero. -/
theorem average_sq_sum (g : Ω → ℝ) (h0 : average g = 0) :
    average (fun x : ι → Ω => (∑ i, g (x i)) ^ 2) = Fintype.card ι * average (fun o => g o ^ 2) := by
  have h : ∀ x : ι → Ω, (∑ i, g (x i)) ^ 2 = ∑ i, ∑ j, g (x i) * g (x j) := fun x => by rw [sq, sum_mul_sum]
  rw [average_congr _ _ h, average_sum]
  have h2 : ∀ i : ι, average (fun x : ι → Ω => ∑ j, g (x i) * g (x j)) = average (fun o => g o ^ 2) := by
    intro i
    rw [average_sum, sum_eq_single i]
    · rw [← average_coord i fun o => g o ^ 2]
      exact average_congr _ _ fun x => (sq _).symm
    · intro j _ hj
      rw [average_coord2 i j (Ne.symm hj), h0, zero_mul]
    · simp
  rw [sum_congr rfl fun i _ => h2 i, sum_const, card_univ, nsmul_eq_mul]

/-- The mean of a sum. -/
theorem average_coord_sum (g : Ω → ℝ) : average (fun x : ι → Ω => ∑ i, g (x i)) = Fintype.card ι * average g := by
  rw [average_sum, sum_congr rfl fun i _ => average_coord i g, sum_const, card_univ, nsmul_eq_mul]

/-- The second moment of a sum around any point. -/
theorem average_sq_dev (g : Ω → ℝ) (c : ℝ) :
    average (fun x : ι → Ω => (∑ i, g (x i) - c) ^ 2) =
      Fintype.card ι * (average (fun o => g o ^ 2) - average g ^ 2) + (Fintype.card ι * average g - c) ^ 2 := by
  set m := average g with hm
  have h0 : average (fun o => g o - m) = 0 := by rw [average_sub, average_const]; exact sub_self m
  have h1 := average_sq_sum (ι := ι) (fun o => g o - m) h0
  have hsum : ∀ x : ι → Ω, ∑ i, (g (x i) - m) = ∑ i, g (x i) - Fintype.card ι * m := by
    intro x; rw [sum_sub_distrib, sum_const, card_univ, nsmul_eq_mul]
  have hsq : average (fun o => (g o - m) ^ 2) = average (fun o => g o ^ 2) - m ^ 2 := by
    rw [average_congr (fun o => (g o - m) ^ 2) (fun o => (g o ^ 2 - 2 * m * g o) + m ^ 2) fun o => by ring, average_add, average_sub,
      average_mul_left, average_const, ← hm]
    ring
  rw [hsq] at h1
  set k : ℝ := Fintype.card ι * m - c with hk
  rw [average_congr (fun x : ι → Ω => (∑ i, g (x i) - c) ^ 2)
    (fun x => ((∑ i, (g (x i) - m)) ^ 2 + 2 * k * (∑ i, (g (x i) - m))) + k ^ 2) fun x => by rw [hsum x, hk]; ring]
  rw [average_add, average_add, h1, average_mul_left, average_coord_sum (fun o => g o - m), h0, average_const]
  ring

/-- The number of hits of a set: its second moment around any point. -/
theorem average_hits_sq (p : Ω → Prop) [DecidablePred p] (c : ℝ) :
    average (fun x : ι → Ω => (((univ.filter fun i => p (x i)).card : ℝ) - c) ^ 2) =
      Fintype.card ι * (fraction p * (1 - fraction p)) + (Fintype.card ι * fraction p - c) ^ 2 := by
  have h := average_sq_dev (ι := ι) (fun o => if p o then (1 : ℝ) else 0) c
  rw [average_indicator] at h
  rw [average_congr (fun o => (if p o then (1 : ℝ) else 0) ^ 2) (fun o => if p o then (1 : ℝ) else 0) fun o => by split_ifs <;> norm_num,
    average_indicator] at h
  rw [average_congr _ (fun x : ι → Ω => (∑ i, (if p (x i) then (1 : ℝ) else 0) - c) ^ 2) fun x => by rw [sum_boole], h]
  ring

theorem average_hits (p : Ω → Prop) [DecidablePred p] :
    average (fun x : ι → Ω => ((univ.filter fun i => p (x i)).card : ℝ)) = Fintype.card ι * fraction p := by
  rw [average_congr _ (fun x : ι → Ω => ∑ i, (if p (x i) then (1 : ℝ) else 0)) fun x => by rw [sum_boole],
    average_coord_sum (fun o => if p o then (1 : ℝ) else 0), average_indicator]

end
end TFR
