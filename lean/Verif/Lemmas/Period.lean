import Verif.Spec.Period
import Mathlib.Dynamics.PeriodicPts.Defs
import Mathlib.Dynamics.PeriodicPts.Lemmas
import Mathlib.Data.Nat.GCD.Basic
import Mathlib.Data.Nat.ModEq
import Mathlib.Data.Fintype.Card
import Mathlib.Algebra.BigOperators.Group.Finset.Basic
import Mathlib.Tactic.Ring

namespace TFR
open Spec Function

theorem IsPeriod.mul {α : Type*} {f : Nat → α} {p : Nat} (h : IsPeriod f p) (q : Nat) : IsPeriod f (p * q) := by
  induction q with
  | zero => intro n; simp
  | succ q ih => intro n; rw [Nat.mul_succ, ← Nat.add_assoc, h, ih]

theorem IsPeriod.of_dvd {α : Type*} {f : Nat → α} {p q : Nat} (h : IsPeriod f p) (hd : p ∣ q) : IsPeriod f q := by
  obtain ⟨r, rfl⟩ := hd; exact IsPeriod.mul h r

theorem IsPeriod.mod {α : Type*} {f : Nat → α} {p q : Nat} (hp : IsPeriod f p) (hq : IsPeriod f q) :
    IsPeriod f (q % p) := by
  intro n
  have h1 := hq n
  conv_lhs at h1 => rw [← Nat.mod_add_div q p, ← Nat.add_assoc]
  rw [IsPeriod.mul hp] at h1
  exact h1

theorem IsPeriod.gcd {α : Type*} {f : Nat → α} {p q : Nat} (hp : IsPeriod f p) (hq : IsPeriod f q) :
    IsPeriod f (Nat.gcd p q) := by
  induction p, q using Nat.gcd.induction with
  | H0 q => simpa using hq
  | H1 p q hpos ih => rw [Nat.gcd_rec]; exact ih (IsPeriod.mod hp hq) hp

theorem occurrences_add {α : Type*} [DecidableEq α] (f : Nat → α) (y : α) (s a b : Nat) :
    occurrences f y s (a + b) = occurrences f y s a + occurrences f y (s + a) b := by
  unfold occurrences
  induction b with
  | zero => simp
  | succ b ih =>
    rw [← Nat.add_assoc, Finset.range_add_one, Finset.filter_insert, Finset.range_add_one, Finset.filter_insert]
    rw [Nat.add_assoc s a b]
    split
    · rw [Finset.card_insert_of_notMem (by simp), Finset.card_insert_of_notMem (by simp), ih]; omega
    · exact ih

theorem occurrences_period {α : Type*} [DecidableEq α] {f : Nat → α} {p : Nat} (hp : IsPeriod f p) (y : α) (s q : Nat) :
    occurrences f y s (p * q) = q * occurrences f y s p := by
  induction q with
  | zero => simp [occurrences]
  | succ q ih =>
    rw [Nat.mul_succ, occurrences_add, ih]
    have : occurrences f y (s + p * q) p = occurrences f y s p := by
      unfold occurrences
      congr 1
      apply Finset.filter_congr
      intro k _
      rw [show s + p * q + k = s + k + p * q by ring, IsPeriod.mul hp]
    rw [this]; ring

/-- If `N` is a period and the occurrence counts over `N` have no common divisor, `N` is the least period. -/
theorem leastPeriod_of_counts {α : Type*} [DecidableEq α] (f : Nat → α) (N : Nat) (hN : 0 < N) (h : IsPeriod f N)
    (y z : α) (hc : Nat.Coprime (occurrences f y 0 N) (occurrences f z 0 N)) : LeastPeriod f N := by
  refine ⟨hN, fun p => ⟨fun hp => ?_, fun hd => IsPeriod.of_dvd h hd⟩⟩
  have hg := IsPeriod.gcd h hp
  obtain ⟨q, hq⟩ := Nat.gcd_dvd_left N p
  have hy := occurrences_period hg y 0 q
  have hz := occurrences_period hg z 0 q
  rw [← hq] at hy hz
  have hq1 : q = 1 := Nat.eq_one_of_dvd_coprimes hc ⟨_, hy⟩ ⟨_, hz⟩
  rw [hq1, Nat.mul_one] at hq
  rw [hq]; exact Nat.gcd_dvd_right N p

/-- A cycle of length `N` that stays in a set of `N` elements visits each exactly once per window. -/
theorem orbit_count {V : Type*} [DecidableEq V] (T : V → V) (s : V) (N : Nat) (hN : 0 < N)
    (hp : minimalPeriod T s = N)
    (S : Finset V) (hS : ∀ n, T^[n] s ∈ S) (hcard : S.card = N) {β : Type*} [DecidableEq β] (g : V → β) (y : β) (n : Nat) :
    occurrences (fun k => g (T^[k] s)) y n N = (S.filter (fun v => g v = y)).card := by
  have hper : s ∈ periodicPts T := by
    rw [← minimalPeriod_pos_iff_mem_periodicPts, hp]; exact hN
  have hinj : ∀ a ∈ Finset.range N, ∀ b ∈ Finset.range N, T^[n + a] s = T^[n + b] s → a = b := by
    intro a ha b hb hab
    rw [Finset.mem_range] at ha hb
    have := (iterate_eq_iterate_iff_of_lt_minimalPeriod (f := T) (x := s) (m := (n + a) % N) (n := (n + b) % N)
      (by rw [hp]; exact Nat.mod_lt _ hN) (by rw [hp]; exact Nat.mod_lt _ hN)).1
      (by rw [← hp, iterate_mod_minimalPeriod_eq, iterate_mod_minimalPeriod_eq]; exact hab)
    have h2 : a % N = b % N := Nat.ModEq.add_left_cancel' n this
    rwa [Nat.mod_eq_of_lt ha, Nat.mod_eq_of_lt hb] at h2
  have himg : (Finset.range N).image (fun k => T^[n + k] s) = S := by
    apply Finset.eq_of_subset_of_card_le
    · intro v hv
      obtain ⟨k, _, rfl⟩ := Finset.mem_image.1 hv
      exact hS _
    · rw [hcard, Finset.card_image_of_injOn (fun a ha b hb h => hinj a ha b hb h), Finset.card_range]
  unfold occurrences
  rw [← himg, Finset.filter_image, Finset.card_image_of_injOn]
  intro a ha b hb h
  have ha' := Finset.mem_filter.1 (Finset.mem_coe.1 ha)
  have hb' := Finset.mem_filter.1 (Finset.mem_coe.1 hb)
  exact hinj a ha'.1 b hb'.1 h

theorem isPeriod_orbit {V : Type*} (T : V → V) (s : V) {β : Type*} (g : V → β) :
    IsPeriod (fun k => g (T^[k] s)) (minimalPeriod T s) := by
  intro n
  simp only
  rw [iterate_add_minimalPeriod_eq]

/-- A state that recurs exactly at multiples of `N`. -/
theorem minimalPeriod_of_iff {V : Type*} (T : V → V) (s : V) (N : Nat) (hN : 0 < N)
    (h : ∀ k, T^[k] s = s ↔ N ∣ k) : minimalPeriod T s = N := by
  apply Nat.dvd_antisymm
  · exact IsPeriodicPt.minimalPeriod_dvd ((h N).2 dvd_rfl)
  · rw [← h]; exact iterate_minimalPeriod

end TFR
