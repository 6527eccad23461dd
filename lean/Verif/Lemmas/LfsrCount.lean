import Verif.Lemmas.Lfsr
import Mathlib.Data.Fintype.BigOperators
import Mathlib.Data.Fin.Tuple.Basic
import Mathlib.Algebra.BigOperators.Fin
import Mathlib.Order.Lattice
/-
How many bit strings have a given linear complexity.
-/
namespace TFR.Lfsr
open Finset

theorem exists_inv (u : Nat → F2) : ∀ N, ∃ c b l lb m, Inv u N c b l lb m := by
  intro N
  induction N with
  | zero => exact ⟨_, _, _, _, _, inv_zero u⟩
  | succ N ih =>
    obtain ⟨c, b, l, lb, m, h⟩ := ih
    by_cases hd : disc u c l N = 0
    · exact ⟨_, _, _, _, _, inv_keep h hd⟩
    · by_cases hl : 2 * l ≤ N + 1
      · exact ⟨_, _, _, _, _, inv_change h hd hl⟩
      · exact ⟨_, _, _, _, _, inv_same h hd (by omega)⟩

/-- Length of the shortest recurrence generating the first `N` symbols. -/
noncomputable def lc (u : Nat → F2) (N : Nat) : Nat := sInf {L | ∃ c, Gen u c L N}

theorem lc_eq {u : Nat → F2} {N L : Nat} (h1 : ∃ c, Gen u c L N) (h2 : ∀ c' L', Gen u c' L' N → L ≤ L') : lc u N = L := by
  unfold lc
  apply le_antisymm (Nat.sInf_le h1)
  have : (sInf {L | ∃ c, Gen u c L N}) ∈ {L | ∃ c, Gen u c L N} := Nat.sInf_mem ⟨L, h1⟩
  obtain ⟨c, hc⟩ := this
  exact h2 c _ hc

theorem Inv.lc {u : Nat → F2} {N : Nat} {c b : Nat → F2} {l lb m : Nat} (h : Inv u N c b l lb m) : lc u N = l :=
  lc_eq ⟨c, h.gen⟩ h.least

theorem lc_le (u : Nat → F2) (N : Nat) : lc u N ≤ N := by
  obtain ⟨c, b, l, lb, m, h⟩ := exists_inv u N
  rw [h.lc]; exact h.l_le

theorem disc_congr {u v c : Nat → F2} {L n : Nat} (h : ∀ i, i ≤ n → u i = v i) : disc u c L n = disc v c L n := by
  unfold disc
  apply sum_congr rfl
  intro j _
  rw [h (n - j) (Nat.sub_le n j)]

theorem Gen.congr {u v c : Nat → F2} {L N : Nat} (h : ∀ i, i < N → u i = v i) (g : Gen u c L N) : Gen v c L N :=
  ⟨g.one, g.deg, fun n a b => by rw [← disc_congr (u := u) (fun i hi => h i (by omega))]; exact g.gen n a b⟩

theorem lc_congr {u v : Nat → F2} {N : Nat} (h : ∀ i, i < N → u i = v i) : lc u N = lc v N := by
  unfold lc
  congr 1
  ext L
  exact ⟨fun ⟨c, g⟩ => ⟨c, g.congr h⟩, fun ⟨c, g⟩ => ⟨c, g.congr fun i hi => (h i hi).symm⟩⟩

/-- Of the two one-symbol extensions one keeps the complexity, the other makes it `max l (N + 1 - l)`. -/
theorem lc_extend (u : Nat → F2) (N : Nat) : ∃ a : F2, ∀ v : Nat → F2, (∀ i, i < N → v i = u i) →
    lc v (N + 1) = if v N = a then lc u N else max (lc u N) (N + 1 - lc u N) := by
  obtain ⟨c, b, l, lb, m, h⟩ := exists_inv u N
  refine ⟨u N - disc u c l N, ?_⟩
  intro v hv
  obtain ⟨c', b', l', lb', m', h'⟩ : ∃ c' b' l' lb' m', Inv v N c' b' l' lb' m' := exists_inv v N
  have hgen : Gen v c l N := h.gen.congr fun i hi => (hv i hi).symm
  have hl : lc v N = l := by rw [lc_congr hv, h.lc]
  have hll : l' = l := by rw [← h'.lc, hl]
  subst hll
  have hle := h.l_le
  -- discrepancy of the generator on v
  have hd : disc v c l' N = v N - (u N - disc u c l' N) := by
    unfold disc
    rw [sum_range_succ', sum_range_succ', h.gen.one, Nat.sub_zero, one_mul, one_mul]
    have : ∀ j ∈ range l', c (j + 1) * v (N - (j + 1)) = c (j + 1) * u (N - (j + 1)) := by
      intro j hj
      simp at hj
      rw [hv _ (by omega)]
    rw [sum_congr rfl this]; ring
  rw [h.lc]
  -- use an invariant of v with c as generator
  have hiv : Inv v N c b' l' lb' m' := { h' with gen := hgen }
  by_cases q : v N = u N - disc u c l' N
  · rw [if_pos q]
    rw [q, sub_self] at hd
    exact (inv_keep hiv hd).lc
  · rw [if_neg q]
    have hd0 : disc v c l' N ≠ 0 := by rw [hd]; exact sub_ne_zero.2 q
    exact lc_eq ⟨_, gen_upd hiv hd0⟩ (least_upd hiv hd0)

/-- A finite bit string as a sequence. -/
def ext {N : Nat} (u : Fin N → Bool) : Nat → F2 := fun i => if h : i < N then (if u ⟨i, h⟩ then 1 else 0) else 0

/-- Number of strings of length `N` with complexity `k`. -/
noncomputable def lcCount (N k : Nat) : Nat := ∑ u : Fin N → Bool, if lc (ext u) N = k then 1 else 0

theorem lcCount_zero (k : Nat) : lcCount 0 k = if k = 0 then 1 else 0 := by
  unfold lcCount
  have : ∀ u : Fin 0 → Bool, lc (ext u) 0 = 0 := fun u => Nat.le_zero.1 (lc_le _ 0)
  simp [this, eq_comm]

theorem lcCount_succ (N k : Nat) : lcCount (N + 1) k =
    lcCount N k + ∑ u : Fin N → Bool, if max (lc (ext u) N) (N + 1 - lc (ext u) N) = k then 1 else 0 := by
  unfold lcCount
  rw [← (Fin.snocEquiv (fun _ : Fin (N + 1) => Bool)).sum_comp, Fintype.sum_prod_type_right, ← sum_add_distrib]
  apply sum_congr rfl
  intro u _
  obtain ⟨a, ha⟩ := lc_extend (ext u) N
  have hb : ∀ b : Bool, lc (ext (Fin.snoc u b : Fin (N + 1) → Bool)) (N + 1) =
      if (if b then (1 : F2) else 0) = a then lc (ext u) N else max (lc (ext u) N) (N + 1 - lc (ext u) N) := by
    intro b
    rw [ha (ext (Fin.snoc u b : Fin (N + 1) → Bool))]
    · congr 2
      simp [ext, Fin.snoc]
    · intro i hi
      simp [ext, Fin.snoc, hi, Nat.lt_succ_of_lt hi]
  have hval : ∀ b : Bool, (Fin.snocEquiv fun _ : Fin (N + 1) => Bool) (b, u) = (Fin.snoc u b : Fin (N + 1) → Bool) := fun b => rfl
  simp only [hval, hb, Fintype.sum_bool]
  rcases f2_cases a with q | q <;> subst q
  · simp; ring
  · simp

theorem lcCount_other (N k : Nat) : (∑ u : Fin N → Bool, if max (lc (ext u) N) (N + 1 - lc (ext u) N) = k then 1 else 0) =
    (if N < 2 * k then lcCount N k else 0) + (if k ≤ N + 1 ∧ N + 2 ≤ 2 * k then lcCount N (N + 1 - k) else 0) := by
  have : ∀ u : Fin N → Bool, (if max (lc (ext u) N) (N + 1 - lc (ext u) N) = k then 1 else 0) =
      (if N < 2 * k then (if lc (ext u) N = k then 1 else 0) else 0) +
      (if k ≤ N + 1 ∧ N + 2 ≤ 2 * k then (if lc (ext u) N = N + 1 - k then 1 else 0) else 0) := by
    intro u
    have hle := lc_le (ext u) N
    generalize lc (ext u) N = L at *
    split_ifs <;> omega
  rw [sum_congr rfl (fun u _ => this u), sum_add_distrib]
  congr 1
  · split
    · rfl
    · simp
  · split
    · rfl
    · simp

/-- Closed form. -/
theorem lcCount_closed : ∀ N k, lcCount N k =
    if k = 0 then 1 else if 2 * k ≤ N then 2 ^ (2 * k - 1) else if k ≤ N then 2 ^ (2 * (N - k)) else 0 := by
  intro N
  induction N with
  | zero =>
    intro k
    rw [lcCount_zero]
    by_cases h : k = 0
    · simp [h]
    · rw [if_neg h, if_neg h, if_neg (by omega), if_neg (by omega)]
  | succ N ih =>
    intro k
    rw [lcCount_succ, lcCount_other, ih k, ih (N + 1 - k)]
    by_cases h0 : k = 0
    · subst h0; simp
    · rw [if_neg h0, if_neg h0]
      by_cases h1 : 2 * k ≤ N
      · rw [if_pos h1, if_neg (by omega), if_neg (by omega), if_pos (by omega)]; rfl
      · rw [if_neg h1]
        by_cases h2 : 2 * k = N + 1
        · rw [if_pos (by omega), if_pos (by omega), if_neg (by omega), if_pos (by omega),
            show 2 * k - 1 = 2 * (N - k) + 1 by omega, pow_succ]; ring
        · by_cases h3 : k ≤ N
          · rw [if_pos h3, if_pos (by omega), if_pos (by omega), if_neg (by omega), if_pos (by omega), if_neg (by omega),
              if_pos (by omega), show 2 * (N + 1 - k) - 1 = 2 * (N - k) + 1 by omega,
              show 2 * (N + 1 - k) = 2 * (N - k) + 1 + 1 by omega, pow_succ, pow_succ]; ring
          · rw [if_neg h3, if_pos (by omega)]
            by_cases h4 : k = N + 1
            · rw [if_pos (by omega), if_pos (by omega), if_neg (by omega), if_pos (by omega), h4]; simp
            · rw [if_neg (by omega), if_neg (by omega), if_neg (by omega)]

end TFR.Lfsr
