import Verif.Props.BasicTests
import Verif.Props.Calibration
import Verif.Lemmas.Arrangements
/-
C104: calibration of the runs test.
-/
namespace TFR
open Spec Finset
variable {w : Nat}

/-- The number of blocks is one more than the number of changes. -/
private theorem blocks_changes (N : Nat) (f : Fin (N + 1) → Bool) :
    (blocks (List.ofFn f) : ℝ) = 1 + ∑ i : Fin N, if f i.castSucc ≠ f i.succ then (1 : ℝ) else 0 := by
  unfold blocks
  rw [List.length_ofFn, countP_range_fin, card_filter, Fin.sum_univ_succ]
  push_cast
  congr 1
  apply sum_congr rfl
  intro i _
  have h1 : (List.ofFn f)[i.val + 1]? = some (f i.succ) := by
    rw [List.getElem?_ofFn, dif_pos (by omega)]; rfl
  have h2 : (List.ofFn f)[i.val]? = some (f i.castSucc) := by
    rw [List.getElem?_ofFn, dif_pos (by omega)]; rfl
  simp only [Fin.val_succ, Nat.add_sub_cancel, h1, h2]
  by_cases h : f i.castSucc = f i.succ
  · simp [h]
  · simp [h, Ne.symm h]

private theorem sum_next (M : Nat) (c : ℝ) : ∑ i : Fin (M + 1), ∑ j : Fin (M + 1), (if i.val + 1 = j.val then c else 0) = M * c := by
  have h : ∀ i : Fin (M + 1), ∑ j : Fin (M + 1), (if i.val + 1 = j.val then c else 0) = if i.val < M then c else 0 := by
    intro i
    by_cases hi : i.val < M
    · rw [if_pos hi, sum_eq_single (⟨i.val + 1, by omega⟩ : Fin (M + 1))]
      · simp
      · intro j _ hj
        rw [if_neg]
        intro h
        exact hj (Fin.ext h.symm)
      · simp
    · rw [if_neg hi]
      apply sum_eq_zero
      intro j _
      rw [if_neg]
      have := j.isLt
      omega
  rw [sum_congr rfl fun i _ => h i, Fin.sum_univ_castSucc]
  simp

/-- Wald and Wolfowitz: mean and variance of the number of blocks of a random arrangement. -/
private theorem blocks_moments (a b : Nat) :
    average (fun f : Arrangement (a + 1) (b + 1) => (blocks (List.ofFn f.1) : ℝ)) = 2 * ((a + 1) * (b + 1)) / (a + b + 2) + 1 ∧
    average (fun f : Arrangement (a + 1) (b + 1) => ((blocks (List.ofFn f.1) : ℝ) - (2 * ((a + 1) * (b + 1)) / (a + b + 2) + 1)) ^ 2) =
      (2 * ((a + 1) * (b + 1)) / (a + b + 2)) * (2 * ((a + 1) * (b + 1)) / (a + b + 2) - 1) / (a + b + 1) := by
  have hN : a + 1 + (b + 1) = (a + b + 1) + 1 := by ring
  -- the change at place i
  let c : Fin (a + b + 1) → Fin (a + 1 + (b + 1)) := fun i => ⟨i.val, by omega⟩
  let s : Fin (a + b + 1) → Fin (a + 1 + (b + 1)) := fun i => ⟨i.val + 1, by omega⟩
  let d : Fin (a + b + 1) → Arrangement (a + 1) (b + 1) → ℝ := fun i f => if f.1 (c i) ≠ f.1 (s i) then (1 : ℝ) else 0
  have hblocks : ∀ f : Arrangement (a + 1) (b + 1), (blocks (List.ofFn f.1) : ℝ) = 1 + ∑ i, d i f := by
    intro f
    have h := blocks_changes (a + b + 1) (fun i => f.1 (Fin.cast hN.symm i))
    have hl : List.ofFn (fun i : Fin (a + b + 1 + 1) => f.1 (Fin.cast hN.symm i)) = List.ofFn f.1 := by
      rw [← List.ofFn_congr hN f.1]
    rw [hl] at h
    exact h
  have hcs : ∀ i, c i ≠ s i := by intro i h; have := congrArg Fin.val h; simp [c, s] at this
  have hq : ∀ i, average (d i) = 2 * ((a + 1) * (b + 1)) / ((a + b + 2) * (a + b + 1)) := fun i => average_differ a b _ _ (hcs i)
  have hmean : average (fun f : Arrangement (a + 1) (b + 1) => ∑ i, d i f) = 2 * ((a + 1) * (b + 1)) / (a + b + 2) := by
    rw [average_sum, sum_congr rfl fun i _ => hq i, sum_const, card_univ, Fintype.card_fin, nsmul_eq_mul]
    push_cast
    field_simp
  constructor
  · rw [average_congr _ _ hblocks, average_add, average_const, hmean]; ring
  set μ : ℝ := 2 * ((a + 1) * (b + 1)) / (a + b + 2) with hμ
  set q : ℝ := 2 * ((a + 1) * (b + 1)) / ((a + b + 2) * (a + b + 1)) with hqdef
  -- pairs of places
  let Q : ℝ := 4 * ((a + 1) * a * ((b + 1) * b)) / ((a + b + 2) * (a + b + 1) * (a + b) * (a + b - 1))
  have hpair : ∀ i j, average (fun f => d i f * d j f) =
      Q + (if i = j then q - Q else 0) + (if i.val + 1 = j.val then q / 2 - Q else 0) + (if j.val + 1 = i.val then q / 2 - Q else 0) := by
    intro i j
    by_cases h1 : i = j
    · subst h1
      rw [if_pos rfl, if_neg (by omega)]
      rw [average_congr _ (d i) fun f => by show d i f * d i f = d i f; simp only [d]; split_ifs <;> norm_num, hq]
      ring
    by_cases h2 : i.val + 1 = j.val
    · rw [if_neg h1, if_pos h2, if_neg (by omega)]
      have hsc : s i = c j := Fin.ext h2
      have h3 := average_differ_share a b (c i) (s i) (s j) (hcs i) (by rw [hsc]; exact hcs j) (by
        intro h; have := congrArg Fin.val h; simp only [c, s] at this; omega)
      have h4 : average (fun f => d i f * d j f) = q / 2 := by
        refine Eq.trans ?_ (h3.trans ?_)
        · apply average_congr; intro f; simp only [d]; rw [hsc]
        · rw [hqdef]; ring
      rw [h4]; ring
    by_cases h3 : j.val + 1 = i.val
    · rw [if_neg h1, if_neg h2, if_pos h3]
      have hsc : s j = c i := Fin.ext h3
      have h4 := average_differ_share a b (c j) (s j) (s i) (hcs j) (by rw [hsc]; exact hcs i) (by
        intro h; have := congrArg Fin.val h; simp only [c, s] at this; omega)
      have h5 : average (fun f => d i f * d j f) = q / 2 := by
        refine Eq.trans ?_ (h4.trans ?_)
        · apply average_congr; intro f; simp only [d]; rw [hsc]; ring
        · rw [hqdef]; ring
      rw [h5]; ring
    · rw [if_neg h1, if_neg h2, if_neg h3]
      have hne : i.val ≠ j.val := fun h => h1 (Fin.ext h)
      have h4 := average_differ_differ a b (c i) (s i) (c j) (s j) (hcs i) (hcs j)
        (by intro h; have := congrArg Fin.val h; simp only [c] at this; omega)
        (by intro h; have := congrArg Fin.val h; simp only [c, s] at this; omega)
        (by intro h; have := congrArg Fin.val h; simp only [c, s] at this; omega)
        (by intro h; have := congrArg Fin.val h; simp only [s] at this; omega)
      have hab : 2 ≤ a + b := by have := i.isLt; have := j.isLt; omega
      have hab' : (2 : ℝ) ≤ a + b := by exact_mod_cast hab
      have hpos : (0 : ℝ) < (a + b + 2) * (a + b + 1) * (a + b) * (a + b - 1) := by
        have : (0 : ℝ) < a + b - 1 := by linarith
        positivity
      have h5 : average (fun f => d i f * d j f) = Q := by
        rw [eq_div_iff hpos.ne']
        exact h4
      rw [h5]; ring
  have hsq : average (fun f : Arrangement (a + 1) (b + 1) => (∑ i, d i f) ^ 2) =
      (a + b + 1) ^ 2 * Q + (a + b + 1) * (q - Q) + (a + b) * (q / 2 - Q) + (a + b) * (q / 2 - Q) := by
    rw [average_congr _ (fun f => ∑ i, ∑ j, d i f * d j f) fun f => by rw [sq, sum_mul_sum], average_sum]
    rw [sum_congr rfl fun i _ => average_sum univ fun j f => d i f * d j f]
    simp only [hpair]
    simp only [sum_add_distrib]
    rw [sum_next (a + b), sum_comm (f := fun (i j : Fin (a + b + 1)) => if j.val + 1 = i.val then q / 2 - Q else 0), sum_next (a + b)]
    simp only [sum_const, card_univ, Fintype.card_fin, nsmul_eq_mul, sum_ite_eq, mem_univ, if_true]
    push_cast
    ring
  rw [average_congr _ (fun f => ((∑ i, d i f) ^ 2 - 2 * μ * (∑ i, d i f)) + μ ^ 2) fun f => by rw [hblocks f]; ring,
    average_add, average_sub, average_mul_left, average_const, hsq, hmean]
  -- arithmetic
  have hQ : (a + b) * (a + b - 1) * Q = 4 * ((a + 1) * a * ((b + 1) * b)) / ((a + b + 2) * (a + b + 1)) := by
    by_cases h0 : ((a : ℝ) + b) * (a + b - 1) = 0
    · rw [h0, zero_mul]
      have hz : (a : ℝ) * b = 0 := by
        rcases mul_eq_zero.1 h0 with h | h
        · have h' : a + b = 0 := by exact_mod_cast h
          have : a = 0 := by omega
          simp [this]
        · have h' : a + b = 1 := by
            have : (a : ℝ) + b = 1 := by linarith
            exact_mod_cast this
          have : a = 0 ∨ b = 0 := by omega
          rcases this with h | h <;> simp [h]
      rw [show 4 * (((a : ℝ) + 1) * a * ((b + 1) * b)) = 4 * ((a + 1) * (b + 1)) * (a * b) by ring, hz]; simp
    · have h1 : (a : ℝ) + b ≠ 0 := left_ne_zero_of_mul h0
      have h2 : (a : ℝ) + b - 1 ≠ 0 := right_ne_zero_of_mul h0
      simp only [Q]
      field_simp
  have hlhs : (a + b + 1) ^ 2 * Q + (a + b + 1) * (q - Q) + (a + b) * (q / 2 - Q) + (a + b) * (q / 2 - Q) =
      (a + b) * (a + b - 1) * Q + (2 * (a + b) + 1) * q := by ring
  rw [hlhs, hQ, hμ, hqdef]
  field_simp
  ring

/-- C104. The runs test: over all arrangements of `a` values above and `b` values below the cutoff (both at least 1, not both 1), the
number of runs has the mean the test uses, so the z-score is zero on average; but its variance is `n / (n - 1)` with `n = a + b`, not one,
as the test divides by `n` where the exact variance has `n - 1`. -/
theorem C104_runs (hw : 0 < w) (a b : Nat) (ha : 1 ≤ a) (hb : 1 ≤ b) (hab : ¬ (a = 1 ∧ b = 1)) (n : BitVec 64) (hn : n.toNat = a + b)
    (src : Arrangement a b → Stream (BitVec w))
    (hsrc : ∀ f (i : Fin (a + b)), if f.1 i = true then BitVec.intMax w < (src f).nth i else (src f).nth i < BitVec.intMax w) :
    ∃ z : Arrangement a b → ℝ, (∀ f, ∃ st, runsTest n (src f) = .ok [⟨"", some st⟩] ∧ st.type = .zScore ∧ st.value = z f) ∧
      average z = 0 ∧ average (fun f => z f ^ 2) = (a + b) / (a + b - 1) := by
  classical
  have hN0 : 0 < a + b := by omega
  -- what the test sees
  have hsigns : ∀ f, signs ((src f).take n.toNat) (BitVec.intMax w) = List.ofFn f.1 ∧ (src f).nth 0 ≠ BitVec.intMax w := by
    intro f
    have hne : ∀ i, i < a + b → (src f).nth i ≠ BitVec.intMax w := by
      intro i hi h
      have := hsrc f ⟨i, hi⟩
      dsimp only at this
      rw [h] at this
      split_ifs at this <;> exact absurd this (BitVec.lt_irrefl _)
    refine ⟨?_, hne 0 hN0⟩
    unfold signs
    rw [Stream.take_eq_map, hn, List.filter_eq_self.2]
    · apply List.ext_getElem
      · simp
      · intro i h1 h2
        rw [List.length_ofFn] at h2
        have := hsrc f ⟨i, h2⟩
        dsimp only at this
        simp only [List.getElem_map, List.getElem_range, List.getElem_ofFn]
        by_cases hf : f.1 ⟨i, h2⟩ = true
        · rw [if_pos hf] at this
          rw [hf]; simpa using this
        · rw [if_neg hf] at this
          rw [Bool.not_eq_true] at hf
          rw [hf]; simpa using BitVec.le_of_lt this
    · intro v hv
      obtain ⟨i, hi, rfl⟩ := List.mem_map.1 hv
      simpa using hne i (List.mem_range.1 hi)
  have hcountA : ∀ f, ((src f).take n.toNat).countP (fun v => v.msb) = a := by
    intro f
    rw [Stream.take_eq_map, hn, List.countP_map, countP_range_fin]
    refine Eq.trans ?_ f.2
    congr 1
    ext i
    simp only [mem_filter, mem_univ, true_and, Function.comp]
    have := hsrc f i
    rw [BitVec.msb_eq_decide, decide_eq_true_eq]
    by_cases hf : f.1 i = true
    · rw [if_pos hf, BitVec.lt_def, BitVec.toNat_intMax] at this
      exact ⟨fun _ => hf, fun _ => by omega⟩
    · rw [if_neg hf, BitVec.lt_def, BitVec.toNat_intMax] at this
      exact ⟨fun h => by omega, fun h => absurd h hf⟩
  have hcountB : ∀ f, ((src f).take n.toNat).countP (fun v => decide (v.toNat < 2 ^ (w - 1) - 1)) = b := by
    intro f
    have hA := f.2
    rw [Stream.take_eq_map, hn, List.countP_map, countP_range_fin]
    have hB : (univ.filter fun i => ¬ f.1 i = true).card = b := by
      have := card_filter_add_card_filter_not (s := (univ : Finset (Fin (a + b)))) (fun i => f.1 i = true)
      rw [hA, card_univ, Fintype.card_fin] at this
      omega
    refine Eq.trans ?_ hB
    congr 1
    ext i
    simp only [mem_filter, mem_univ, true_and, Function.comp, decide_eq_true_eq]
    have := hsrc f i
    by_cases hf : f.1 i = true
    · rw [if_pos hf, BitVec.lt_def, BitVec.toNat_intMax] at this
      exact ⟨fun h => by omega, fun h => absurd hf h⟩
    · rw [if_neg hf, BitVec.lt_def, BitVec.toNat_intMax] at this
      exact ⟨fun _ => hf, fun _ => this⟩
  obtain ⟨a, rfl⟩ : ∃ k, a = k + 1 := ⟨a - 1, by omega⟩
  obtain ⟨b, rfl⟩ : ∃ k, b = k + 1 := ⟨b - 1, by omega⟩
  obtain ⟨hm, hv⟩ := blocks_moments a b
  set μ : ℝ := 2 * ((a + 1) * (b + 1)) / (a + b + 2) + 1 with hμ
  set σ : ℝ := (μ - 1) * (μ - 2) / (a + b + 2) with hσ
  have hab1 : (1 : ℝ) ≤ a + b := by
    have : 1 ≤ a + b := by omega
    exact_mod_cast this
  have ha0 : (0 : ℝ) ≤ a := Nat.cast_nonneg _
  have hb0 : (0 : ℝ) ≤ b := Nat.cast_nonneg _
  have h1 : 0 < μ - 2 := by
    have : μ - 2 = (2 * (a * b) + (a + b)) / (a + b + 2) := by rw [hμ]; field_simp; ring
    rw [this]; positivity
  have hσ0 : 0 < σ := by
    have : 0 < μ - 1 := by linarith
    rw [hσ]; positivity
  refine ⟨fun f => ((blocks (List.ofFn f.1) : ℝ) - μ) / Real.sqrt σ, fun f => ?_, ?_, ?_⟩
  · obtain ⟨a', b', r, h2, h3, h4, h5⟩ := C80_runs hw n (src f)
    rw [hcountA f] at h2
    rw [hcountB f] at h3
    have h4 := h4 (by rintro rfl; simp at hn)
    rw [(hsigns f).1, if_neg (by
      rintro (h | h)
      · exact absurd (congrArg List.length h) (by simp)
      · exact (hsigns f).2 h.1), Nat.add_zero] at h4
    rw [h2, h3, if_neg (by omega)] at h5
    refine ⟨_, h5, rfl, ?_⟩
    dsimp only
    rw [h4, hσ]
    have e1 : (2 : ℝ) * ((a + 1 : ℕ) : ℝ) * ((b + 1 : ℕ) : ℝ) / (((a + 1 : ℕ) : ℝ) + ((b + 1 : ℕ) : ℝ)) + 1 = μ := by
      rw [hμ]; push_cast; congr 2 <;> ring
    have e2 : ((a + 1 : ℕ) : ℝ) + ((b + 1 : ℕ) : ℝ) = a + b + 2 := by push_cast; ring
    rw [e1, e2]
  · rw [average_div, average_sub, average_const, hm, sub_self, zero_div]
  · rw [average_congr _ (fun f : Arrangement (a + 1) (b + 1) => ((blocks (List.ofFn f.1) : ℝ) - μ) ^ 2 / σ) fun f => by
      rw [div_pow, Real.sq_sqrt hσ0.le], average_div, hv]
    have e3 : 2 * (((a : ℝ) + 1) * (b + 1)) / (a + b + 2) = μ - 1 := by rw [hμ]; ring
    rw [e3, hσ]
    push_cast
    have e4 : (a : ℝ) + 1 + (b + 1) - 1 = a + b + 1 := by ring
    have e5 : (a : ℝ) + 1 + (b + 1) = a + b + 2 := by ring
    rw [e4, e5, show μ - 1 - 1 = μ - 2 by ring]
    have h2 : μ - 1 ≠ 0 := by linarith
    have h3 : μ - 2 ≠ 0 := by linarith
    field_simp

/-- C104, non-vacuity: bytes 200 above and 3 below. -/
example : let src : Arrangement 3 2 → Stream (BitVec 8) := fun f =>
      ⟨Nat, "", 0, fun k => (if h : k < 5 then (if f.1 ⟨k, h⟩ then 200#8 else 3#8) else 0#8, k + 1)⟩
    ∀ f (i : Fin 5), if f.1 i = true then BitVec.intMax 8 < (src f).nth i else (src f).nth i < BitVec.intMax 8 := by
  intro src f i
  have h : (src f).nth i = if f.1 i = true then 200#8 else 3#8 := by
    have hst : ∀ k : Nat, (src f).stateAt k = k := by
      intro k
      induction k with
      | zero => rfl
      | succ k ih => rw [Stream.stateAt_succ, ih]
    rw [Stream.nth_eq, hst]
    show (if h : i.val < 5 then _ else _) = _
    rw [dif_pos i.isLt]
  rw [h]
  split_ifs <;> decide

end TFR
