import Verif.Props.PowerLinear
import Mathlib.LinearAlgebra.Matrix.Rank
import Mathlib.LinearAlgebra.Dimension.RankNullity
/-
C109. Power of the binary rank test.
-/
namespace TFR
open Finset Spec Lfsr
variable {w : Nat}

namespace Spec
/-- Whether the number of ones of a word is odd. -/
def oddOnes (x : BitVec w) : Bool := (List.range w).foldl (fun acc j => acc ^^ x.getLsbD j) false
end Spec

/-! ### Matrices without full rank -/

/-- A square matrix that maps a vector other than zero to zero has not full rank. -/
theorem rank_ne_of_kernel {n : Nat} (M : Matrix (Fin n) (Fin n) (ZMod 2)) (v : Fin n → ZMod 2) (hv : v ≠ 0) (h : M.mulVec v = 0) :
    M.rank ≠ n := by
  intro hr
  have h1 := LinearMap.finrank_range_add_finrank_ker M.mulVecLin
  rw [Module.finrank_fintype_fun_eq_card, Fintype.card_fin] at h1
  have h2 : Module.finrank (ZMod 2) (LinearMap.range M.mulVecLin) = n := hr
  have h3 : Module.finrank (ZMod 2) (LinearMap.ker M.mulVecLin) = 0 := by omega
  rw [Submodule.finrank_eq_zero] at h3
  have : v ∈ LinearMap.ker M.mulVecLin := by rw [LinearMap.mem_ker]; exact h
  rw [h3] at this
  exact hv (by simpa using this)

theorem rankShare_sum (n : Nat) : ((List.range (n + 1)).map fun s => rankShare n (n - s)).sum = 1 ∧ ∀ r, r ≤ n → 0 ≤ rankShare n r := by
  obtain ⟨p1, p2, p3, p4⟩ := C53_rank_probabilities n
  constructor
  · rw [← p4]
    congr 1
    apply List.ext_getElem (by simp [p1])
    intro i h1 h2
    rw [p2 i h2]
    simp [rankShare, C53_rank_probability]
  · intro r _
    unfold rankShare
    positivity

/-- Pearson's test of ranks rejects when none of at least 954 matrices has full rank. -/
theorem rank_rejects (n N : Nat) (hn : 1 ≤ n) (hN : 954 ≤ N) (M : Nat → Matrix (Fin n) (Fin n) (ZMod 2)) (hM : ∀ k, k < N → (M k).rank ≠ n)
    (st : Statistic ℝ) (h : pearson chi2DistributionCdf (rankCells n N M) 5 = some st) : st.pValue ≤ 1 / 10 ^ 9 ∧ statPass st = false := by
  have hNr : (954 : ℝ) ≤ N := by exact_mod_cast hN
  obtain ⟨hs, h0⟩ := rankShare_sum n
  have hfull := rank_full n
  have hdef := rank_deficient n hn
  -- the cells
  have hcells : rankCells n N M = ((0 : ℝ), rankShare n n * N) ::
      ((((List.range N).countP fun k => (M k).rank == n - 1 : ℕ) : ℝ), rankShare n (n - 1) * N) ::
      (List.range (n - 1)).map fun s => ((((List.range N).countP fun k => (M k).rank == n - (s + 2) : ℕ) : ℝ), rankShare n (n - (s + 2)) * N) := by
    unfold rankCells
    rw [show n + 1 = (n - 1) + 1 + 1 by omega, List.range_succ_eq_map, List.map_cons, List.map_map, List.range_succ_eq_map, List.map_cons,
      List.map_map]
    refine congrArg₂ List.cons ?_ (congrArg₂ List.cons rfl rfl)
    have : ((List.range N).countP fun k => (M k).rank == n - 0) = 0 := by
      rw [List.countP_eq_zero]
      intro k hk
      have := hM k (List.mem_range.1 hk)
      simpa using this
    rw [this]; simp
  have hsum2 : ((List.range (n - 1)).map fun s => rankShare n (n - (s + 2))).sum ≤ 1 / 4 := by
    rw [show n + 1 = (n - 1) + 1 + 1 by omega, List.range_succ_eq_map, List.map_cons, List.map_map, List.range_succ_eq_map, List.map_cons,
      List.map_map, List.sum_cons, List.sum_cons] at hs
    have e : (((fun s => rankShare n (n - s)) ∘ Nat.succ) ∘ Nat.succ) = fun s => rankShare n (n - (s + 2)) := rfl
    have e1 : (((fun s => rankShare n (n - s)) ∘ Nat.succ) 0) = rankShare n (n - 1) := rfl
    rw [e, e1, Nat.sub_zero] at hs
    linarith
  -- few of the other cells are used
  have hfew : ∀ l : List Nat, (∀ s ∈ l, 0 ≤ rankShare n (n - (s + 2))) → ∀ o : Nat → ℝ,
      5 * ((usedCells 5 (l.map fun s => (o s, rankShare n (n - (s + 2)) * N))).length : ℝ) ≤
        (l.map fun s => rankShare n (n - (s + 2))).sum * N := by
    intro l hl o
    induction l with
    | nil => simp [usedCells]
    | cons s l ih =>
      have ih := ih fun x hx => hl x (List.mem_cons_of_mem _ hx)
      have hs0 := hl s List.mem_cons_self
      unfold usedCells at ih ⊢
      rw [List.map_cons, List.map_cons, List.sum_cons, List.filter_cons]
      split
      · rename_i hc
        have hc : 5 < rankShare n (n - (s + 2)) * N := by simpa using hc
        rw [List.length_cons]; push_cast; linarith
      · have : 0 ≤ rankShare n (n - (s + 2)) * N := by positivity
        linarith
  have hU := hfew (List.range (n - 1)) (fun s _ => h0 _ (Nat.sub_le _ _))
    (fun s => (((List.range N).countP fun k => (M k).rank == n - (s + 2) : ℕ) : ℝ))
  rw [hcells] at h
  generalize hr : ((List.range (n - 1)).map fun s => ((((List.range N).countP fun k => (M k).rank == n - (s + 2) : ℕ) : ℝ), rankShare n (n - (s + 2)) * N)) = rest at h hU
  generalize (((List.range N).countP fun k => (M k).rank == n - 1 : ℕ) : ℝ) = o1 at h
  have hu : usedCells 5 (((0 : ℝ), rankShare n n * N) :: (o1, rankShare n (n - 1) * N) :: rest) =
      ((0 : ℝ), rankShare n n * N) :: (o1, rankShare n (n - 1) * N) :: usedCells 5 rest := by
    unfold usedCells
    rw [List.filter_cons_of_pos (by simp; nlinarith), List.filter_cons_of_pos (by simp; nlinarith)]
  have hpos : 0 ≤ chiSquare (usedCells 5 rest) := by
    unfold chiSquare
    apply List.sum_nonneg
    intro x hx
    obtain ⟨c, hc, rfl⟩ := List.mem_map.1 hx
    unfold usedCells at hc
    have : 5 < c.2 := by simpa using (List.mem_filter.1 hc).2
    exact div_nonneg (sq_nonneg _) (by linarith)
  have hval : rankShare n n * N ≤ chiSquare (((0 : ℝ), rankShare n n * N) :: (o1, rankShare n (n - 1) * N) :: usedCells 5 rest) := by
    unfold chiSquare at hpos ⊢
    rw [List.map_cons, List.map_cons, List.sum_cons, List.sum_cons]
    have e1 : (((0 : ℝ), rankShare n n * N).1 - ((0 : ℝ), rankShare n n * (N : ℝ)).2) ^ 2 / ((0 : ℝ), rankShare n n * (N : ℝ)).2 = rankShare n n * N := by
      have : rankShare n n * (N : ℝ) ≠ 0 := by nlinarith
      field_simp
      ring
    have e2 : 0 ≤ ((o1, rankShare n (n - 1) * (N : ℝ)).1 - (o1, rankShare n (n - 1) * (N : ℝ)).2) ^ 2 / (o1, rankShare n (n - 1) * (N : ℝ)).2 :=
      div_nonneg (sq_nonneg _) (by show 0 ≤ rankShare n (n - 1) * (N : ℝ); nlinarith)
    rw [e1]
    linarith
  unfold pearson at h
  rw [hu] at h
  rw [if_neg (by simp)] at h
  obtain rfl := Option.some.inj h
  generalize chiSquare (((0 : ℝ), rankShare n n * N) :: (o1, rankShare n (n - 1) * N) :: usedCells 5 rest) = V at hval
  refine reject_of_value _ rfl rfl ?_ ?_
  · simp only [List.length_cons]; push_cast
    linarith [show (0 : ℝ) ≤ ((usedCells 5 rest).length : ℝ) by positivity]
  · simp only [List.length_cons]; push_cast
    nlinarith

/-! ### Words in a hyperplane -/

theorem toF_oddOnes (mask x : BitVec w) : toF (oddOnes (mask &&& x)) = ∑ b ∈ range w, toF (mask.getLsbD b) * toF (x.getLsbD b) := by
  unfold oddOnes
  have : ∀ L, toF ((List.range L).foldl (fun acc j => acc ^^ (mask &&& x).getLsbD j) false) =
      ∑ b ∈ range L, toF (mask.getLsbD b) * toF (x.getLsbD b) := by
    intro L
    induction L with
    | zero => simp [toF]
    | succ L ih =>
      rw [List.range_succ, List.foldl_append, Finset.sum_range_succ, ← ih, List.foldl_cons, List.foldl_nil, toF_xor, BitVec.getLsbD_and, toF_and]
  exact this w

/-- The entries of a complete matrix of the data. -/
theorem blockMatrix_entry (hw : 0 < w) (s : Stream (BitVec w)) (n m k : Nat) (hk : k < n * w / (m * m)) (i j : Fin m) :
    blockMatrix (s.take n) m k i j =
      toF ((s.nth ((k * (m * m) + (i.val * m + j.val)) / w)).getLsbD ((k * (m * m) + (i.val * m + j.val)) % w)) ∧
    (k * (m * m) + (i.val * m + j.val)) / w < n := by
  have hm : 0 < m := lt_of_le_of_lt (Nat.zero_le _) i.isLt
  have h1 : i.val * m + j.val < m * m := by
    have := i.isLt; have := j.isLt
    calc i.val * m + j.val < i.val * m + m := by omega
      _ = (i.val + 1) * m := by ring
      _ ≤ m * m := Nat.mul_le_mul_right _ (by omega)
  have h2 : (k + 1) * (m * m) ≤ n * w := by
    rw [← Nat.le_div_iff_mul_le (Nat.mul_pos hm hm)]; omega
  unfold blockMatrix
  set p := k * (m * m) + (i.val * m + j.val) with hp
  have hpn : p / w < n := by
    rw [Nat.div_lt_iff_lt_mul hw]
    nlinarith
  refine ⟨?_, hpn⟩
  have hb := getElem?_bitsOf (s.take n) (p / w) (p % w) (Nat.mod_lt _ hw) (s.nth (p / w)) (by
    rw [Stream.take_eq_map]; simp [hpn])
  rw [Nat.mul_comm, Nat.div_add_mod] at hb
  rw [hb]
  cases (s.nth (p / w)).getLsbD (p % w) <;> simp [toF]

theorem parity_kernel (e : Nat) (hwe : w = 2 ^ e) (s : Stream (BitVec w)) (n j k q : Nat) (hk : k < n * w / (2 ^ j * 2 ^ j))
    (mask : BitVec w) (hmask : mask ≠ 0) (c : Bool) (hpar : ∀ i < n, oddOnes (mask &&& s.nth i) = c) (hq : 0 < q) (hqw : q * w ≤ 2 ^ j)
    (hqc : (q : F2) * toF c = 0) : (blockMatrix (s.take n) (2 ^ j) k).rank ≠ 2 ^ j := by
  have hw : 0 < w := by rw [hwe]; positivity
  have hwm : w ∣ 2 ^ j := by
    rw [hwe]
    apply pow_dvd_pow
    rw [← Nat.pow_le_pow_iff_right (a := 2) (by norm_num), ← hwe]
    exact le_trans (Nat.le_mul_of_pos_left w hq) hqw
  obtain ⟨r, hr⟩ := hwm
  set m := 2 ^ j with hm
  clear_value m
  refine rank_ne_of_kernel _ (fun x => if x.val < q * w then toF (mask.getLsbD (x.val % w)) else 0) ?_ ?_
  · intro h0
    apply hmask
    apply BitVec.eq_of_getLsbD_eq
    intro b hb
    have hbm : b < m := lt_of_lt_of_le hb (le_trans (Nat.le_mul_of_pos_left w hq) hqw)
    have := congrFun h0 ⟨b, hbm⟩
    dsimp only at this
    rw [if_pos (lt_of_lt_of_le hb (Nat.le_mul_of_pos_left w hq)), Nat.mod_eq_of_lt hb] at this
    show mask.getLsbD b = (0#w).getLsbD b
    rw [BitVec.getLsbD_zero]
    exact toF_inj (this.trans (by simp [toF]))
  · funext i
    rw [Matrix.mulVec, dotProduct]
    set base := (k * (m * m) + i.val * m) / w with hbase
    have hdiv : k * (m * m) + i.val * m = base * w := by
      rw [hbase]
      symm
      apply Nat.div_mul_cancel
      have hd : w ∣ m := ⟨r, hr⟩
      exact Nat.dvd_add ((hd.mul_right m).mul_left k) (hd.mul_left _)
    have hentry : ∀ x : Fin m, blockMatrix (s.take n) m k i x = toF ((s.nth (base + x.val / w)).getLsbD (x.val % w)) ∧ base + x.val / w < n := by
      intro x
      obtain ⟨h1, h2⟩ := blockMatrix_entry hw s n m k hk i x
      have e1 : k * (m * m) + (i.val * m + x.val) = x.val + base * w := by rw [← hdiv]; ring
      have e2 : (k * (m * m) + (i.val * m + x.val)) / w = base + x.val / w := by rw [e1, Nat.add_mul_div_right _ _ hw]; ring
      have e3 : (k * (m * m) + (i.val * m + x.val)) % w = x.val % w := by rw [e1, Nat.add_mul_mod_self_right]
      rw [e2, e3] at h1
      rw [e2] at h2
      exact ⟨h1, h2⟩
    have hsum : ∑ x : Fin m, blockMatrix (s.take n) m k i x * (if x.val < q * w then toF (mask.getLsbD (x.val % w)) else 0) =
        ∑ x ∈ range m, toF ((s.nth (base + x / w)).getLsbD (x % w)) * (if x < q * w then toF (mask.getLsbD (x % w)) else 0) := by
      rw [← Fin.sum_univ_eq_sum_range (fun x => toF ((s.nth (base + x / w)).getLsbD (x % w)) * (if x < q * w then toF (mask.getLsbD (x % w)) else 0)) m]
      exact sum_congr rfl fun x _ => by rw [(hentry x).1]
    rw [hsum]
    have hsub : range (q * w) ⊆ range m := range_subset_range.2 hqw
    rw [← sum_subset hsub (fun x _ hx => by rw [if_neg (by simpa using hx), mul_zero])]
    have hq' : ∀ a, a ≤ q → ∑ x ∈ range (a * w), toF ((s.nth (base + x / w)).getLsbD (x % w)) * (if x < q * w then toF (mask.getLsbD (x % w)) else 0) =
        (a : F2) * toF c := by
      intro a ha
      induction a with
      | zero => simp
      | succ a ih =>
        rw [add_mul, one_mul, sum_range_add, ih (by omega)]
        have hlt : (a + 1) * w ≤ q * w := Nat.mul_le_mul_right _ ha
        have hin : base + a < n := by
          have := (hentry ⟨a * w, by nlinarith⟩).2
          dsimp only at this
          rwa [Nat.mul_div_cancel _ hw] at this
        have : ∑ x ∈ range w, toF ((s.nth (base + (a * w + x) / w)).getLsbD ((a * w + x) % w)) *
            (if a * w + x < q * w then toF (mask.getLsbD ((a * w + x) % w)) else 0) = toF c := by
          rw [← hpar _ hin, toF_oddOnes]
          refine sum_congr rfl fun x hx => ?_
          have hx := mem_range.1 hx
          rw [if_pos (by nlinarith), Nat.mul_comm a w, Nat.mul_add_div hw, Nat.div_eq_of_lt hx, Nat.mul_add_mod, Nat.mod_eq_of_lt hx, add_zero, mul_comm]
        rw [this]; push_cast; ring
    rw [hq' q le_rfl, hqc]
    rfl

/-- A sequence with a linear recurrence of order less than the size of a matrix fills no matrix of full rank. -/
theorem recurrence_kernel (s : Stream (BitVec w)) (L m k : Nat) (hL : L < m) (hrec : LinearRecurrence (fun i => (s.nth i).getLsbD 0) L) :
    (bitMatrix s.nth 0 m k).rank ≠ m := by
  obtain ⟨c, hc⟩ := (linearRecurrence_iff _ L).1 hrec
  refine rank_ne_of_kernel _ (fun x => if x.val < L then c x.val else if x.val = L then 1 else 0) ?_ ?_
  · intro h0
    have := congrFun h0 ⟨L, hL⟩
    simp at this
  · funext i
    rw [Matrix.mulVec, dotProduct]
    set base := k * (m * m) + i.val * m with hbase
    have hsum : ∑ x : Fin m, bitMatrix s.nth 0 m k i x * (if x.val < L then c x.val else if x.val = L then 1 else 0) =
        ∑ x ∈ range m, toF ((s.nth (base + x)).getLsbD 0) * (if x < L then c x else if x = L then 1 else 0) := by
      rw [← Fin.sum_univ_eq_sum_range (fun x => toF ((s.nth (base + x)).getLsbD 0) * (if x < L then c x else if x = L then 1 else 0)) m]
      refine sum_congr rfl fun x _ => ?_
      unfold bitMatrix
      rw [hbase, add_assoc]
      cases (s.nth (k * (m * m) + (i.val * m + x.val))).getLsbD 0 <;> simp [toF]
    rw [hsum]
    have hsub : range (L + 1) ⊆ range m := range_subset_range.2 hL
    rw [← sum_subset hsub (fun x _ hx => by
      have : L + 1 ≤ x := by simpa using hx
      rw [if_neg (by omega), if_neg (by omega), mul_zero]), sum_range_succ, if_neg (lt_irrefl _), if_pos rfl, mul_one]
    have : ∑ x ∈ range L, toF ((s.nth (base + x)).getLsbD 0) * (if x < L then c x else if x = L then 1 else 0) =
        ∑ x ∈ range L, c x * toF ((s.nth (base + x)).getLsbD 0) :=
      sum_congr rfl fun x hx => by rw [if_pos (mem_range.1 hx), mul_comm]
    rw [this, ← hc base]
    have h2 : ∀ a : F2, a + a = 0 := by decide
    exact h2 _

/-! ### C109 -/

/-- C109. Words of a fixed parity. If there is a nonempty selection of the bits of a word (`mask`) such that the number of ones among the
selected bits is even for all of the first `n` values, or odd for all of them, then the first sub test of the binary rank test rejects the
values: from `955 w` values on in the first case, from `4 · 955 w` values on in both. -/
theorem C109_parity (t : WT) (n : BitVec 64) (hov : n.toNat * t.bits < 2 ^ 64) (s : Stream (BitVec t.bits)) (mask : BitVec t.bits)
    (hmask : mask ≠ 0) (c : Bool) (hpar : ∀ i < n.toNat, oddOnes (mask &&& s.nth i) = c)
    (hn : (c = false ∧ 955 * t.bits ≤ n.toNat) ∨ 4 * 955 * t.bits ≤ n.toNat) :
    ∃ name₁ name₂ st₁ st₂, binaryRankTest chi2DistributionCdf n s = .ok [⟨name₁, some st₁⟩, ⟨name₂, some st₂⟩] ∧
      st₁.pValue ≤ 1 / 10 ^ 9 ∧ statPass st₁ = false := by
  have hw8 : 8 ≤ t.bits := by cases t <;> decide
  have hw64 : t.bits ≤ 64 := by cases t <;> decide
  obtain ⟨e, he⟩ : ∃ e, t.bits = 2 ^ e := by cases t <;> [exact ⟨3, rfl⟩; exact ⟨4, rfl⟩; exact ⟨5, rfl⟩; exact ⟨6, rfl⟩]
  have hn1024 : 1024 ≤ n.toNat := by rcases hn with ⟨-, hn⟩ | hn <;> omega
  obtain ⟨j, hj1, hN, hmax, h⟩ := C86_binary_rank chi2DistributionCdf hw8 hw64 n hn1024 hov
  obtain ⟨st₁, st₂, h1, h2, -⟩ := h s
  refine ⟨_, _, st₁, st₂, h1, ?_⟩
  refine rank_rejects (2 ^ j) _ Nat.one_le_two_pow hN _ (fun k hk => ?_) st₁ h2
  rcases hn with ⟨hc, hn⟩ | hn
  · refine parity_kernel e he s _ j k 1 hk mask hmask c hpar one_pos ?_ (by subst hc; simp [toF])
    rw [one_mul, he]
    refine Nat.pow_le_pow_right (by norm_num) (hmax e ?_)
    rw [← he]
    calc 955 * (t.bits * t.bits) = 955 * t.bits * t.bits := by ring
      _ ≤ n.toNat * t.bits := Nat.mul_le_mul_right _ hn
  · refine parity_kernel e he s _ j k 2 hk mask hmask c hpar two_pos ?_ ?_
    · rw [he, show 2 * 2 ^ e = 2 ^ (e + 1) by ring]
      refine Nat.pow_le_pow_right (by norm_num) (hmax (e + 1) ?_)
      rw [show 955 * (2 ^ (e + 1) * 2 ^ (e + 1)) = 4 * 955 * 2 ^ e * 2 ^ e by ring, ← he]
      exact Nat.mul_le_mul_right _ hn
    · have : ((2 : ℕ) : F2) = 0 := by decide
      rw [this, zero_mul]

/-- C109. If the lowest bits of the values satisfy a linear recurrence of an order below `2^k`, then the second sub test of the binary rank
test rejects them as soon as it has the bits for 955 matrices of `2^k` rows. -/
theorem C109_recurrence (hw8 : 8 ≤ w) (hw64 : w ≤ 64) (n : BitVec 64) (hn1024 : 1024 ≤ n.toNat) (hov : n.toNat * w < 2 ^ 64)
    (s : Stream (BitVec w)) (L k : Nat) (hrec : LinearRecurrence (fun i => (s.nth i).getLsbD 0) L) (hL : L < 2 ^ k)
    (hn : 955 * (2 ^ k * 2 ^ k) ≤ n.toNat * w) :
    ∃ name₁ name₂ st₁ st₂, binaryRankTest chi2DistributionCdf n s = .ok [⟨name₁, some st₁⟩, ⟨name₂, some st₂⟩] ∧
      st₂.pValue ≤ 1 / 10 ^ 9 ∧ statPass st₂ = false := by
  obtain ⟨j, hj1, hN, hmax, h⟩ := C86_binary_rank chi2DistributionCdf hw8 hw64 n hn1024 hov
  obtain ⟨st₁, st₂, h1, -, h3⟩ := h s
  refine ⟨_, _, st₁, st₂, h1, ?_⟩
  refine rank_rejects (2 ^ j) _ Nat.one_le_two_pow hN _ (fun k' hk' => ?_) st₂ h3
  exact recurrence_kernel s L _ k' (lt_of_lt_of_le hL (Nat.pow_le_pow_right (by norm_num) (hmax k hn))) hrec

theorem rank_budget (k : Nat) (hk : k < 64) (m : Nat) (hm : 1024 ≤ m) (h : m ^ 7 ≤ 2 ^ (5 * k)) :
    ∃ n', (getTestDefinition .binaryRank).limiter.limit (BitVec.ofNat 64 (2 ^ k)) = some n' ∧ m ≤ n'.toNat ∧ n'.toNat ≤ 2 ^ k := by
  obtain ⟨n', h1, h2⟩ := slower_budget k hk m hm h
  refine ⟨n', h1, h2, ?_⟩
  have hc := C40_catalogue .binaryRank (BitVec.ofNat 64 (2 ^ k))
  have h3 := hc.2 n'.toNat (by rw [← hc.1]; exact congrArg (Option.map BitVec.toNat) h1)
  rwa [BitVec.toNat_ofNat, Nat.mod_eq_of_lt (Nat.pow_lt_pow_right (by norm_num) hk)] at h3

/-- C109. A battery with `2^k` values that contains the binary rank test fails, under every schedule, if one of its streams has words of a
fixed parity: of an even number of selected ones if `(955 w)^7 ≤ 2^(5k)`, of either if `(4 · 955 w)^7 ≤ 2^(5k)`. -/
theorem C109_battery (t : WT) (k : Nat) (hk : k ≤ 57) (setup : TestSetup t.bits)
    (hth : 0 < setup.maxThreads) (b : Battery ℝ) (hb : EvaluateOutcome (suiteDef chi2DistributionCdf) (BitVec.ofNat 64 (2 ^ k)) setup b)
    (htest : TestType.binaryRank ∈ setup.tests) (s : Stream (BitVec t.bits)) (hs : s ∈ setup.sources) (mask : BitVec t.bits)
    (hmask : mask ≠ 0) (c : Bool) (hpar : ∀ i < 2 ^ k, oddOnes (mask &&& (createStream setup.mix s).nth i) = c)
    (hn : (c = false ∧ (955 * t.bits) ^ 7 ≤ 2 ^ (5 * k)) ∨ (4 * 955 * t.bits) ^ 7 ≤ 2 ^ (5 * k)) : ¬ BatteryPasses b := by
  have hw8 : 8 ≤ t.bits := by cases t <;> decide
  have hw64 : t.bits ≤ 64 := by cases t <;> decide
  have key : ∀ m, 1024 ≤ m → m ^ 7 ≤ 2 ^ (5 * k) → (∀ n : BitVec 64, m ≤ n.toNat → (c = false ∧ 955 * t.bits ≤ n.toNat) ∨ 4 * 955 * t.bits ≤ n.toNat) →
      ¬ BatteryPasses b := by
    intro m hm hmk hcase
    obtain ⟨n', h1, h2, h3⟩ := rank_budget k (by omega) m hm hmk
    have hov : n'.toNat * t.bits < 2 ^ 64 := by
      have : (2 : ℕ) ^ k ≤ 2 ^ 57 := Nat.pow_le_pow_right (by norm_num) hk
      have : n'.toNat * t.bits ≤ 2 ^ 57 * 64 := Nat.mul_le_mul (by omega) hw64
      omega
    obtain ⟨a₁, a₂, st₁, st₂, h4, h5, -⟩ := C109_parity t n' hov (createStream setup.mix s) mask hmask c
      (fun i hi => hpar i (by omega)) (hcase n' h2)
    refine battery_rejects chi2DistributionCdf .binaryRank _ setup hth b hb htest s hs _ rfl
      [⟨a₁, some st₁⟩, ⟨a₂, some st₂⟩] ?_ a₁ st₁ List.mem_cons_self h5
    dsimp only
    rw [h1]
    exact congrArg some h4
  rcases hn with ⟨hc, hn⟩ | hn
  · exact key (955 * t.bits) (by omega) hn fun n h => .inl ⟨hc, h⟩
  · exact key (4 * 955 * t.bits) (by omega) hn fun n h => .inr h

/-- C109. The report of `-test`, for any data files, further subjects and schedules: a generator whose words, for every seed, have an even number
of ones among some selected bits has a line, and it says that the generator failed with at most `2^K` values, `K` being 19, 20, 21 and 23 for
words of 8, 16, 32 and 64 bits; if the number is odd, with at most `2^21`, `2^23`, `2^24` values for words of up to 32 bits. -/
theorem C109_report (analyse : Battery ℝ → List ResultAnalysis) (ha : Analyses analyse) (t : WT) (hw : BitVec 32)
    (s : Subjects t) (fuel : Nat) (hfuel : 2 ^ t.bits ≤ fuel) (h1 : s.trng ≠ some []) (h2 : s.drng ≠ some [])
    (setups : List (TestSetup t.bits)) (hs : testCommandSetups t (defaultMaxThreads hw) s fuel = some (.ok setups))
    (runs : List (EvalRun t.bits)) (hruns : runs.map Prod.fst = setups)
    (hout : ∀ run ∈ runs, ∀ k : Nat, 10 ≤ k → k ≤ 25 →
      EvaluateOutcome (suiteDef chi2DistributionCdf) (BitVec.ofNat 64 (2 ^ k)) run.1 (run.2 (BitVec.ofNat 64 (2 ^ k))))
    (config : Config) (fs : TextFiles) :
    ∃ (fs' : TextFiles) (rows : List ReportRow), testCommand false (config.testResultFilePath t) analyse runs fs = .ok fs' ∧
      fs' (config.testResultFilePath t) = some (reportIntro t.bits ++ String.join (rows.map ReportRow.text)) ∧
      ∀ p ∈ s.prngs, ∀ (mask : BitVec t.bits) (c : Bool), mask ≠ 0 → (∀ seed i, oddOnes (mask &&& (p seed).nth i) = c) →
        (c = true → t ≠ .u64) →
        ∃ row ∈ rows, row.subject = (p ⟨0, 0, 0, 0⟩).name ∧ row.passed = false ∧ row.failures ≠ [] ∧
          row.power ≤ (match t, c with
            | .u8, false => 19 | .u16, false => 20 | .u32, false => 21 | .u64, false => 23
            | .u8, true => 21 | .u16, true => 23 | .u32, true => 24 | .u64, true => 25) := by
  obtain ⟨fs', rows, r1, r2, r4, r3⟩ := report_of_rejected analyse ha t hw s fuel hfuel h1 h2 setups hs runs hruns hout config fs
  refine ⟨fs', rows, r1, r2, fun p hp mask c hmask hpar hc => ?_⟩
  have key : ∀ K, 10 ≤ K → K ≤ 25 → ((c = false ∧ (955 * t.bits) ^ 7 ≤ 2 ^ (5 * K)) ∨ (4 * 955 * t.bits) ^ 7 ≤ 2 ^ (5 * K)) →
      ∃ row ∈ rows, row.subject = (p ⟨0, 0, 0, 0⟩).name ∧ row.passed = false ∧ row.failures ≠ [] ∧ row.power ≤ K := by
    intro K hK hK2 hn
    obtain ⟨row, e1, e2, e3, e4, e5⟩ := r3 p hp K hK hK2 fun setup bat hth htests hbat st hst hcreate seed _ hnth =>
      C109_battery t K (by omega) setup hth bat hbat (by rw [htests]; decide) st hst mask hmask c
        (fun i _ => by rw [hcreate, hnth, hpar]) hn
    exact ⟨row, e1, e2, e3, e5, e4⟩
  cases t <;> cases c
  · exact key 19 (by norm_num) (by norm_num) (.inl ⟨rfl, by norm_num⟩)
  · exact key 21 (by norm_num) (by norm_num) (.inr (by norm_num))
  · exact key 20 (by norm_num) (by norm_num) (.inl ⟨rfl, by norm_num⟩)
  · exact key 23 (by norm_num) (by norm_num) (.inr (by norm_num))
  · exact key 21 (by norm_num) (by norm_num) (.inl ⟨rfl, by norm_num⟩)
  · exact key 24 (by norm_num) (by norm_num) (.inr (by norm_num))
  · exact key 23 (by norm_num) (by norm_num) (.inl ⟨rfl, by norm_num⟩)
  · exact absurd rfl (hc rfl)

-- C109, non-vacuity: bytes whose highest bit repeats the lowest, bytes with an odd number of ones, lowest bits of a xorshift generator.
example (s : Stream (BitVec 8)) : ∃ name₁ name₂ st₁ st₂,
    binaryRankTest chi2DistributionCdf 8192#64 (s.mapS "dup" fun x => (x &&& 0x7F#8) ||| ((x &&& 1#8) <<< 7)) =
      .ok [⟨name₁, some st₁⟩, ⟨name₂, some st₂⟩] ∧ statPass st₁ = false := by
  obtain ⟨a, b, st₁, st₂, h1, -, h2⟩ := C109_parity .u8 8192#64 (by decide) (s.mapS "dup" fun x => (x &&& 0x7F#8) ||| ((x &&& 1#8) <<< 7))
    0x81#8 (by decide) false (fun i _ => by
      rw [Stream.nth_mapS]
      have : ∀ x : BitVec 8, oddOnes (0x81#8 &&& ((x &&& 0x7F#8) ||| ((x &&& 1#8) <<< 7))) = false := by decide +kernel
      exact this _) (.inl ⟨rfl, by decide⟩)
  exact ⟨a, b, st₁, st₂, h1, h2⟩
example (s : Stream (BitVec 8)) : ∃ name₁ name₂ st₁ st₂,
    binaryRankTest chi2DistributionCdf 65536#64 (s.mapS "odd" fun x => if oddOnes x then x else x ^^^ 1#8) =
      .ok [⟨name₁, some st₁⟩, ⟨name₂, some st₂⟩] ∧ statPass st₁ = false := by
  obtain ⟨a, b, st₁, st₂, h1, -, h2⟩ := C109_parity .u8 65536#64 (by decide) (s.mapS "odd" fun x => if oddOnes x then x else x ^^^ 1#8)
    0xFF#8 (by decide) true (fun i _ => by
      rw [Stream.nth_mapS]
      have : ∀ x : BitVec 8, oddOnes (0xFF#8 &&& (if oddOnes x then x else x ^^^ 1#8)) = true := by decide +kernel
      exact this _) (.inr (by decide))
  exact ⟨a, b, st₁, st₂, h1, h2⟩
example (seed : SeedData) : ∃ name₁ name₂ st₁ st₂,
    binaryRankTest chi2DistributionCdf 131072#64 (rng32_xorshift seed) = .ok [⟨name₁, some st₁⟩, ⟨name₂, some st₂⟩] ∧ statPass st₂ = false := by
  obtain ⟨a, b, st₁, st₂, h1, -, h2⟩ := C109_recurrence (by norm_num) (by norm_num) 131072#64 (by decide) (by decide) (rng32_xorshift seed) 32 6
    (recurrence_xorshift32 seed 0) (by norm_num) (by decide)
  exact ⟨a, b, st₁, st₂, h1, h2⟩

/-- The hypotheses of the theorems on reports can be met for all subjects. -/
theorem report_instance (t : WT) (s : Subjects t) (h1 : s.trng ≠ some []) (h2 : s.drng ≠ some []) :
    ∃ (analyse : Battery ℝ → List ResultAnalysis) (fuel : Nat) (setups : List (TestSetup t.bits)) (runs : List (EvalRun t.bits)),
    Analyses analyse ∧ 2 ^ t.bits ≤ fuel ∧ testCommandSetups t (defaultMaxThreads 8) s fuel = some (.ok setups) ∧ runs.map Prod.fst = setups ∧
    ∀ run ∈ runs, ∀ k : Nat, 10 ≤ k → k ≤ 25 →
      EvaluateOutcome (suiteDef chi2DistributionCdf) (BitVec.ofNat 64 (2 ^ k)) run.1 (run.2 (BitVec.ofNat 64 (2 ^ k))) := by
  classical
  obtain ⟨setups, e1, -, -⟩ := C96_subjects t 8 s (2 ^ t.bits) le_rfl h1 h2
  choose f hf using fun (s : TestSetup t.bits) n => C35_terminates (suiteDef chi2DistributionCdf) n s
  refine ⟨fun b => if h : WellFormed b then (C67_analysis b h).1.choose else [], 2 ^ t.bits, setups, setups.map fun s => (s, f s),
    fun b h => ?_, le_rfl, e1, by simp [Function.comp_def], ?_⟩
  · dsimp only
    rw [dif_pos h]
    exact (C67_analysis b h).1.choose_spec
  · intro run hr k _ _
    obtain ⟨s, _, rfl⟩ := List.mem_map.1 hr
    exact hf s _

-- A xorshift generator whose words are replaced by words with an even number of ones among the lowest two bits, as a subject of `-test`.
example : ∃ (s : Subjects .u32) (p : SeedData → Stream (BitVec 32)), p ∈ s.prngs ∧ s.trng ≠ some [] ∧ s.drng ≠ some [] ∧
    ∀ seed i, oddOnes (3#32 &&& (p seed).nth i) = false := by
  refine ⟨⟨none, none, [], [fun seed => (rng32_xorshift seed).mapS "even" fun x => x &&& 0xFFFFFFFC#32], []⟩, _, List.mem_cons_self, by simp, by simp,
    fun seed i => ?_⟩
  rw [Stream.nth_mapS, show ∀ x : BitVec 32, 3#32 &&& (x &&& 0xFFFFFFFC#32) = 0#32 by
    intro x; rw [BitVec.and_comm x, ← BitVec.and_assoc]; simp]
  decide

end TFR
