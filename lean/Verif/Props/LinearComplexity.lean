import Verif.Lemmas.BerlekampMassey
import Verif.Lemmas.LfsrCount
import Verif.Lemmas.Hist
import Verif.Lemmas.Streams
import Verif.Props.Bits
import Mathlib.Algebra.BigOperators.Field
import Mathlib.Tactic.FieldSimp
/-
C54 - C56.
-/
namespace TFR
open Lfsr
variable {w : Nat}

namespace Spec
/-- Next symbol of the shift register with taps `c 0 .. c (L-1)`: `Σ_j c_j u_{n-1-j}` over GF(2). -/
def lfsrNext (c : Nat → Bool) (L : Nat) (u : List Bool) (n : Nat) : Bool :=
  (List.range L).foldl (fun acc j => acc ^^ (c j && u.getD (n - 1 - j) false)) false

/-- Some shift register of length `L`, loaded with the first `L` symbols, outputs the whole sequence. -/
def GeneratedBy (u : List Bool) (L : Nat) : Prop :=
  ∃ c : Nat → Bool, ∀ n, L ≤ n → n < u.length → u.getD n false = lfsrNext c L u n

/-- The linear complexity of a sequence. -/
def IsLinearComplexity (u : List Bool) (L : Nat) : Prop := GeneratedBy u L ∧ ∀ L', GeneratedBy u L' → L ≤ L'
end Spec
open Spec

theorem toF_lfsrNext (c : Nat → Bool) (L : Nat) (u : List Bool) (n : Nat) :
    toF (lfsrNext c L u n) = ∑ j ∈ Finset.range L, toF (c j) * lift u (n - 1 - j) := by
  unfold lfsrNext
  induction L with
  | zero => simp [toF]
  | succ L ih => rw [List.range_succ, List.foldl_append, Finset.sum_range_succ, ← ih]; simp [toF_xor, toF_and, lift]

theorem generatedBy_iff (u : List Bool) (L : Nat) : GeneratedBy u L ↔ ∃ c, Gen (lift u) c L u.length := by
  have hdisc : ∀ (c : Nat → Bool) (C : Nat → F2), C 0 = 1 → (∀ j, j < L → C (j + 1) = toF (c j)) → ∀ n,
      disc (lift u) C L n = lift u n + toF (lfsrNext c L u n) := by
    intro c C h0 hC n
    unfold disc
    rw [Finset.sum_range_succ', h0, one_mul, Nat.sub_zero, toF_lfsrNext, add_comm]
    congr 1
    apply Finset.sum_congr rfl
    intro j hj
    simp at hj
    rw [hC j hj, show n - (j + 1) = n - 1 - j by omega]
  have hadd : ∀ a b : F2, a + b = 0 ↔ a = b := by decide
  constructor
  · rintro ⟨c, h⟩
    refine ⟨fun j => if j = 0 then 1 else if j ≤ L then toF (c (j - 1)) else 0, by simp, ?_, ?_⟩
    · intro j hj; show (if j = 0 then _ else if j ≤ L then _ else _) = _; rw [if_neg (by omega), if_neg (by omega)]
    · intro n h1 h2
      rw [hdisc c _ (by simp) (by intro j hj; show (if j + 1 = 0 then _ else if j + 1 ≤ L then _ else _) = _; rw [if_neg (by omega), if_pos (by omega)]; rfl) n, hadd]
      exact congrArg toF (h n h1 h2)
  · rintro ⟨C, g⟩
    choose c hc using exists_toF
    refine ⟨fun j => c (C (j + 1)), ?_⟩
    intro n h1 h2
    have := g.gen n h1 h2
    rw [hdisc (fun j => c (C (j + 1))) C g.one (fun j _ => (hc _).symm) n, hadd] at this
    exact toF_inj this

private theorem isLC_iff (u : List Bool) (L : Nat) : IsLinearComplexity u L ↔ lc (lift u) u.length = L := by
  obtain ⟨c, b, l, lb, m, h⟩ := exists_inv (lift u) u.length
  constructor
  · rintro ⟨h1, h2⟩
    refine lc_eq ((generatedBy_iff u L).1 h1) ?_
    intro c' L' g
    exact h2 L' ((generatedBy_iff u L').2 ⟨c', g⟩)
  · intro e
    rw [h.lc] at e
    subst e
    exact ⟨(generatedBy_iff u l).2 ⟨c, h.gen⟩, fun L' g => by
      obtain ⟨c', g⟩ := (generatedBy_iff u L').1 g
      exact h.least c' L' g⟩

/-- C54. For every non-empty bit sequence berlekamp_massey finishes without leaving its vectors and returns the linear
complexity: a shift register of that length outputs the sequence and no shorter one does. -/
theorem C54_berlekamp_massey (u : List Bool) (h : u ≠ []) :
    ∃ l : Nat, berlekampMassey u = .ok (l : Int) ∧ IsLinearComplexity u l ∧ l ≤ u.length := by
  obtain ⟨C, B, l, lb, m, e, inv⟩ := berlekampMassey_ok u h
  exact ⟨l, e, (isLC_iff u l).2 inv.lc, inv.l_le⟩

/-- C54 (uniqueness and totality). Every sequence has exactly one linear complexity. -/
theorem C54_unique (u : List Bool) : ∃! l, IsLinearComplexity u l :=
  ⟨lc (lift u) u.length, (isLC_iff u _).2 rfl, fun _ h => ((isLC_iff u _).1 h).symm⟩

/-- C54 (empty input). The empty vector is accessed out of bounds. -/
theorem C54_empty : berlekampMassey [] = .error .oobIndex := rfl

example : berlekampMassey [true, true, false, true, false, true, true, true, true, false] = .ok 4 := by decide +kernel
example : berlekampMassey [false, false, false, true] = .ok 4 := by decide +kernel

/-! ### C55 -/

private theorem card_lc (N k : Nat) :
    Nat.card {u : Fin N → Bool // IsLinearComplexity (List.ofFn u) k} = lcCount N k := by
  classical
  rw [Nat.card_eq_fintype_card, Fintype.card_subtype, Finset.card_filter]
  unfold lcCount
  apply Finset.sum_congr rfl
  intro u _
  have : lc (lift (List.ofFn u)) (List.ofFn u).length = lc (ext u) N := by
    rw [List.length_ofFn]
    apply lc_congr
    intro i hi
    unfold lift ext
    rw [List.getD_eq_getElem _ _ (by simpa using hi), dif_pos hi]
    simp [toF]
  simp only [isLC_iff, this]

theorem lfsrLog2Probability_closed (n k : Nat) (hn : n < 2 ^ 63) (hk : k ≤ n) :
    lfsrLog2Probability (BitVec.ofNat 64 n) (BitVec.ofNat 64 k) =
      if k = 0 then -(n : Int) else if 2 * k ≤ n then 2 * k - n - 1 else n - 2 * k := by
  have en : (BitVec.ofNat 64 n).toNat = n := by rw [BitVec.toNat_ofNat, Nat.mod_eq_of_lt (by omega)]
  have ek : (BitVec.ofNat 64 k).toNat = k := by rw [BitVec.toNat_ofNat, Nat.mod_eq_of_lt (by omega)]
  have hk0 : BitVec.ofNat 64 k = 0#64 ↔ k = 0 := by
    constructor
    · intro h; rw [← ek, h]; rfl
    · rintro rfl; rfl
  have hle : BitVec.ofNat 64 k ≤ BitVec.ofNat 64 n / 2#64 ↔ 2 * k ≤ n := by
    rw [BitVec.le_def, BitVec.toNat_udiv, en, ek]
    simp; omega
  have in' : (BitVec.ofNat 64 n).toInt = n := by rw [BitVec.toInt_eq_toNat_of_lt (by rw [en]; omega), en]
  have ik : (BitVec.ofNat 64 k).toInt = k := by rw [BitVec.toInt_eq_toNat_of_lt (by rw [ek]; omega), ek]
  unfold lfsrLog2Probability
  simp only [hk0, hle]
  split
  · rw [BitVec.toInt_neg, BitVec.toInt_eq_toNat_of_lt (by rw [en]; omega), en]
    rw [Int.bmod_eq_of_le (by omega) (by omega)]
  · split
    · have : (2#64 * BitVec.ofNat 64 k - BitVec.ofNat 64 n - 1#64) = BitVec.ofInt 64 (2 * k - n - 1) := by
        apply BitVec.eq_of_toInt_eq
        rw [BitVec.toInt_ofInt]
        simp only [BitVec.toInt_sub, BitVec.toInt_mul, in', ik]
        simp only [Int.bmod_sub_bmod, Int.sub_bmod_bmod]
        rfl
      rw [this, BitVec.toInt_ofInt, Int.bmod_eq_of_le (by omega) (by omega)]
    · have : (BitVec.ofNat 64 n - 2#64 * BitVec.ofNat 64 k) = BitVec.ofInt 64 (n - 2 * k) := by
        apply BitVec.eq_of_toInt_eq
        rw [BitVec.toInt_ofInt]
        simp only [BitVec.toInt_sub, BitVec.toInt_mul, in', ik]
        simp only [Int.bmod_sub_bmod, Int.sub_bmod_bmod]
        rfl
      rw [this, BitVec.toInt_ofInt, Int.bmod_eq_of_le (by omega) (by omega)]

/-- C55. For every block size `n` (below `2^63`) and every length `k ≤ n`, `lfsr_log2_probability(n, k)` is exactly the
binary logarithm of the fraction of all bit strings of length `n` that have linear complexity `k`. -/
theorem C55_lfsr_probability (n k : Nat) (hn : n < 2 ^ 63) (hk : k ≤ n) :
    (2 : ℝ) ^ lfsrLog2Probability (BitVec.ofNat 64 n) (BitVec.ofNat 64 k) =
      (Nat.card {u : Fin n → Bool // IsLinearComplexity (List.ofFn u) k} : ℝ) / (Nat.card (Fin n → Bool) : ℝ) := by
  have hall : Nat.card (Fin n → Bool) = 2 ^ n := by
    rw [Nat.card_eq_fintype_card]; simp
  rw [card_lc, hall, lfsrLog2Probability_closed n k hn hk, lcCount_closed]
  have h2 : (2 : ℝ) ≠ 0 := by norm_num
  rw [eq_div_iff (by positivity)]
  push_cast
  rw [← zpow_natCast (2 : ℝ) n, ← zpow_add₀ h2]
  split
  · simp
  · split
    · next h1 h2 =>
      push_cast
      rw [← zpow_natCast]
      congr 1
      rw [Nat.cast_sub (by omega)]
      push_cast; ring
    · next h1 h2 =>
      rw [← zpow_natCast]
      congr 1
      push_cast [Nat.cast_sub hk]; ring

/-- C55 (table). For a block size below `2^63` the table has one entry per possible complexity `0 .. n`, entry `k` being
the probability of complexity `k`, and the entries sum to one. -/
theorem C55_lfsr_probabilities (n : Nat) (hn : n < 2 ^ 63) :
    (lfsrProbabilities (BitVec.ofNat 64 n)).length = n + 1 ∧
    (∀ k (h : k < (lfsrProbabilities (BitVec.ofNat 64 n)).length), (lfsrProbabilities (BitVec.ofNat 64 n))[k] =
      (Nat.card {u : Fin n → Bool // IsLinearComplexity (List.ofFn u) k} : ℝ) / (Nat.card (Fin n → Bool) : ℝ)) ∧
    (lfsrProbabilities (BitVec.ofNat 64 n)).sum = 1 := by
  have en : (BitVec.ofNat 64 n).toNat = n := by rw [BitVec.toNat_ofNat, Nat.mod_eq_of_lt (by omega)]
  refine ⟨by simp [lfsrProbabilities, en], ?_, ?_⟩
  · intro k h
    simp only [lfsrProbabilities, List.length_map, List.length_range, en] at h
    simp only [lfsrProbabilities, List.getElem_map, List.getElem_range]
    exact C55_lfsr_probability n k hn (by omega)
  · have hsum : ∀ (f : Nat → ℝ) (k : Nat), ((List.range k).map f).sum = ∑ r ∈ Finset.range k, f r := by
      intro f k
      induction k with
      | zero => simp
      | succ k ih => rw [List.range_succ, List.map_append, List.sum_append, ih, Finset.sum_range_succ]; simp
    unfold lfsrProbabilities
    rw [hsum, en]
    rw [Finset.sum_congr rfl (fun k hk => C55_lfsr_probability n k hn (by simp at hk; omega))]
    rw [← Finset.sum_div, div_eq_one_iff_eq (Nat.cast_ne_zero.2 Nat.card_pos.ne'), ← Nat.cast_sum]
    congr 1
    classical
    have hle : ∀ u : Fin n → Bool, lc (ext u) n ∈ Finset.range (n + 1) := by
      intro u; have := lc_le (ext u) n; simp; omega
    have := Finset.card_eq_sum_card_fiberwise (s := (Finset.univ : Finset (Fin n → Bool)))
      (t := Finset.range (n + 1)) (f := fun u => lc (ext u) n) (fun u _ => hle u)
    rw [Nat.card_eq_fintype_card, ← Finset.card_univ, this]
    apply Finset.sum_congr rfl
    intro k _
    rw [card_lc, lcCount, Finset.card_filter]

example : Nat.card {u : Fin 3 → Bool // IsLinearComplexity (List.ofFn u) 2} = 4 := by
  rw [card_lc, lcCount_closed]; rfl

/-! ### C56 -/

private theorem drawBits_ok (s : Stream (BitVec w)) (bit : Nat) (hb : bit < w) : ∀ k j,
    drawBits s.step bit k (s.stateAt j) =
      .ok ((List.range' j k).map fun i => (s.nth i).getLsbD bit, s.stateAt (j + k)) := by
  intro k
  induction k with
  | zero => intro j; rfl
  | succ k ih =>
    intro j
    unfold drawBits
    show (isBitSet (s.step (s.stateAt j)).1 bit >>= fun b => (drawBits s.step bit k (s.step (s.stateAt j)).2 >>= fun x =>
      .ok (b :: x.1, x.2)) : R _) = _
    rw [C02_isBitSet _ _ hb, ← Stream.stateAt_succ, ih (j + 1), ← Stream.nth_eq]
    show Except.ok _ = _
    rw [List.range'_succ, List.map_cons, show j + 1 + k = j + (k + 1) by omega]

namespace Spec
/-- Block `k` of the given bit of a sequence of values. -/
def bitBlock (values : Nat → BitVec w) (bit size k : Nat) : List Bool :=
  (List.range size).map fun i => (values (k * size + i)).getLsbD bit
end Spec

open Classical in
/-- C56. For every stream, in-range bit and block size at least 1: the test consumes exactly `⌊n / size⌋ · size` values;
no index leaves the histogram; entry `l` counts exactly the blocks of linear complexity `l`; all blocks are counted. -/
theorem C56_counts (n : BitVec 64) (s : Stream (BitVec w)) (size : BitVec 64) (bit : Nat) (hb : bit < w)
    (hs : size ≠ 0#64) :
    ∃ counts, linearComplexityCounts n s size bit = .ok (counts, n / size,
        s.stateAt (n.toNat / size.toNat * size.toNat)) ∧
      counts.length = size.toNat + 1 ∧
      (∀ l (h : l < counts.length), counts[l] = BitVec.ofNat 64
        ((List.range (n.toNat / size.toNat)).countP fun k => decide (IsLinearComplexity (bitBlock s.nth bit size.toNat k) l))) ∧
      (∀ k, ∃ l ≤ size.toNat, IsLinearComplexity (bitBlock s.nth bit size.toNat k) l) := by
  have hn0 : 0 < size.toNat := Nat.pos_of_ne_zero fun q => hs (BitVec.eq_of_toNat_eq (by simpa using q))
  let f : Nat → Nat := fun k => lc (lift (bitBlock s.nth bit size.toNat k)) size.toNat
  have hlen : ∀ k, (bitBlock s.nth bit size.toNat k).length = size.toNat := by intro k; simp [bitBlock]
  have hf : ∀ k, IsLinearComplexity (bitBlock s.nth bit size.toNat k) (f k) := by
    intro k; rw [isLC_iff, hlen]
  have hfle : ∀ k, f k ≤ size.toNat := fun k => lc_le _ _
  have hbm : ∀ k, berlekampMassey (bitBlock s.nth bit size.toNat k) = .ok (f k : Int) := by
    intro k
    obtain ⟨l, e, hl, _⟩ := C54_berlekamp_massey (bitBlock s.nth bit size.toNat k) (by
      intro h; have := congrArg List.length h; rw [hlen] at this; simp at this; omega)
    rw [e, (C54_unique _).unique hl (hf k)]
  have hblocks : ∀ (k j : Nat) (idx : List Nat), complexityBlocks s.step size.toNat bit k (histOf (size.toNat + 1) idx)
      (s.stateAt (j * size.toNat)) =
      .ok (histOf (size.toNat + 1) (idx ++ (List.range' j k).map f), s.stateAt ((j + k) * size.toNat)) := by
    intro k
    induction k with
    | zero => intro j idx; simp [complexityBlocks]
    | succ k ih =>
      intro j idx
      unfold complexityBlocks
      rw [drawBits_ok s bit hb]
      have hblk : ((List.range' (j * size.toNat) size.toNat).map fun i => (s.nth i).getLsbD bit) =
          bitBlock s.nth bit size.toNat j := by
        unfold bitBlock
        rw [List.range'_eq_map_range, List.map_map]; rfl
      rw [hblk]
      show (berlekampMassey _ >>= _) = _
      rw [hbm]
      show (if (f j : Int) < 0 then (.error .oobIndex : R (List (BitVec 64) × s.σ)) else
        (incrAt (histOf (size.toNat + 1) idx) (f j : Int).toNat >>= fun counts =>
          complexityBlocks s.step size.toNat bit k counts (s.stateAt (j * size.toNat + size.toNat)))) = _
      rw [if_neg (by omega), Int.toNat_natCast]
      show (incrAt _ _ >>= _) = _
      rw [incrAt_histOf _ _ _ (by have := hfle j; omega)]
      show complexityBlocks s.step size.toNat bit k _ _ = _
      have := ih (j + 1) (idx ++ [f j])
      rw [Nat.succ_mul] at this
      rw [this, List.range'_succ, show j + 1 + k = j + (k + 1) by omega]
      simp
  refine ⟨histOf (size.toNat + 1) ((List.range' 0 (n.toNat / size.toNat)).map f), ?_, by simp, ?_, ?_⟩
  · unfold linearComplexityCounts
    rw [if_neg hs, ← histOf_nil]
    have := hblocks (n.toNat / size.toNat) 0 []
    simp only [Nat.zero_mul, Stream.stateAt_zero, Nat.zero_add, List.nil_append] at this
    simp only [BitVec.toNat_udiv]
    rw [this]
    rfl
  · intro l h
    rw [getElem_histOf]
    congr 1
    rw [List.count, List.countP_map, List.range_eq_range']
    apply List.countP_congr
    intro k _
    simp only [Function.comp, beq_iff_eq, decide_eq_true_eq]
    constructor
    · rintro rfl; exact hf k
    · intro q; exact (C54_unique _).unique (hf k) q
  · intro k; exact ⟨f k, hfle k, hf k⟩

/-- C56 (block size 0). -/
theorem C56_block_size_zero (n : BitVec 64) (s : Stream (BitVec w)) (bit : Int) :
    linearComplexityCounts n s 0#64 bit = .error .divByZero := by
  simp [linearComplexityCounts]

example : ∃ st, linearComplexityCounts 12#64 (counterStream 8 3#64 0#64) 4#64 0 =
    .ok ([0#64, 0#64, 3#64, 0#64, 0#64], 3#64, st) := ⟨36#64, rfl⟩

end TFR
