import Verif.Lemmas.RankCount
import Mathlib.Algebra.BigOperators.Field
import Verif.Props.BinaryRank
import Verif.Lemmas.Streams
import Verif.Lemmas.Hist
/-
C53 and the rank histogram.
-/
namespace TFR
open Spec BinMatrix
variable {w : Nat}

private theorem rank_eq_rowRank {n : Nat} (A : Matrix (Fin n) (Fin n) (ZMod 2)) : A.rank = rowRank A := by
  rw [Matrix.rank_eq_finrank_span_row]; rfl

theorem foldl_mul_prod (f : Nat → ℝ) (r : Nat) :
    (List.range r).foldl (fun p i => p * f i) 1 = ∏ i ∈ Finset.range r, f i := by
  induction r with
  | zero => simp
  | succ r ih => rw [List.range_succ, List.foldl_append, ih, Finset.prod_range_succ]; rfl

/-- C53. For every size and every rank, get_rank_probability is exactly the fraction of all `n × n` bit matrices that
have that rank over GF(2) (and so 0 for ranks above `n`). -/
theorem C53_rank_probability (n r : Nat) :
    getRankProbability n r =
      (Nat.card {A : Matrix (Fin n) (Fin n) (ZMod 2) // A.rank = r} : ℝ) /
        (Nat.card (Matrix (Fin n) (Fin n) (ZMod 2)) : ℝ) := by
  have hc : Nat.card {A : Matrix (Fin n) (Fin n) (ZMod 2) // A.rank = r} = rankCount n n r := by
    unfold rankCount
    apply Nat.card_congr
    exact Equiv.subtypeEquivRight fun A => by rw [rank_eq_rowRank]
  have hall : Nat.card (Matrix (Fin n) (Fin n) (ZMod 2)) = 2 ^ (n * n) := by
    rw [Nat.card_eq_fintype_card]
    show Fintype.card (Fin n → Fin n → ZMod 2) = _
    simp [Fintype.card_pi, ZMod.card, pow_mul]
  rw [hc, hall, rankCount_closed]
  unfold getRankProbability
  simp only
  rw [foldl_mul_prod (fun i => (1 - (2 : ℝ) ^ ((i : ℤ) - n)) * (1 - (2 : ℝ) ^ ((i : ℤ) - n)) / (1 - (2 : ℝ) ^ ((i : ℤ) - r)))]
  have h2 : (2 : ℝ) ≠ 0 := by norm_num
  have hterm : ∀ i ∈ Finset.range r, (1 - (2 : ℝ) ^ ((i : ℤ) - n)) * (1 - (2 : ℝ) ^ ((i : ℤ) - n)) /
      (1 - (2 : ℝ) ^ ((i : ℤ) - r)) =
      ((2 : ℝ) ^ n - 2 ^ i) * ((2 : ℝ) ^ n - 2 ^ i) / ((2 : ℝ) ^ r - 2 ^ i) * ((2 : ℝ) ^ r / (2 ^ n * 2 ^ n)) := by
    intro i hi
    have : (2 : ℝ) ^ i < 2 ^ r := pow_lt_pow_right₀ (by norm_num) (Finset.mem_range.1 hi)
    have hne : (2 : ℝ) ^ r - 2 ^ i ≠ 0 := by linarith
    have hr0 : (2 : ℝ) ^ r ≠ 0 := by positivity
    have hn0 : (2 : ℝ) ^ n ≠ 0 := by positivity
    rw [zpow_sub₀ h2, zpow_sub₀ h2]
    simp only [zpow_natCast]
    have e1 : (1 : ℝ) - 2 ^ i / 2 ^ n = (2 ^ n - 2 ^ i) / 2 ^ n := by field_simp
    have e2 : (1 : ℝ) - 2 ^ i / 2 ^ r = (2 ^ r - 2 ^ i) / 2 ^ r := by field_simp
    rw [e1, e2]
    field_simp
  rw [Finset.prod_congr rfl hterm, Finset.prod_mul_distrib, Finset.prod_div_distrib, Finset.prod_mul_distrib,
    Finset.prod_const, Finset.card_range]
  show _ * (descPow n r * descPow n r / descPow r r * _) = _
  have hd := (descPow_self_pos r).ne'
  have hpow : (2 : ℝ) ^ (-((n : ℤ) - r) * ((n : ℤ) - r)) * ((2 : ℝ) ^ r / (2 ^ n * 2 ^ n)) ^ r = 1 / 2 ^ (n * n) := by
    have : ((2 : ℝ) ^ r / (2 ^ n * 2 ^ n)) = (2 : ℝ) ^ ((r : ℤ) - n - n) := by
      rw [zpow_sub₀ h2, zpow_sub₀ h2]; simp only [zpow_natCast]; field_simp
    rw [this, ← zpow_natCast, ← zpow_mul, ← zpow_add₀ h2, one_div, ← zpow_natCast, ← zpow_neg]
    congr 1
    push_cast; ring
  calc _ = (descPow n r * descPow n r / descPow r r) *
        ((2 : ℝ) ^ (-((n : ℤ) - r) * ((n : ℤ) - r)) * ((2 : ℝ) ^ r / (2 ^ n * 2 ^ n)) ^ r) := by ring
    _ = _ := by rw [hpow]; push_cast; ring

/-- C53 (table). get_rank_probabilities has `n + 1` entries; entry `s` is the probability of rank `n - s`; all entries
are non-negative and they sum to one. -/
theorem C53_rank_probabilities (n : Nat) :
    (getRankProbabilities n).length = n + 1 ∧
    (∀ s (h : s < (getRankProbabilities n).length), (getRankProbabilities n)[s] = getRankProbability n (n - s)) ∧
    (∀ p ∈ getRankProbabilities n, 0 ≤ p) ∧ (getRankProbabilities n).sum = 1 := by
  have hlist : getRankProbabilities n = ((List.range (n + 1)).map (getRankProbability n)).reverse := by
    unfold getRankProbabilities
    generalize n + 1 = k
    have : ∀ (l : List Nat) (acc : List ℝ),
        l.foldl (fun ps rank => getRankProbability n rank :: ps) acc = (l.map (getRankProbability n)).reverse ++ acc := by
      intro l
      induction l with
      | nil => simp
      | cons a l ih => intro acc; simp [ih]
    rw [this]; simp
  have hnn : ∀ r, 0 ≤ getRankProbability n r := by
    intro r; rw [C53_rank_probability]; positivity
  refine ⟨by simp [hlist], ?_, ?_, ?_⟩
  · intro s h
    simp only [hlist, List.length_reverse, List.length_map, List.length_range] at h
    simp only [hlist, List.getElem_reverse, List.getElem_map, List.getElem_range, List.length_map, List.length_range]
    congr 1
  · intro p hp
    rw [hlist] at hp
    simp only [List.mem_reverse, List.mem_map] at hp
    obtain ⟨r, _, rfl⟩ := hp
    exact hnn r
  · rw [hlist, List.sum_reverse]
    have hsum : ((List.range (n + 1)).map (getRankProbability n)).sum = ∑ r ∈ Finset.range (n + 1), getRankProbability n r := by
      generalize n + 1 = k
      induction k with
      | zero => simp
      | succ k ih => rw [List.range_succ, List.map_append, List.sum_append, ih, Finset.sum_range_succ]; simp
    rw [hsum]
    simp only [C53_rank_probability]
    rw [← Finset.sum_div, div_eq_one_iff_eq (Nat.cast_ne_zero.2 Nat.card_pos.ne')]
    rw [← Nat.cast_sum]
    congr 1
    classical
    have hle : ∀ A : Matrix (Fin n) (Fin n) (ZMod 2), A.rank ∈ Finset.range (n + 1) := by
      intro A
      have := A.rank_le_card_height
      simp at this
      simp; omega
    have := Finset.card_eq_sum_card_fiberwise (s := (Finset.univ : Finset (Matrix (Fin n) (Fin n) (ZMod 2))))
      (t := Finset.range (n + 1)) (f := fun A => A.rank) (fun A _ => hle A)
    rw [Nat.card_eq_fintype_card, ← Finset.card_univ, this]
    apply Finset.sum_congr rfl
    intro r _
    rw [Nat.card_eq_fintype_card, Fintype.card_subtype]

example : getRankProbability 2 1 = 9 / 16 := by
  unfold getRankProbability
  norm_num [List.range_succ]

namespace Spec
/-- Matrix number `k` of the data: entry (i, j) is bit `k·n² + i·n + j`. -/
def blockMatrix (data : List (BitVec w)) (n k : Nat) : Matrix (Fin n) (Fin n) (ZMod 2) :=
  fun i j => if (bitsOf data)[k * (n * n) + (i.val * n + j.val)]? = some true then 1 else 0
end Spec

/-- C53 (counts line up with the probabilities). For every data and size `n ≥ 1`, the counting part of the binary rank
test never leaves its histogram; entry `s` counts exactly the matrices of the data whose rank over GF(2) is `n - s`,
the rank whose probability is entry `s` of the table; and the block count is the number of complete matrices
(both as 64-bit counters). -/
theorem C53_rank_counts (data : List (BitVec w)) (n : Nat) (hn : 0 < n) :
    ∃ counts, binaryRankCounts data n = .ok (counts, BitVec.ofNat 64 (data.length * w / (n * n))) ∧
      counts.length = (getRankProbabilities n).length ∧
      ∀ s (h : s < counts.length), counts[s] = BitVec.ofNat 64
        ((List.range (data.length * w / (n * n))).countP fun k => (blockMatrix data n k).rank == n - s) := by
  classical
  have hkeep : KeepsLayout n (rankCallback n) := by
    intro s m s' m' h1 h2 h
    unfold rankCallback at h
    cases hr : rowReduceAndRank m with
    | error e => rw [hr] at h; cases h
    | ok x =>
      rw [hr] at h
      have hx := rowReduce_shape (m' := x.2) (r := x.1) ⟨h1, h2⟩ hr
      change (incrAt s.1 (n - x.1) >>= fun counts => .ok ((counts, s.2 + 1), x.2)) = _ at h
      cases hi : incrAt s.1 (n - x.1) with
      | error e => rw [hi] at h; cases h
      | ok c => rw [hi] at h; cases h; exact hx
  have hcb : ∀ (m : BinMatrix) (idx : List Nat) (b : BitVec 64), m.Shape n → Binary m n →
      (do let r ← rankCallback n (histOf (n + 1) idx, b) m; (.ok r.1 : R _)) =
        .ok (histOf (n + 1) (idx ++ [n - (gf2 m n).rank]), b + 1) := by
    intro m idx b hs hbin
    obtain ⟨m', e, inv⟩ := rowReduce_ok hs hbin
    unfold rankCallback
    rw [e]
    show ((incrAt (histOf (n + 1) idx) (n - (gf2 m n).rank) >>= _) >>= _) = _
    rw [incrAt_histOf _ _ _ (by omega)]
    rfl
  have hfold : ∀ (ms : List BinMatrix) (idx : List Nat) (b : BitVec 64), (∀ m ∈ ms, m.Shape n ∧ Binary m n) →
      ms.foldlM (fun s m => do let r ← rankCallback n s m; (.ok r.1 : R _)) (histOf (n + 1) idx, b) =
        .ok (histOf (n + 1) (idx ++ ms.map fun m => n - (gf2 m n).rank), b + BitVec.ofNat 64 ms.length) := by
    intro ms
    induction ms with
    | nil => intro idx b _; simp; rfl
    | cons m ms ih =>
      intro idx b h
      rw [List.foldlM_cons, hcb m idx b (h m (by simp)).1 (h m (by simp)).2]
      show ms.foldlM _ (_, _) = _
      rw [ih _ _ (fun m' hm' => h m' (by simp [hm']))]
      congr 2
      · simp
      · rw [List.length_cons, Nat.add_comm, BitVec.ofNat_add, BitVec.add_assoc]; rfl
  obtain ⟨ms, hlen, hms, heq⟩ := C52_forEachMatrix data n hn (rankCallback n) hkeep (List.replicate (n + 1) 0#64, 0#64)
  have hshape : ∀ k (hk : k < ms.length), ms[k].Shape n ∧ Binary ms[k] n ∧ gf2 ms[k] n = blockMatrix data n k := by
    intro k hk
    obtain ⟨h1, h2, h3⟩ := hms k hk
    have hs : ms[k].Shape n := ⟨h1, h2⟩
    have hc : ∀ r c, r < n → c < n → ∃ b, (bitsOf data)[k * (n * n) + (r * n + c)]? = some b ∧
        ms[k].cell r c = if b then 1#8 else 0#8 := by
      intro r c hr hc
      obtain ⟨b, hb, hg⟩ := h3 r c hr hc
      rw [get_ok hs hr hc] at hg
      exact ⟨b, hb, Except.ok.inj hg⟩
    refine ⟨hs, ?_, ?_⟩
    · intro i j hi hj
      obtain ⟨b, _, h⟩ := hc i j hi hj
      rw [h]; cases b <;> simp
    · funext i j
      obtain ⟨b, hb, h⟩ := hc i j i.2 j.2
      unfold gf2 blockMatrix
      rw [h, hb]
      cases b <;> simp
  have hall : ∀ m ∈ ms, m.Shape n ∧ Binary m n := by
    intro m hm
    obtain ⟨k, hk, rfl⟩ := List.mem_iff_getElem.1 hm
    exact ⟨(hshape k hk).1, (hshape k hk).2.1⟩
  have hmap : (ms.map fun m => n - (gf2 m n).rank) =
      (List.range (data.length * w / (n * n))).map fun k => n - (blockMatrix data n k).rank := by
    apply List.ext_getElem (by simp [hlen])
    intro k h1 h2
    simp only [List.getElem_map, List.getElem_range]
    rw [(hshape k (by simpa using h1)).2.2]
  refine ⟨histOf (n + 1) ((List.range (data.length * w / (n * n))).map fun k => n - (blockMatrix data n k).rank), ?_, ?_, ?_⟩
  · unfold binaryRankCounts
    rw [heq, ← histOf_nil, hfold ms [] 0#64 hall, hlen, hmap]
    simp
  · rw [length_histOf, (C53_rank_probabilities n).1]
  · intro s h
    rw [length_histOf] at h
    rw [getElem_histOf]
    congr 1
    rw [List.count, List.countP_map]
    apply List.countP_congr
    intro k _
    have := (blockMatrix data n k).rank_le_card_height
    simp only [Fintype.card_fin] at this
    simp only [Function.comp, beq_iff_eq]
    omega

example : binaryRankCounts [0b1001#8, 0b1111#8] 2 = .ok ([1#64, 1#64, 2#64], 4#64) := by decide +kernel

/-! The isolated-bit variant. -/

private theorem nested_range {σ : Type} (f : σ → Nat → Nat → R σ) (n : Nat) (hn : 0 < n) (m : Nat) (s : σ) :
    (List.range m).foldlM (fun s r => (List.range n).foldlM (fun s c => f s r c) s) s =
      (List.range (m * n)).foldlM (fun s k => f s (k / n) (k % n)) s := by
  induction m generalizing s with
  | zero => simp
  | succ m ih =>
    rw [List.range_succ, List.foldlM_append, Nat.succ_mul, List.range_add, List.foldlM_append, ih]
    congr 1
    funext s'
    rw [List.foldlM_map]
    refine Eq.trans (bind_pure (m := Except Fault) _) ?_
    apply foldlM_congr'
    intro s c hc
    have hc := List.mem_range.1 hc
    rw [Nat.mul_comm m n, Nat.mul_add_div hn, Nat.div_eq_of_lt hc, Nat.mul_add_mod, Nat.mod_eq_of_lt hc, Nat.add_zero]

private theorem fillIsolated_ok (s : Stream (BitVec w)) (n : Nat) (hn : 0 < n) (bit : Nat) (hb : bit < w) (j : Nat) :
    ∃ m, fillIsolated s.step n bit (s.stateAt j) = .ok (m, s.stateAt (j + n * n)) ∧ m.Shape n ∧
      ∀ r c, r < n → c < n → m.cell r c = if (s.nth (j + (r * n + c))).getLsbD bit then 1#8 else 0#8 := by
  unfold fillIsolated
  have := nested_range (fun (acc : BinMatrix × s.σ) r c => do
    let (v, st) := s.step acc.2
    let b ← isBitSet v bit
    let m ← acc.1.set r c b
    .ok (m, st)) n hn n (BinMatrix.new n, s.stateAt j)
  rw [this]
  have key : ∀ k, k ≤ n * n → ∃ m, (List.range k).foldlM (fun (acc : BinMatrix × s.σ) i => do
      let (v, st) := s.step acc.2
      let b ← isBitSet v bit
      let m ← acc.1.set (i / n) (i % n) b
      .ok (m, st)) (BinMatrix.new n, s.stateAt j) = .ok (m, s.stateAt (j + k)) ∧ m.Shape n ∧
      ∀ r c, r < n → c < n → r * n + c < k → m.cell r c = if (s.nth (j + (r * n + c))).getLsbD bit then 1#8 else 0#8 := by
    intro k
    induction k with
    | zero => intro _; exact ⟨BinMatrix.new n, rfl, ⟨rfl, by simp [BinMatrix.new]⟩, fun r c _ _ h => by omega⟩
    | succ k ih =>
      intro hk
      obtain ⟨m, e, sh, hc⟩ := ih (by omega)
      have hr : k / n < n := Nat.div_lt_of_lt_mul (by omega)
      have hcc : k % n < n := Nat.mod_lt _ hn
      have hdm : k / n * n + k % n = k := by rw [Nat.mul_comm]; exact Nat.div_add_mod k n
      obtain ⟨m', e', sh', hc'⟩ := put_ok sh hr hcc (if (s.nth (j + k)).getLsbD bit then 1#8 else 0#8)
      refine ⟨m', ?_, sh', ?_⟩
      · rw [List.range_succ, List.foldlM_append, e]
        refine Eq.trans (bind_pure (m := Except Fault) _) ?_
        show (isBitSet (s.step (s.stateAt (j + k))).1 bit >>= fun b => (m.set (k / n) (k % n) b >>= fun m =>
          .ok (m, (s.step (s.stateAt (j + k))).2)) : R _) = _
        rw [C02_isBitSet _ _ hb, ← Stream.nth_eq]
        show (m.put (k / n) (k % n) _ >>= _) = _
        rw [e', ← Stream.stateAt_succ]
        rfl
      · intro r c hr2 hc2 hlt
        rw [hc' r c hc2]
        by_cases q : r = k / n ∧ c = k % n
        · rw [if_pos q, q.1, q.2, hdm]
        · rw [if_neg q]
          apply hc r c hr2 hc2
          rcases Nat.lt_succ_iff_lt_or_eq.1 hlt with h | h
          · exact h
          · exfalso; apply q
            rw [← hdm] at h
            exact idx_inj hc2 hcc h
  obtain ⟨m, a, b, c⟩ := key (n * n) le_rfl
  exact ⟨m, a, b, fun r c' hr hc => c r c' hr hc (idx_lt hr hc)⟩

namespace Spec
/-- Matrix number `k` made of one bit of each value of a sequence: entry (i, j) is that bit of value `k·n² + i·n + j`. -/
def bitMatrix (values : Nat → BitVec w) (bit n k : Nat) : Matrix (Fin n) (Fin n) (ZMod 2) :=
  fun i j => if (values (k * (n * n) + (i.val * n + j.val))).getLsbD bit then 1 else 0
end Spec

/-- C53 (isolated-bit variant). For every stream, every in-range bit and every size whose square does not overflow: the
test consumes exactly `blocks · n²` stream values, `blocks = w·n / size²` (64-bit), and entry `s` of its histogram counts
the blocks whose matrix, made of that bit of consecutive values, has rank `size - s`. It reads about `w` times as many
values as the `n` requested. -/
theorem C53_isolated_rank_counts (n : BitVec 64) (s : Stream (BitVec w)) (size : BitVec 64) (bit : Nat) (hb : bit < w)
    (hs : size ≠ 0#64) (hov : size.toNat * size.toNat < 2 ^ 64) :
    ∃ counts blocks, isolatedRankCounts n s size bit = .ok (counts, blocks,
        s.stateAt (blocks.toNat * (size.toNat * size.toNat))) ∧
      blocks.toNat = (w * n.toNat) % 2 ^ 64 / (size.toNat * size.toNat) ∧
      counts.length = size.toNat + 1 ∧
      ∀ i (h : i < counts.length), counts[i] = BitVec.ofNat 64
        ((List.range blocks.toNat).countP fun k => (bitMatrix s.nth bit size.toNat k).rank == size.toNat - i) := by
  classical
  have hn0 : 0 < size.toNat := Nat.pos_of_ne_zero fun q => hs (BitVec.eq_of_toNat_eq (by simpa using q))
  have hsq : (size * size).toNat = size.toNat * size.toNat := by rw [BitVec.toNat_mul, Nat.mod_eq_of_lt hov]
  have hsq0 : size * size ≠ 0#64 := by
    intro h; have := congrArg BitVec.toNat h; rw [hsq] at this
    have h2 := Nat.mul_pos hn0 hn0
    simp at this; omega
  have hfin : ∀ (k j : Nat) (idx : List Nat), isolatedBlocks s.step size.toNat bit k (histOf (size.toNat + 1) idx)
      (s.stateAt (j * (size.toNat * size.toNat))) =
      .ok (histOf (size.toNat + 1) (idx ++ (List.range' j k).map fun i => size.toNat - (bitMatrix s.nth bit size.toNat i).rank),
        s.stateAt ((j + k) * (size.toNat * size.toNat))) := by
    intro k
    induction k with
    | zero => intro j idx; simp [isolatedBlocks]
    | succ k ih =>
      intro j idx
      obtain ⟨m, e, sh, hc⟩ := fillIsolated_ok s size.toNat hn0 bit hb (j * (size.toNat * size.toNat))
      have hbin : Binary m size.toNat := by
        intro r c hr hc'
        rw [hc r c hr hc']; split <;> simp
      have hgf : gf2 m size.toNat = bitMatrix s.nth bit size.toNat j := by
        funext r c
        unfold gf2 bitMatrix
        rw [hc r c r.2 c.2]
        by_cases q : (s.nth (j * (size.toNat * size.toNat) + (↑r * size.toNat + ↑c))).getLsbD bit = true
        · simp [q]
        · simp [q]
      obtain ⟨m', e', _⟩ := rowReduce_ok sh hbin
      unfold isolatedBlocks
      rw [e]
      show (rowReduceAndRank m >>= _) = _
      rw [e', hgf]
      show (incrAt _ _ >>= _) = _
      rw [incrAt_histOf _ _ _ (by omega)]
      show isolatedBlocks s.step size.toNat bit k _ _ = _
      have := ih (j + 1) (idx ++ [size.toNat - (bitMatrix s.nth bit size.toNat j).rank])
      rw [Nat.succ_mul] at this
      rw [this, List.range'_succ]
      congr 2
      · simp
      · congr 1; ring
  let blocks : BitVec 64 := (BitVec.ofNat 64 w * n) / (size * size)
  refine ⟨histOf (size.toNat + 1) ((List.range' 0 blocks.toNat).map fun i => size.toNat - (bitMatrix s.nth bit size.toNat i).rank),
    blocks, ?_, ?_, by simp, ?_⟩
  · unfold isolatedRankCounts
    rw [if_neg hsq0, ← histOf_nil]
    have := hfin blocks.toNat 0 []
    simp only [Nat.zero_mul, Stream.stateAt_zero, Nat.zero_add, List.nil_append] at this
    simp only [blocks] at this ⊢
    rw [this]
    rfl
  · simp only [blocks]
    rw [BitVec.toNat_udiv, hsq, BitVec.toNat_mul, BitVec.toNat_ofNat, Nat.mod_mul_mod]
  · intro i h
    rw [length_histOf] at h
    rw [getElem_histOf]
    congr 1
    rw [List.count, List.countP_map, List.range_eq_range']
    apply List.countP_congr
    intro k _
    have := (bitMatrix s.nth bit size.toNat k).rank_le_card_height
    simp only [Fintype.card_fin] at this
    simp only [Function.comp, beq_iff_eq]
    omega

/-- C53 (isolated-bit variant, size 0). -/
theorem C53_isolated_size_zero (n : BitVec 64) (s : Stream (BitVec w)) (bit : Int) :
    isolatedRankCounts n s 0#64 bit = .error .divByZero := by
  simp [isolatedRankCounts]

example : ∃ counts blocks st, isolatedRankCounts 1#64 (counterStream 8 1#64 0#64) 2#64 0 = .ok (counts, blocks, st) ∧
    counts = [0#64, 2#64, 0#64] ∧ blocks = 2#64 :=
  ⟨[0#64, 2#64, 0#64], 2#64, 8#64, rfl, rfl, rfl⟩

/-- C52 (choice of size). For every sample count and word width up to 64 the chosen matrix size is a power of two or 0;
when it is not 0 the data holds at least 954 complete matrices; and with at least 1024 samples of at least 8 bits (the
least the budget rules let through) it is at least 2; and it is at least every power of two of which 955 matrices are there. -/
theorem C52_matrix_size (w : Nat) (hw : w ≤ 64) (n : BitVec 64) :
    ∃ s, getMatrixSize w n = .ok s ∧ (s = 0#64 ∨ ∃ k, s.toNat = 2 ^ k) ∧
      (s ≠ 0#64 → 954 ≤ n.toNat * w / (s.toNat * s.toNat)) ∧
      (1024 ≤ n.toNat → 8 ≤ w → 2 ≤ s.toNat) ∧ ∀ k, 955 * (2 ^ k * 2 ^ k) ≤ n.toNat * w → 2 ^ k ≤ s.toNat := by
  have hw' : (w : ℝ) ≤ 64 := by exact_mod_cast hw
  set x : ℝ := n.toNat * ((w : ℝ) / (5 / 0.0052387863054258942636)) with hx
  have hx0 : 0 ≤ x := by positivity
  have hx' : x = n.toNat * w / (5 / 0.0052387863054258942636) := by rw [hx]; ring
  set q : Nat := ⌊Real.sqrt x⌋₊ with hq
  have hqs : (q : ℝ) ≤ Real.sqrt x := Nat.floor_le (Real.sqrt_nonneg _)
  have hq2 : (q : ℝ) * q ≤ x := by
    calc (q : ℝ) * q ≤ Real.sqrt x * Real.sqrt x := by gcongr
      _ = x := Real.mul_self_sqrt hx0
  have hn64 : (n.toNat : ℝ) < 2 ^ 64 := by exact_mod_cast n.isLt
  have hxb : x < 2 ^ 64 := by
    rw [hx']
    have : (n.toNat : ℝ) * w ≤ 2 ^ 64 * 64 := by
      apply mul_le_mul hn64.le hw' (by positivity) (by positivity)
    rw [div_lt_iff₀ (by norm_num)]
    calc _ ≤ (2 : ℝ) ^ 64 * 64 := this
      _ < _ := by norm_num
  have hqlt : q < 2 ^ 64 := by
    have h1 : (q : ℝ) * q < 2 ^ 64 := lt_of_le_of_lt hq2 hxb
    have h2 : q * q < 2 ^ 64 := by exact_mod_cast h1
    by_contra h
    have : 1 ≤ q := by omega
    nlinarith
  have hqv : (BitVec.ofNat 64 q).toNat = q := by rw [BitVec.toNat_ofNat, Nat.mod_eq_of_lt hqlt]
  obtain ⟨s, e, hz, hg⟩ := C05_bitFloor (BitVec.ofNat 64 q)
  rw [hqv] at hz hg
  refine ⟨s, e, ?_, ?_, ?_, ?_⟩
  · by_cases h : q = 0
    · left; exact BitVec.eq_of_toNat_eq (by simpa using hz h)
    · right; exact (hg h).1.1
  · intro hs
    have hs0 : s.toNat ≠ 0 := fun h => hs (BitVec.eq_of_toNat_eq (by simpa using h))
    have hq0 : q ≠ 0 := fun h => hs0 (hz h)
    have hsq : s.toNat ≤ q := (hg hq0).1.2
    rw [Nat.le_div_iff_mul_le (Nat.mul_pos (Nat.pos_of_ne_zero hs0) (Nat.pos_of_ne_zero hs0))]
    have h1 : (s.toNat : ℝ) * s.toNat ≤ x := by
      calc (s.toNat : ℝ) * s.toNat ≤ q * q := by gcongr
        _ ≤ x := hq2
    rw [hx', le_div_iff₀ (by norm_num)] at h1
    have h2 : (954 : ℝ) * (s.toNat * s.toNat) ≤ n.toNat * w := by
      refine le_trans ?_ h1
      rw [mul_comm]
      gcongr
      norm_num
    exact_mod_cast h2
  · intro hn h8
    have hq2' : 2 ≤ q := by
      apply Nat.le_floor
      rw [Nat.cast_ofNat]
      apply Real.le_sqrt_of_sq_le
      rw [hx', le_div_iff₀ (by norm_num)]
      have a : (1024 : ℝ) ≤ n.toNat := by exact_mod_cast hn
      have b : (8 : ℝ) ≤ w := by exact_mod_cast h8
      have : (1024 : ℝ) * 8 ≤ n.toNat * w := by gcongr
      refine le_trans ?_ this
      norm_num
    exact (hg (by omega)).2 ⟨⟨1, rfl⟩, hq2'⟩
  · intro k hk
    have hkq : 2 ^ k ≤ q := by
      apply Nat.le_floor
      apply Real.le_sqrt_of_sq_le
      rw [hx', le_div_iff₀ (by norm_num)]
      have h1 : (955 : ℝ) * (2 ^ k * 2 ^ k) ≤ n.toNat * w := by exact_mod_cast hk
      refine le_trans ?_ h1
      push_cast
      rw [mul_comm, sq]
      gcongr
      norm_num
    have : 0 < 2 ^ k := by positivity
    exact (hg (by omega)).2 ⟨⟨k, rfl⟩, hkq⟩

end TFR
