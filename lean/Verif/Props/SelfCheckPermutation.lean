import Verif.Props.PermutationTest
import Verif.Props.SelfCheckSerial
/-
C134. What the permutation test rejects, and what the self-check of `-inspect-test` prints about it.
-/
namespace TFR
open Spec Finset
variable {w : Nat}

/-- Bit `q` of the bits of a sequence of words, word after word, least significant bit first. -/
def Spec.streamBit (v : Nat → BitVec w) (q : Nat) : Bool := (v (q / w)).getLsbD (q % w)

/-- The `j`-th window of `k` bits as a number. -/
def Spec.windowAt (v : Nat → BitVec w) (k j : Nat) : Nat := ofBits ((List.range k).map fun i => streamBit v (j * k + i))

/-- How many of the first `m` windows of `k` bits are `y`. -/
def Spec.windowHits (v : Nat → BitVec w) (k m y : Nat) : Nat := ((range m).filter fun j => windowAt v k j = y).card

theorem bitsOf_take (hw : 0 < w) (s : Stream (BitVec w)) (n : Nat) : bitsOf (s.take n) = (List.range (n * w)).map (streamBit s.nth) := by
  apply List.ext_getElem?
  intro q
  by_cases hq : q < n * w
  · have hd : q / w < n := Nat.div_lt_of_lt_mul (by rwa [Nat.mul_comm] at hq)
    have h1 : (s.take n)[q / w]? = some (s.nth (q / w)) := by
      rw [Stream.take_eq_map, List.getElem?_map, List.getElem?_range hd]; rfl
    have h2 := getElem?_bitsOf (s.take n) (q / w) (q % w) (Nat.mod_lt _ hw) _ h1
    rw [Nat.div_add_mod'] at h2
    rw [h2, List.getElem?_map, List.getElem?_range hq]
    rfl
  · rw [List.getElem?_eq_none, List.getElem?_eq_none]
    · simpa using hq
    · rw [length_bitsOf, Stream.take_eq_map]; simpa using hq

theorem windows_eq (hw : 0 < w) (s : Stream (BitVec w)) (n k : Nat) :
    (chunks k (bitsOf (s.take n))).map ofBits = (List.range (n * w / k)).map (windowAt s.nth k) := by
  unfold chunks
  rw [length_bitsOf, Stream.take_eq_map, List.length_map, List.length_range, List.map_map]
  apply List.map_congr_left
  intro j hj
  have hj := List.mem_range.1 hj
  show ofBits _ = ofBits _
  refine congrArg ofBits ?_
  rw [← Stream.take_eq_map, bitsOf_take hw]
  have hle : j * k + k ≤ n * w := by
    have h1 : (j + 1) * k ≤ n * w / k * k := Nat.mul_le_mul_right k hj
    have h2 := Nat.div_mul_le_self (n * w) k
    rw [add_mul, one_mul] at h1
    omega
  apply List.ext_getElem
  · simp; omega
  · intro i h1 h2
    simp

theorem windows_count (hw : 0 < w) (s : Stream (BitVec w)) (n k y : Nat) :
    ((chunks k (bitsOf (s.take n))).map ofBits).count y = windowHits s.nth k (n * w / k) y := by
  rw [windows_eq hw]
  unfold windowHits
  generalize n * w / k = m
  rw [List.count_eq_countP, List.countP_map, List.countP_eq_length_filter]
  have : (List.range m).filter ((fun x => x == y) ∘ windowAt s.nth k) = (List.range m).filter fun j => decide (windowAt s.nth k j = y) :=
    List.filter_congr fun j _ => rfl
  rw [this, ← List.toFinset_card_of_nodup (List.nodup_range.filter _)]
  congr 1
  ext j
  simp

/-- The permutation test in terms of windows. -/
theorem permutation_value (hw : 0 < w) (n : BitVec 64) (h0 : 2 ^ 13 ≤ n.toNat * w) (h1 : n.toNat * w < 2 ^ 64) :
    ∃ k, 4 ≤ k ∧ k ≤ 59 ∧ 29 * (k * 2 ^ k) ≤ n.toNat * w ∧ n.toNat * w ≤ 104 * (k * 2 ^ k) ∧ ∀ s : Stream (BitVec w), ∃ st,
      permutationTest chi2DistributionCdf n s = .ok [⟨toString k, some st⟩] ∧ st.type = .chi2 ∧ st.df = 2 ^ k - 1 ∧
      st.pValue = chi2DistributionCdf st.value st.df ∧ (0 : ℝ) < ((n.toNat * w / k : ℕ) : ℝ) / 2 ^ k ∧
      st.value = ∑ y ∈ range (2 ^ k), (((min 255 (windowHits s.nth k (n.toNat * w / k) y) : ℕ) : ℝ) - ((n.toNat * w / k : ℕ) : ℝ) / 2 ^ k) ^ 2 /
        (((n.toNat * w / k : ℕ) : ℝ) / 2 ^ k) := by
  obtain ⟨k, hk1, hk2, hb1, hb2, hs⟩ := C85_permutation (w := w) chi2DistributionCdf n h0 h1
  refine ⟨k, hk1, hk2, hb1, hb2, fun s => ?_⟩
  obtain ⟨st, g1, g2, g3, g4, g5⟩ := hs s
  have hpos : (0 : ℝ) < ((n.toNat * w / k : ℕ) : ℝ) / 2 ^ k := by
    have h3 : 0 < n.toNat * w / k := Nat.div_pos (by
      have : 1 ≤ 2 ^ k := Nat.one_le_two_pow
      have : k * 1 ≤ k * 2 ^ k := Nat.mul_le_mul_left k this
      omega) (by omega)
    have : (0 : ℝ) < ((n.toNat * w / k : ℕ) : ℝ) := by exact_mod_cast h3
    positivity
  refine ⟨st, g1, g4, g3, (pearson_some _ _ 0 le_rfl st g2).2.2.2.2, hpos, ?_⟩
  simp only [windows_count hw] at g2
  unfold pearson at g2
  rw [used_all _ _ _ hpos] at g2
  split at g2
  · cases g2
  rw [← Option.some.inj g2]
  show chiSquare _ = _
  unfold chiSquare
  rw [List.map_map, Finset.sum_range, ← List.sum_ofFn]
  congr 1
  apply List.ext_getElem
  · simp
  · intro i h1 h2
    simp

/-- Sequences in which the windows take few of the values. -/
theorem few_windows (hw : 0 < w) (n : BitVec 64) (h0 : 2 ^ 13 ≤ n.toNat * w) (h1 : n.toNat * w < 2 ^ 64) (s : Stream (BitVec w))
    (h : ∀ k, n.toNat * w ≤ 104 * (k * 2 ^ k) → ∃ S : Finset Nat, 2 * S.card ≤ 2 ^ k ∧ ∀ j, windowAt s.nth k j ∈ S) :
    ∃ (k : Nat) (st : Statistic ℝ), permutationTest chi2DistributionCdf n s = .ok [⟨toString k, some st⟩] ∧ st.pValue ≤ 1 / 10 ^ 9 ∧ statPass st = false := by
  obtain ⟨k, hk1, hk2, hb1, hb2, hs⟩ := permutation_value hw n h0 h1
  obtain ⟨st, g1, g2, g3, g4, g5, g6⟩ := hs s
  obtain ⟨S, hS, hmem⟩ := h k hb2
  have h16 : (16 : ℝ) ≤ 2 ^ k := by
    have : (2 : ℝ) ^ 4 ≤ 2 ^ k := pow_le_pow_right₀ (by norm_num) hk1
    linarith
  refine ⟨k, st, g1, reject_of_value st g2 g4 (by rw [g3]; linarith) ?_⟩
  set E : ℝ := ((n.toNat * w / k : ℕ) : ℝ) / 2 ^ k with hE
  have h29 : 29 ≤ E := by
    rw [hE, le_div_iff₀ (by positivity)]
    have : 29 * 2 ^ k ≤ n.toNat * w / k := by
      rw [Nat.le_div_iff_mul_le (by omega)]
      calc 29 * 2 ^ k * k = 29 * (k * 2 ^ k) := by ring
        _ ≤ _ := hb1
    exact_mod_cast this
  have hlow : ((2 : ℝ) ^ k / 2) * E ≤ st.value := by
    rw [g6]
    have hsub : range (2 ^ k) \ S ⊆ range (2 ^ k) := sdiff_subset
    refine le_trans ?_ (sum_le_sum_of_subset_of_nonneg hsub fun y _ _ => div_nonneg (sq_nonneg _) g5.le)
    have hterm : ∀ y ∈ range (2 ^ k) \ S, (((min 255 (windowHits s.nth k (n.toNat * w / k) y) : ℕ) : ℝ) - E) ^ 2 / E = E := by
      intro y hy
      have hz : windowHits s.nth k (n.toNat * w / k) y = 0 := by
        unfold windowHits
        rw [card_eq_zero, filter_eq_empty_iff]
        intro j _ hj
        exact (mem_sdiff.1 hy).2 (hj ▸ hmem j)
      rw [hz]
      have : E ≠ 0 := g5.ne'
      simp only [Nat.zero_le, inf_of_le_right, Nat.cast_zero]
      field_simp
      ring
    rw [sum_congr rfl hterm, sum_const, nsmul_eq_mul]
    refine mul_le_mul_of_nonneg_right ?_ g5.le
    have hc : 2 ^ k - S.card ≤ (range (2 ^ k) \ S).card := by
      have := le_card_sdiff S (range (2 ^ k))
      rwa [card_range] at this
    have hc2 : (2 : ℝ) ^ k ≤ (((range (2 ^ k) \ S).card + S.card : ℕ) : ℝ) := by
      have : 2 ^ k ≤ (range (2 ^ k) \ S).card + S.card := by omega
      exact_mod_cast this
    have hc3 : 2 * (S.card : ℝ) ≤ 2 ^ k := by exact_mod_cast hS
    push_cast at hc2
    linarith
  rw [g3]
  refine le_trans ?_ hlow
  nlinarith

/-- C134. The permutation test rejects every sequence whose bits repeat with period `2^m` once it reads more than `104·m·2^m` bits. -/
theorem C134_periodic (hw : 0 < w) (n : BitVec 64) (h0 : 2 ^ 13 ≤ n.toNat * w) (h1 : n.toNat * w < 2 ^ 64) (s : Stream (BitVec w)) (m : Nat)
    (hm : 104 * (m * 2 ^ m) < n.toNat * w) (hp : ∀ q, streamBit s.nth (q + 2 ^ m) = streamBit s.nth q) :
    ∃ (k : Nat) (st : Statistic ℝ), permutationTest chi2DistributionCdf n s = .ok [⟨toString k, some st⟩] ∧ st.pValue ≤ 1 / 10 ^ 9 ∧ statPass st = false := by
  have hmod : ∀ q, streamBit s.nth q = streamBit s.nth (q % 2 ^ m) := by
    intro q
    have : ∀ a r, streamBit s.nth (r + 2 ^ m * a) = streamBit s.nth r := by
      intro a
      induction a with
      | zero => intro r; simp
      | succ a ih => intro r; rw [Nat.mul_succ, ← Nat.add_assoc, hp, ih]
    conv_lhs => rw [← Nat.mod_add_div q (2 ^ m)]
    exact this _ _
  refine few_windows hw n h0 h1 s fun k hk => ?_
  have hkm : m < k := by
    by_contra hle
    have : k * 2 ^ k ≤ m * 2 ^ m := Nat.mul_le_mul (not_lt.1 hle) (Nat.pow_le_pow_right (by norm_num) (not_lt.1 hle))
    omega
  refine ⟨(range (2 ^ m)).image fun r => ofBits ((List.range k).map fun i => streamBit s.nth (r + i)), ?_, fun j => ?_⟩
  · have h3 := card_image_le (s := range (2 ^ m)) (f := fun r => ofBits ((List.range k).map fun i => streamBit s.nth (r + i)))
    rw [card_range] at h3
    calc 2 * _ ≤ 2 * 2 ^ m := Nat.mul_le_mul_left 2 h3
      _ = 2 ^ (m + 1) := by rw [Nat.pow_succ]; ring
      _ ≤ 2 ^ k := Nat.pow_le_pow_right (by norm_num) hkm
  · refine mem_image.2 ⟨j * k % 2 ^ m, mem_range.2 (Nat.mod_lt _ (by positivity)), ?_⟩
    unfold windowAt
    refine congrArg ofBits (List.map_congr_left fun i _ => ?_)
    rw [hmod (j * k % 2 ^ m + i), hmod (j * k + i)]
    simp [Nat.add_mod]

/-- Sequences in which one window comes too often. -/
theorem frequent_window (hw : 0 < w) (n : BitVec 64) (h0 : 2 ^ 13 ≤ n.toNat * w) (h1 : n.toNat * w < 2 ^ 64) (s : Stream (BitVec w))
    (h : ∀ k, 29 * (k * 2 ^ k) ≤ n.toNat * w → n.toNat * w ≤ 104 * (k * 2 ^ k) → ∃ y < 2 ^ k, ∃ c ≤ 255, ∃ Eu : ℝ,
      c ≤ windowHits s.nth k (n.toNat * w / k) y ∧ (n.toNat * w : ℕ) ≤ Eu * (k * 2 ^ k : ℕ) ∧ Eu ≤ c ∧
      (7 / 5 * (2 ^ k - 1) + 84) * Eu ≤ (c - Eu) ^ 2) :
    ∃ (k : Nat) (st : Statistic ℝ), permutationTest chi2DistributionCdf n s = .ok [⟨toString k, some st⟩] ∧ st.pValue ≤ 1 / 10 ^ 9 ∧ statPass st = false := by
  obtain ⟨k, hk1, hk2, hb1, hb2, hs⟩ := permutation_value hw n h0 h1
  obtain ⟨st, g1, g2, g3, g4, g5, g6⟩ := hs s
  obtain ⟨y, hy, c, hc, Eu, hhits, hEu, hEc, hbig⟩ := h k hb1 hb2
  have h16 : (16 : ℝ) ≤ 2 ^ k := by
    have : (2 : ℝ) ^ 4 ≤ 2 ^ k := pow_le_pow_right₀ (by norm_num) hk1
    linarith
  refine ⟨k, st, g1, reject_of_value st g2 g4 (by rw [g3]; linarith) ?_⟩
  set E : ℝ := ((n.toNat * w / k : ℕ) : ℝ) / 2 ^ k with hE
  have hle : E ≤ Eu := by
    rw [hE, div_le_iff₀ (by positivity)]
    have hk0 : (0 : ℝ) < k := by exact_mod_cast (show 0 < k by omega)
    have h3 : ((n.toNat * w / k : ℕ) : ℝ) * k ≤ (n.toNat * w : ℕ) := by exact_mod_cast Nat.div_mul_le_self _ _
    push_cast at hEu h3
    have h4 : ((n.toNat * w / k : ℕ) : ℝ) * k ≤ (Eu * 2 ^ k) * k := by
      push_cast
      linarith
    exact le_of_mul_le_mul_right h4 hk0
  have hcell : (((min 255 (windowHits s.nth k (n.toNat * w / k) y) : ℕ) : ℝ) - E) ^ 2 / E ≤ st.value := by
    rw [g6]
    exact single_le_sum (f := fun y => (((min 255 (windowHits s.nth k (n.toNat * w / k) y) : ℕ) : ℝ) - E) ^ 2 / E)
      (fun z _ => div_nonneg (sq_nonneg _) g5.le) (mem_range.2 hy)
  refine le_trans ?_ hcell
  rw [g3, le_div_iff₀ g5]
  have hmin : (c : ℝ) ≤ ((min 255 (windowHits s.nth k (n.toNat * w / k) y) : ℕ) : ℝ) := by
    exact_mod_cast le_min hc hhits
  have hD : (0 : ℝ) ≤ 7 / 5 * (2 ^ k - 1) + 84 := by linarith
  calc (7 / 5 * (2 ^ k - 1) + 84) * E ≤ (7 / 5 * (2 ^ k - 1) + 84) * Eu := mul_le_mul_of_nonneg_left hle hD
    _ ≤ (c - Eu) ^ 2 := hbig
    _ ≤ _ := by
      apply pow_le_pow_left₀ (by linarith)
      linarith

theorem count_blocks (p : Nat) (P : Nat → Bool) (J : Nat) :
    J / p * (List.range p).countP P ≤ (List.range J).countP fun j => P (j % p) := by
  have h : ∀ a, (List.range (p * a)).countP (fun j => P (j % p)) = a * (List.range p).countP P := by
    intro a
    induction a with
    | zero => simp
    | succ a ih =>
      rw [Nat.mul_succ, List.range_add, List.countP_append, ih, List.countP_map, add_mul, one_mul]
      congr 1
      refine List.countP_congr fun i hi => ?_
      have hi := List.mem_range.1 hi
      simp [Function.comp, Nat.mod_eq_of_lt hi]
  rw [← h]
  refine List.Sublist.countP_le ?_
  exact List.range_sublist.2 (Nat.mul_div_le J p)

theorem ofBits_replicate (b : Bool) (k : Nat) (l : List Nat) (f : Nat → Bool) (hl : l.length = k) (h : ∀ i ∈ l, f i = b) :
    ofBits (l.map f) = if b then 2 ^ k - 1 else 0 := by
  subst hl
  induction l with
  | nil => cases b <;> simp [ofBits]
  | cons i l ih =>
    have h1 := ih fun j hj => h j (List.mem_cons_of_mem _ hj)
    rw [List.map_cons, ofBits, h1, h i List.mem_cons_self]
    have : 1 ≤ 2 ^ l.length := Nat.one_le_two_pow
    cases b
    · simp
    · simp only [if_true, List.length_cons, Nat.pow_succ]; omega

/-- The windows of a view of the counter, among the first `2^9 - 1` values, that see only its high bits. -/
theorem counter_windows (t : WT) (ty : RrcType) (rot : Nat) (k : Nat) (N : Nat) (hN : 511 * t.bits ≤ N) (v : Nat → BitVec t.bits)
    (hv : ∀ i, v i = permute t (BitVec.ofNat t.bits (i + 1)) rot ty) :
    511 * t.bits / k / t.bits * (List.range t.bits).countP (fun b => (List.range k).all fun i => decide (9 ≤ fromBit t.bits rot ty ((b * k + i) % t.bits))) ≤
      windowHits v k (N / k) (if complements ty then 2 ^ k - 1 else 0) := by
  have hw : 0 < t.bits := by cases t <;> decide
  refine (count_blocks t.bits _ (511 * t.bits / k)).trans ?_
  rw [List.countP_eq_length_filter, ← List.toFinset_card_of_nodup (List.nodup_range.filter _)]
  unfold windowHits
  refine card_le_card fun j hj => ?_
  simp only [List.mem_toFinset, List.mem_filter, List.mem_range, List.all_eq_true, decide_eq_true_eq] at hj
  obtain ⟨hj, hall⟩ := hj
  rw [mem_filter, mem_range]
  refine ⟨lt_of_lt_of_le hj (Nat.div_le_div_right hN), ?_⟩
  unfold windowAt
  refine ofBits_replicate _ k _ _ (by simp) fun i hi => ?_
  have hi' := List.mem_range.1 hi
  unfold streamBit
  have hq : j * k + i < 511 * t.bits := by
    have h1 : (j + 1) * k ≤ 511 * t.bits / k * k := Nat.mul_le_mul_right k hj
    have h2 := Nat.div_mul_le_self (511 * t.bits) k
    rw [add_mul, one_mul] at h1
    omega
  have hd : (j * k + i) / t.bits < 511 := Nat.div_lt_of_lt_mul (by rw [Nat.mul_comm t.bits]; exact hq)
  rw [hv, permute_bit t _ rot ty _ (Nat.mod_lt _ hw), BitVec.getLsbD_ofNat]
  have h9 := hall i hi'
  have hmod : (j % t.bits * k + i) % t.bits = (j * k + i) % t.bits := by
    simp [Nat.add_mod, Nat.mul_mod]
  rw [hmod] at h9
  have hz : ((j * k + i) / t.bits + 1).testBit (fromBit t.bits rot ty ((j * k + i) % t.bits)) = false := by
    apply Nat.testBit_lt_two_pow
    calc (j * k + i) / t.bits + 1 < 2 ^ 9 := by omega
      _ ≤ _ := Nat.pow_le_pow_right (by norm_num) h9
  rw [hz]
  simp

def goodWindows (w k : Nat) (ty : RrcType) (rot : Nat) : Nat :=
  (List.range w).countP (fun b => (List.range k).all fun i => decide (9 ≤ fromBit w rot ty ((b * k + i) % w)))

theorem good_16 : ∀ rot < 16, ∀ ty ∈ [RrcType.identity, .reverse, .complement, .reverseComplement], 2 ≤ goodWindows 16 6 ty rot := by decide +kernel
theorem good_32 : ∀ rot < 32, ∀ ty ∈ [RrcType.identity, .reverse, .complement, .reverseComplement],
    4 ≤ goodWindows 32 6 ty rot ∧ 4 ≤ goodWindows 32 7 ty rot := by decide +kernel
theorem good_64 : ∀ rot < 64, ∀ ty ∈ [RrcType.identity, .reverse, .complement, .reverseComplement],
    5 ≤ goodWindows 64 7 ty rot ∧ 5 ≤ goodWindows 64 8 ty rot := by decide +kernel

theorem size_cases (N lo hi : Nat) (k : Nat) (h1 : 29 * (k * 2 ^ k) ≤ N) (h2 : N ≤ 104 * (k * 2 ^ k)) (hlo : lo * 2 ^ lo * 104 < N)
    (hhi : N < 29 * ((hi + 1) * 2 ^ (hi + 1))) : lo < k ∧ k ≤ hi := by
  constructor
  · by_contra hle
    have : k * 2 ^ k ≤ lo * 2 ^ lo := Nat.mul_le_mul (not_lt.1 hle) (Nat.pow_le_pow_right (by norm_num) (not_lt.1 hle))
    omega
  · by_contra hle
    have : (hi + 1) * 2 ^ (hi + 1) ≤ k * 2 ^ k := Nat.mul_le_mul (not_le.1 hle) (Nat.pow_le_pow_right (by norm_num) (not_le.1 hle))
    omega

/-- C134. Every view of a counter of 16, 32 or 64 bits is rejected with 1176 to 1290 words. -/
theorem C134_counter (t : WT) (ht : t ≠ .u8) (ty : RrcType) (rot : Nat) (hrot : rot < t.bits) (n : BitVec 64) (hn1 : 1176 ≤ n.toNat)
    (hn2 : n.toNat ≤ 1290) (s : Stream (BitVec t.bits)) (hs : ∀ i, s.nth i = permute t (BitVec.ofNat t.bits (i + 1)) rot ty) :
    ∃ (k : Nat) (st : Statistic ℝ), permutationTest chi2DistributionCdf n s = .ok [⟨toString k, some st⟩] ∧ st.pValue ≤ 1 / 10 ^ 9 ∧ statPass st = false := by
  have hty : ty ∈ [RrcType.identity, .reverse, .complement, .reverseComplement] := by cases ty <;> decide
  have hw : 0 < t.bits := by cases t <;> decide
  have hN1 : 1176 * t.bits ≤ n.toNat * t.bits := Nat.mul_le_mul_right _ hn1
  have hN2 : n.toNat * t.bits ≤ 1290 * t.bits := Nat.mul_le_mul_right _ hn2
  have hb8 : 8 ≤ t.bits ∧ t.bits ≤ 64 := by cases t <;> decide
  refine frequent_window hw n (by omega) (by omega) s fun k hk1 hk2 => ?_
  have hk0 : 0 < k := by
    rcases Nat.eq_zero_or_pos k with rfl | h
    · omega
    · exact h
  refine ⟨if complements ty then 2 ^ k - 1 else 0, by
    have : 1 ≤ 2 ^ k := Nat.one_le_two_pow
    split <;> omega, ?_⟩
  have hwin := counter_windows t ty rot k (n.toNat * t.bits) (by omega) s.nth hs
  have hN2' : ((n.toNat * t.bits : ℕ) : ℝ) ≤ ((1290 * t.bits : ℕ) : ℝ) := Nat.cast_le.2 hN2
  generalize windowHits s.nth k (n.toNat * t.bits / k) (if complements ty then 2 ^ k - 1 else 0) = H at hwin
  change 511 * t.bits / k / t.bits * goodWindows t.bits k ty rot ≤ H at hwin
  generalize n.toNat * t.bits = N at *
  cases t with
  | u8 => exact absurd rfl ht
  | u16 =>
    have hB : WT.u16.bits = 16 := rfl
    rw [hB] at hwin hN1 hN2 hN2' hrot
    obtain ⟨h1, h2⟩ := size_cases N 5 6 k hk1 hk2 (by omega) (by omega)
    obtain rfl : k = 6 := by omega
    have := good_16 rot hrot ty hty
    refine ⟨170, by norm_num, 1290 * 16 / (6 * 2 ^ 6), ?_, ?_, by norm_num, by norm_num⟩
    · exact le_trans (Nat.mul_le_mul_left (511 * 16 / 6 / 16) this) hwin
    · refine hN2'.trans ?_
      norm_num
  | u32 =>
    have hB : WT.u32.bits = 32 := rfl
    rw [hB] at hwin hN1 hN2 hN2' hrot
    obtain ⟨h1, h2⟩ := size_cases N 5 7 k hk1 hk2 (by omega) (by omega)
    have := good_32 rot hrot ty hty
    obtain rfl | rfl : k = 6 ∨ k = 7 := by omega
    · refine ⟨255, le_rfl, 1290 * 32 / (6 * 2 ^ 6), ?_, ?_, by norm_num, by norm_num⟩
      · exact le_trans (by norm_num) (le_trans (Nat.mul_le_mul_left (511 * 32 / 6 / 32) this.1) hwin)
      · refine hN2'.trans ?_
        norm_num
    · refine ⟨255, le_rfl, 1290 * 32 / (7 * 2 ^ 7), ?_, ?_, by norm_num, by norm_num⟩
      · exact le_trans (by norm_num) (le_trans (Nat.mul_le_mul_left (511 * 32 / 7 / 32) this.2) hwin)
      · refine hN2'.trans ?_
        norm_num
  | u64 =>
    have hB : WT.u64.bits = 64 := rfl
    rw [hB] at hwin hN1 hN2 hN2' hrot
    obtain ⟨h1, h2⟩ := size_cases N 6 8 k hk1 hk2 (by omega) (by omega)
    have := good_64 rot hrot ty hty
    obtain rfl | rfl : k = 7 ∨ k = 8 := by omega
    · refine ⟨255, le_rfl, 1290 * 64 / (7 * 2 ^ 7), ?_, ?_, by norm_num, by norm_num⟩
      · exact le_trans (by norm_num) (le_trans (Nat.mul_le_mul_left (511 * 64 / 7 / 64) this.1) hwin)
      · refine hN2'.trans ?_
        norm_num
    · refine ⟨255, le_rfl, 1290 * 64 / (8 * 2 ^ 8), ?_, ?_, by norm_num, by norm_num⟩
      · exact le_trans (by norm_num) (le_trans (Nat.mul_le_mul_left (511 * 64 / 8 / 64) this.2) hwin)
      · refine hN2'.trans ?_
        norm_num

/-! ### The self-check -/

theorem rpow_root (k a b : Nat) (hb : 0 < b) : (((2 : ℝ) ^ k) ^ ((a : ℝ) / b)) ^ b = 2 ^ (a * k) := by
  have hb' : (b : ℝ) ≠ 0 := by exact_mod_cast hb.ne'
  rw [← Real.rpow_natCast, ← Real.rpow_mul (by positivity), div_mul_cancel₀ _ hb', Real.rpow_natCast, ← pow_mul, Nat.mul_comm]

theorem le_rpow_of (k a b m : Nat) (hb : 0 < b) (e : ℝ) (he : (a : ℝ) / b ≤ e) (h : m ^ b ≤ 2 ^ (a * k)) : (m : ℝ) ≤ ((2 : ℝ) ^ k) ^ e := by
  refine le_trans ?_ (Real.rpow_le_rpow_of_exponent_le (one_le_pow₀ (by norm_num)) he)
  refine le_of_pow_le_pow_left₀ (n := b) hb.ne' (by positivity) ?_
  rw [rpow_root k a b hb]
  have h' : ((m ^ b : ℕ) : ℝ) ≤ ((2 ^ (a * k) : ℕ) : ℝ) := Nat.cast_le.2 h
  rw [Nat.cast_pow, Nat.cast_pow] at h'
  exact h'

theorem rpow_lt_of (k a b M : Nat) (hb : 0 < b) (e : ℝ) (he : e ≤ (a : ℝ) / b) (h : 2 ^ (a * k) < M ^ b) : ((2 : ℝ) ^ k) ^ e < M := by
  refine lt_of_le_of_lt (Real.rpow_le_rpow_of_exponent_le (one_le_pow₀ (by norm_num)) he) ?_
  refine lt_of_pow_lt_pow_left₀ b (by positivity) ?_
  rw [rpow_root k a b hb]
  have h' : ((2 ^ (a * k) : ℕ) : ℝ) < ((M ^ b : ℕ) : ℝ) := Nat.cast_lt.2 h
  rw [Nat.cast_pow, Nat.cast_pow] at h'
  exact h'

/-- The slow budget between `2^(17k/20)` and `2^(31k/36)`. -/
theorem slow_between (k : Nat) (hk : k < 64) (m M : Nat) (hm : 1024 ≤ m) (h1 : m ^ 20 ≤ 2 ^ (17 * k)) (h2 : 2 ^ (31 * k) < (M + 1) ^ 36) :
    ∃ n', limitNSlow (BitVec.ofNat 64 (2 ^ k)) = some n' ∧ m ≤ n'.toNat ∧ n'.toNat ≤ M := by
  have hnat : (BitVec.ofNat 64 (2 ^ k)).toNat = 2 ^ k := by
    rw [BitVec.toNat_ofNat, Nat.mod_eq_of_lt (Nat.pow_lt_pow_right (by norm_num) hk)]
  have hcast : (((2 ^ k : ℕ) : ℝ)) = (2 : ℝ) ^ k := by push_cast; rfl
  have hlow : (m : ℝ) ≤ ((2 : ℝ) ^ k) ^ expSlow := le_rpow_of k 17 20 m (by norm_num) _ (by unfold expSlow; norm_num) h1
  have hup : ((2 : ℝ) ^ k) ^ expSlow < ((M + 1 : ℕ) : ℝ) := rpow_lt_of k 31 36 (M + 1) (by norm_num) _ (by unfold expSlow; norm_num) h2
  clear h1 h2
  rw [← hcast] at hlow hup
  have hfl : m ≤ ⌊((2 ^ k : ℕ) : ℝ) ^ expSlow⌋₊ := Nat.le_floor hlow
  have hfu : ⌊((2 ^ k : ℕ) : ℝ) ^ expSlow⌋₊ < M + 1 := (Nat.floor_lt (by positivity)).2 hup
  have hb : Spec.budget .permutation (BitVec.ofNat 64 (2 ^ k)).toNat = some ⌊((2 ^ k : ℕ) : ℝ) ^ expSlow⌋₊ := by
    rw [hnat]
    show (if 1024 ≤ ⌊((2 ^ k : ℕ) : ℝ) ^ expSlow⌋₊ then some ⌊((2 ^ k : ℕ) : ℝ) ^ expSlow⌋₊ else none) = _
    rw [if_pos (hm.trans hfl)]
  have hl := (C40_catalogue .permutation (BitVec.ofNat 64 (2 ^ k))).1.trans hb
  obtain ⟨n', h4, h5⟩ := Option.map_eq_some_iff.1 hl
  refine ⟨n', h4, by rw [h5]; exact hfl, by rw [h5]; exact Nat.le_of_lt_succ hfu⟩

theorem periodic_bits (hw : 0 < w) (v : Nat → BitVec w) (P : Nat) (h : ∀ i, v (i + P) = v i) (q : Nat) : streamBit v (q + P * w) = streamBit v q := by
  unfold streamBit
  rw [Nat.add_mul_div_right _ _ hw, Nat.add_mul_mod_self_right, h]

/-- C134. The self-check prints `PASS` for the permutation test. -/
theorem C134_self_check (t : WT) (hw : BitVec 32) (analyse : Battery ℝ → List ResultAnalysis) (ha : Analyses analyse)
    (eval : TestRow → Stream (BitVec t.bits) → BitVec 64 → Battery ℝ) (h : SelfCheckRuns t hw eval) (sources : List (Stream (BitVec t.bits)))
    (hs : createFailSources t = .ok sources) (lines : List InspectLine) (hl : inspectTests t analyse eval sources false = .ok lines) :
    lines.filter (fun l => decide (lineTest l = "permutation")) = [.pass "permutation"] := by
  have hth := defaultMaxThreads_pos hw
  have hb8 : 8 ≤ t.bits ∧ t.bits ≤ 64 := by cases t <;> decide
  refine pass_of_none t hw analyse ha eval h sources lines hl ⟨.permutation, true, false, .slow, "permutation"⟩ (by decide) fun s hmem => ?_
  rw [if_neg (by decide)] at hmem
  obtain ⟨ty, rot, hrot, hsrc⟩ := fail_source_cases t sources hs s hmem
  have hrej : ∃ e, 10 ≤ e ∧ e ≤ 25 ∧ ∃ n', limitNSlow (BitVec.ofNat 64 (2 ^ e)) = some n' ∧ ∃ (k : Nat) (st : Statistic ℝ),
      permutationTest chi2DistributionCdf n' (mixerStream s ⟨"identity", fun x => x⟩) = .ok [⟨toString k, some st⟩] ∧ st.pValue ≤ 1 / 10 ^ 9 := by
    rcases hsrc with rfl | ⟨c, rfl⟩
    · have hnth : ∀ i, (mixerStream (addRrc t (counterStream t.bits 1 0) rot ty) ⟨"identity", fun x => x⟩).nth i =
          permute t (BitVec.ofNat t.bits (i + 1)) rot ty := fun i => mixed_nth t ⟨"identity", fun x => x⟩ ty rot i
      by_cases ht : t = .u8
      · subst ht
        obtain ⟨n', h1, h2, h3⟩ := slow_between 25 (by norm_num) 2000000 4194304 (by norm_num) (by decide +kernel) (by decide +kernel)
        refine ⟨25, by norm_num, le_rfl, n', h1, ?_⟩
        have hB : WT.u8.bits = 8 := rfl
        obtain ⟨k, st, g1, g2, -⟩ := C134_periodic (w := 8) (by norm_num) n' (by omega) (by omega)
          (mixerStream (addRrc .u8 (counterStream WT.u8.bits 1 0) rot ty) ⟨"identity", fun x => x⟩) 11 (by norm_num; omega) (by
            intro q
            refine periodic_bits (w := 8) (by norm_num) _ 256 (fun i => ?_) q
            refine (hnth _).trans ((hnth i).symm ▸ ?_)
            congr 1
            apply BitVec.eq_of_toNat_eq
            rw [BitVec.toNat_ofNat, BitVec.toNat_ofNat]
            show (i + 256 + 1) % 2 ^ 8 = (i + 1) % 2 ^ 8
            omega)
        exact ⟨k, st, g1, g2⟩
      · obtain ⟨n', h1, h2, h3⟩ := slow_between 12 (by norm_num) 1176 1290 (by norm_num) (by norm_num) (by decide +kernel)
        obtain ⟨k, st, g1, g2, -⟩ := C134_counter t ht ty rot hrot n' h2 h3 _ hnth
        exact ⟨12, by norm_num, by norm_num, n', h1, k, st, g1, g2⟩
    · obtain ⟨n', h1, h2, h3⟩ := slow_budget 25 (by norm_num) 200000 (by norm_num) (by norm_num)
      refine ⟨25, by norm_num, le_rfl, n', h1, ?_⟩
      have hN : 200000 * t.bits ≤ n'.toNat * t.bits := Nat.mul_le_mul_right _ h2
      have hN2 : n'.toNat * t.bits ≤ 2 ^ 25 * t.bits := Nat.mul_le_mul_right _ h3
      obtain ⟨m, hm, hm6⟩ : ∃ m, t.bits = 2 ^ m ∧ m ≤ 6 := by
        cases t
        · exact ⟨3, by decide, by norm_num⟩
        · exact ⟨4, by decide, by norm_num⟩
        · exact ⟨5, by decide, by norm_num⟩
        · exact ⟨6, by decide, by norm_num⟩
      obtain ⟨k, st, g1, g2, -⟩ := C134_periodic (by omega) n' (by omega) (by omega)
          (mixerStream (addRrc t (constantStream c) rot ty) ⟨"identity", fun x => x⟩) m (by
            have : m * 2 ^ m ≤ 6 * t.bits := by rw [hm]; exact Nat.mul_le_mul_right _ hm6
            omega) (by
            intro q
            rw [← hm]
            have := periodic_bits (by omega) (mixerStream (addRrc t (constantStream c) rot ty) ⟨"identity", fun x => x⟩).nth 1
              (fun i => by rw [view_constant, view_constant]) q
            rwa [one_mul] at this)
      exact ⟨k, st, g1, g2⟩
  obtain ⟨e, he1, he2, n', h1, k, st, g1, g2⟩ := hrej
  refine not_accepted _ e he1 he2 ?_
  refine battery_rejects chi2DistributionCdf .permutation _ (inspectSetup (defaultMaxThreads hw) ⟨.permutation, true, false, .slow, "permutation"⟩ s)
    (by show 0 < defaultMaxThreads hw; omega) _ (h _ s e he1 he2) List.mem_cons_self s List.mem_cons_self _ rfl [⟨toString k, some st⟩] ?_ _ st
    List.mem_cons_self g2
  dsimp only
  rw [show (getTestDefinition .permutation).limiter.limit (BitVec.ofNat 64 (2 ^ e)) = some n' from h1]
  exact congrArg some g1

-- C134, non-vacuity: a constant of 64 bits repeats its bits with period `2^6`; 1000 of them are enough.  Views of a counter exist.
example (c : BitVec 64) : 2 ^ 13 ≤ (1000#64).toNat * 64 ∧ (1000#64).toNat * 64 < 2 ^ 64 ∧ 104 * (6 * 2 ^ 6) < (1000#64).toNat * 64 ∧
    (∀ q, streamBit (constantStream c).nth (q + 2 ^ 6) = streamBit (constantStream c).nth q) ∧
    ∃ s : Stream (BitVec WT.u16.bits), ∀ i, s.nth i = permute .u16 (BitVec.ofNat WT.u16.bits (i + 1)) 5 .reverse := by
  refine ⟨by decide, by decide, by decide, fun q => ?_, mixerStream (addRrc .u16 (counterStream WT.u16.bits 1 0) 5 .reverse) ⟨"identity", fun x => x⟩,
    fun i => mixed_nth .u16 ⟨"identity", fun x => x⟩ .reverse 5 i⟩
  exact periodic_bits (w := 64) (by norm_num) _ 1 (fun i => by rw [constantStream_nth, constantStream_nth]) q

-- C134, non-vacuity: the sources exist for every size, and so do runs of the self-check on them.
example (t : WT) (hw : BitVec 32) (analyse : Battery ℝ → List ResultAnalysis) (ha : Analyses analyse) :
    ∃ sources eval lines, createFailSources t = .ok sources ∧ SelfCheckRuns t hw eval ∧ inspectTests t analyse eval sources false = .ok lines := by
  obtain ⟨c, s0, s1, s2, s3, hs, -⟩ := C97_fail_sources t
  choose f hf using fun (test : TestRow) (s : Stream (BitVec t.bits)) n =>
    C35_terminates (suiteDef chi2DistributionCdf) n (inspectSetup (defaultMaxThreads hw) test s)
  exact ⟨_, f, _, hs, fun test s k _ _ => hf test s _, (C97_inspect chi2DistributionCdf t hw analyse ha f (fun test s k _ _ => hf test s _) _).1⟩

end TFR
