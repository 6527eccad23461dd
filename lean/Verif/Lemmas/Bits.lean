import Verif.Model.Bits
import Mathlib.Tactic.IntervalCases
import Mathlib.Algebra.BigOperators.Group.Finset.Basic
import Mathlib.Algebra.BigOperators.Group.List.Basic
import Mathlib.Tactic.Ring
import Mathlib.Data.List.GetD
import Mathlib.Tactic.Linarith
import Mathlib.Order.Bounds.Basic

namespace TFR

theorem getLsbD_rotrPos {w : Nat} (x : BitVec w) (n i : Nat) (hn : n < w) (hi : i < w) :
    (rotrPos x n).getLsbD i = x.getLsbD ((i + n) % w) := by
  unfold rotrPos
  simp only [BitVec.getLsbD_or, BitVec.getLsbD_ushiftRight, BitVec.getLsbD_shiftLeft, hi, decide_true,
    Bool.true_and]
  by_cases h : i + n < w
  · rw [Nat.mod_eq_of_lt h]
    have : i < w - n := by omega
    simp [this, Nat.add_comm]
  · have h2 : (i + n) % w = i - (w - n) := by
      rw [Nat.mod_eq_sub_mod (by omega), Nat.mod_eq_of_lt (by omega)]; omega
    rw [h2, BitVec.getLsbD_of_ge x (n + i) (by omega)]
    have : ¬ i < w - n := by omega
    simp [this]

theorem getLsbD_rotlPos {w : Nat} (x : BitVec w) (n i : Nat) (hn : n < w) (hn0 : 0 < n) (hi : i < w) :
    (rotlPos x n).getLsbD i = x.getLsbD ((i + (w - n)) % w) := by
  have : rotlPos x n = rotrPos x (w - n) := by
    unfold rotlPos rotrPos
    rw [BitVec.or_comm, Nat.sub_sub_self (by omega)]
  rw [this, getLsbD_rotrPos x (w - n) i (by omega) hi]

theorem getLsbD_ror {w : Nat} (x : BitVec w) (r : Int) (i : Nat) (hi : i < w) :
    (ror x r).getLsbD i = x.getLsbD (((i : Int) + r) % w).toNat := by
  have hw : (0 : Int) < w := by omega
  have hemod : (r.tmod w) % (w : Int) = r % w := by
    rw [Int.tmod_eq_emod]; split <;> simp
  have hlt : r.tmod w < w := Int.tmod_lt_of_pos r hw
  have hgt : -(w : Int) < r.tmod w := by
    have := Int.lt_tmod_of_pos r hw; omega
  have key : ((i : Int) + r) % w = ((i : Int) + r.tmod w) % w := by
    rw [Int.add_emod, ← hemod, ← Int.add_emod]
  rw [key]
  unfold ror
  generalize r.tmod w = m at *
  simp only
  split
  · next h => subst h; simp [Int.emod_eq_of_lt (by omega : (0:Int) ≤ i) (by omega : (i:Int) < w)]
  · split
    · rw [getLsbD_rotrPos _ _ _ (by omega) hi]
      congr 1
      have : ((i : Int) + m) = ((i + m.toNat : Nat) : Int) := by omega
      rw [this, ← Int.natCast_emod, Int.toNat_natCast]
    · rw [getLsbD_rotlPos _ _ _ (by omega) (by omega) hi]
      congr 1
      have : ((i : Int) + m) = ((i + (w - (-m).toNat) : Nat) : Int) - w := by omega
      rw [this, Int.sub_emod_right, ← Int.natCast_emod, Int.toNat_natCast]

theorem rol_eq_ror {w : Nat} (x : BitVec w) (r : Int) : rol x r = ror x (-r) := by
  unfold rol ror
  simp only [Int.neg_tmod, Int.neg_eq_zero, Int.neg_pos, Int.neg_neg]
  split
  · rfl
  · split
    · rw [if_neg (by omega)]
    · rw [if_pos (by omega)]

theorem getLsbD_rol {w : Nat} (x : BitVec w) (r : Int) (i : Nat) (hi : i < w) :
    (rol x r).getLsbD i = x.getLsbD (((i : Int) - r) % w).toNat := by
  rw [rol_eq_ror, getLsbD_ror x (-r) i hi, Int.sub_eq_add_neg]

theorem ror_ror {w : Nat} (x : BitVec w) (a b : Int) : ror (ror x a) b = ror x (a + b) := by
  apply BitVec.eq_of_getLsbD_eq
  intro i hi
  have hw : (0 : Int) < w := by omega
  have h1 := Int.emod_nonneg ((i : Int) + b) (b := w) (by omega)
  have h2 := Int.emod_lt_of_pos ((i : Int) + b) hw
  rw [getLsbD_ror _ _ _ hi, getLsbD_ror _ _ _ (by omega), getLsbD_ror _ _ _ hi]
  congr 2
  rw [Int.toNat_of_nonneg h1, Int.emod_add_emod]
  congr 1; ring

theorem ror_zero {w : Nat} (x : BitVec w) : ror x 0 = x := by simp [ror]

theorem ror_congr {w : Nat} (x : BitVec w) (a b : Int) (h : a % w = b % w) : ror x a = ror x b := by
  apply BitVec.eq_of_getLsbD_eq
  intro i hi
  rw [getLsbD_ror _ _ _ hi, getLsbD_ror _ _ _ hi, Int.add_emod, h, ← Int.add_emod]

theorem ror_rol {w : Nat} (x : BitVec w) (a : Int) : ror (rol x a) a = x := by
  rw [rol_eq_ror, ror_ror, Int.add_left_neg, ror_zero]

theorem rol_ror {w : Nat} (x : BitVec w) (a : Int) : rol (ror x a) a = x := by
  rw [rol_eq_ror, ror_ror, Int.add_right_neg, ror_zero]

theorem foldl_add_count {α : Type} (p : α → Bool) (l : List α) (a : Nat) :
    l.foldl (fun acc i => acc + (if p i then 1 else 0)) a = a + l.countP p := by
  induction l generalizing a with
  | nil => simp
  | cons x xs ih => simp [ih, List.countP_cons]; split <;> omega

theorem bitCount_eq_countP {w : Nat} (x : BitVec w) :
    bitCount x = (List.range w).countP (fun i => x.getLsbD i) := by
  simp [bitCount, foldl_add_count]

theorem bitCount_eq_card {w : Nat} (x : BitVec w) :
    bitCount x = ((Finset.range w).filter (fun i => x.getLsbD i = true)).card := by
  rw [bitCount_eq_countP, List.countP_eq_length_filter]
  simp [Finset.card, Finset.filter, Finset.range, Multiset.range]

/-- Bit swap at distance `k` using a mask which selects the lower partner of each pair. -/
theorem getLsbD_swap {w : Nat} (x m : BitVec w) (k i : Nat) (hi : i < w)
    (f : Nat → Nat)
    (h1 : m.getLsbD i = true → i + k < w ∧ f i = i + k)
    (h2 : m.getLsbD i = false → k ≤ i ∧ m.getLsbD (i - k) = true ∧ f i = i - k)
    (h3 : m.getLsbD i = true → k ≤ i → m.getLsbD (i - k) = false) :
    (((x >>> k) &&& m) ||| ((x &&& m) <<< k)).getLsbD i = x.getLsbD (f i) := by
  simp only [BitVec.getLsbD_or, BitVec.getLsbD_and, BitVec.getLsbD_ushiftRight,
    BitVec.getLsbD_shiftLeft, hi, decide_true, Bool.true_and]
  cases hm : m.getLsbD i
  · obtain ⟨hk, hmk, hf⟩ := h2 hm
    have : ¬ i < k := by omega
    simp [this, hmk, hf]
  · obtain ⟨_, hf⟩ := h1 hm
    by_cases hk : i < k
    · simp [hk, hf, Nat.add_comm]
    · have := h3 hm (by omega)
      simp [this, hf, Nat.add_comm]

/-- Bit swap at distance `k` with both masks given. -/
theorem getLsbD_swap' {w : Nat} (x m m' : BitVec w) (k i : Nat) (hi : i < w)
    (f : Nat → Nat)
    (h1 : m.getLsbD i = true → m'.getLsbD (k + i) = true ∧ f i = k + i)
    (h2 : m.getLsbD i = false → m'.getLsbD (k + i) = false ∧ k ≤ i ∧ m.getLsbD (i - k) = true ∧ f i = i - k)
    (h3 : m.getLsbD i = true → k ≤ i → m.getLsbD (i - k) = false) :
    (((x &&& m') >>> k) ||| ((x &&& m) <<< k)).getLsbD i = x.getLsbD (f i) := by
  simp only [BitVec.getLsbD_or, BitVec.getLsbD_and, BitVec.getLsbD_ushiftRight,
    BitVec.getLsbD_shiftLeft, hi, decide_true, Bool.true_and]
  cases hm : m.getLsbD i
  · obtain ⟨hk', hk, hmk, hf⟩ := h2 hm
    have : ¬ i < k := by omega
    simp [this, hmk, hf, hk']
  · obtain ⟨hk', hf⟩ := h1 hm
    by_cases hk : i < k
    · simp [hk, hf, hk']
    · have := h3 hm (by omega)
      simp [this, hf, hk']

theorem getLsbD_half {w : Nat} (x : BitVec w) (k i : Nat) (hw : w = k + k) (hi : i < w) :
    ((x >>> k) ||| (x <<< k)).getLsbD i = x.getLsbD (if i < k then i + k else i - k) := by
  simp only [BitVec.getLsbD_or, BitVec.getLsbD_ushiftRight,
    BitVec.getLsbD_shiftLeft, hi, decide_true, Bool.true_and]
  by_cases h : i < k
  · simp [h, Nat.add_comm]
  · rw [BitVec.getLsbD_of_ge x (k + i) (by omega)]
    simp [h]


theorem getLsbD_reverseBits8 (x : BitVec 8) (i : Nat) (hi : i < 8) :
    (reverseBits8 x).getLsbD i = x.getLsbD (7 - i) := by
  have key : ∀ n : Fin 256, ∀ i : Fin 8,
      (reverseBits8 (BitVec.ofFin n)).getLsbD i = (BitVec.ofFin (w := 8) n).getLsbD (7 - i) := by
    decide +kernel
  exact key x.toFin ⟨i, hi⟩

/-- Exchange within aligned pairs of blocks of length `k`. -/
def swapIdx (k i : Nat) : Nat := if i / k % 2 = 0 then i + k else i - k

theorem getLsbD_reverseBits16 (x : BitVec 16) (i : Nat) (hi : i < 16) :
    (reverseBits16 x).getLsbD i = x.getLsbD (15 - i) := by
  have stage : ∀ (m : BitVec 16) (k : Nat),
      (∀ i : Fin 16,
        (m.getLsbD i = true → i + k < 16 ∧ swapIdx k i = i + k) ∧
        (m.getLsbD i = false → k ≤ i ∧ m.getLsbD (i - k) = true ∧ swapIdx k i = i - k) ∧
        (m.getLsbD i = true → k ≤ i → m.getLsbD (i - k) = false) ∧ swapIdx k i < 16) →
      ∀ (x : BitVec 16) (i : Nat), i < 16 →
        (((x >>> k) &&& m) ||| ((x &&& m) <<< k)).getLsbD i = x.getLsbD (swapIdx k i) ∧
        swapIdx k i < 16 := by
    intro m k h x i hi
    obtain ⟨a, b, c, d⟩ := h ⟨i, hi⟩
    exact ⟨getLsbD_swap x m k i hi _ a b c, d⟩
  have s1 := stage 0x5555#16 1 (by decide +kernel)
  have s2 := stage 0x3333#16 2 (by decide +kernel)
  have s3 := stage 0x0F0F#16 4 (by decide +kernel)
  unfold reverseBits16
  simp only
  have h0 : (if i < 8 then i + 8 else i - 8) < 16 := by split <;> omega
  rw [getLsbD_half _ 8 i rfl hi, (s3 _ _ h0).1, (s2 _ _ (s3 0 _ h0).2).1,
    (s1 _ _ (s2 0 _ (s3 0 _ h0).2).2).1]
  congr 1
  have : ∀ i : Fin 16, swapIdx 1 (swapIdx 2 (swapIdx 4 (if i.1 < 8 then i.1 + 8 else i.1 - 8))) = 15 - i := by
    decide +kernel
  exact this ⟨i, hi⟩

theorem getLsbD_reverseBits32 (x : BitVec 32) (i : Nat) (hi : i < 32) :
    (reverseBits32 x).getLsbD i = x.getLsbD (31 - i) := by
  have stage : ∀ (m : BitVec 32) (k : Nat),
      (∀ i : Fin 32,
        (m.getLsbD i = true → i + k < 32 ∧ swapIdx k i = i + k) ∧
        (m.getLsbD i = false → k ≤ i ∧ m.getLsbD (i - k) = true ∧ swapIdx k i = i - k) ∧
        (m.getLsbD i = true → k ≤ i → m.getLsbD (i - k) = false) ∧ swapIdx k i < 32) →
      ∀ (x : BitVec 32) (i : Nat), i < 32 →
        (((x >>> k) &&& m) ||| ((x &&& m) <<< k)).getLsbD i = x.getLsbD (swapIdx k i) ∧
        swapIdx k i < 32 := by
    intro m k h x i hi
    obtain ⟨a, b, c, d⟩ := h ⟨i, hi⟩
    exact ⟨getLsbD_swap x m k i hi _ a b c, d⟩
  have s1 := stage 0x55555555#32 1 (by decide +kernel)
  have s2 := stage 0x33333333#32 2 (by decide +kernel)
  have s3 := stage 0x0F0F0F0F#32 4 (by decide +kernel)
  have s4 := stage 0x00FF00FF#32 8 (by decide +kernel)
  unfold reverseBits32
  simp only
  have h0 : (if i < 16 then i + 16 else i - 16) < 32 := by split <;> omega
  have h1 := (s4 0 _ h0).2
  have h2 := (s3 0 _ h1).2
  have h3 := (s2 0 _ h2).2
  rw [getLsbD_half _ 16 i rfl hi, (s4 _ _ h0).1, (s3 _ _ h1).1, (s2 _ _ h2).1, (s1 _ _ h3).1]
  congr 1
  have : ∀ i : Fin 32, swapIdx 1 (swapIdx 2 (swapIdx 4 (swapIdx 8
      (if i.1 < 16 then i.1 + 16 else i.1 - 16)))) = 31 - i := by
    decide +kernel
  exact this ⟨i, hi⟩

theorem getLsbD_reverseBits64 (x : BitVec 64) (i : Nat) (hi : i < 64) :
    (reverseBits64 x).getLsbD i = x.getLsbD (63 - i) := by
  have stage : ∀ (m' m : BitVec 64) (k : Nat),
      (∀ i : Fin 64,
        (m.getLsbD i = true → m'.getLsbD (k + i) = true ∧ swapIdx k i = k + i) ∧
        (m.getLsbD i = false → m'.getLsbD (k + i) = false ∧ k ≤ i ∧ m.getLsbD (i - k) = true ∧
          swapIdx k i = i - k) ∧
        (m.getLsbD i = true → k ≤ i → m.getLsbD (i - k) = false) ∧ swapIdx k i < 64) →
      ∀ (x : BitVec 64) (i : Nat), i < 64 →
        (((x &&& m') >>> k) ||| ((x &&& m) <<< k)).getLsbD i = x.getLsbD (swapIdx k i) ∧
        swapIdx k i < 64 := by
    intro m' m k h x i hi
    obtain ⟨a, b, c, d⟩ := h ⟨i, hi⟩
    exact ⟨getLsbD_swap' x m m' k i hi _ a b c, d⟩
  have s1 := stage 0xaaaaaaaaaaaaaaaa#64 0x5555555555555555#64 1 (by decide +kernel)
  have s2 := stage 0xcccccccccccccccc#64 0x3333333333333333#64 2 (by decide +kernel)
  have s3 := stage 0xf0f0f0f0f0f0f0f0#64 0x0f0f0f0f0f0f0f0f#64 4 (by decide +kernel)
  have s4 := stage 0xff00ff00ff00ff00#64 0x00ff00ff00ff00ff#64 8 (by decide +kernel)
  have s5 := stage 0xffff0000ffff0000#64 0x0000ffff0000ffff#64 16 (by decide +kernel)
  unfold reverseBits64
  simp only
  have h0 : (if i < 32 then i + 32 else i - 32) < 64 := by split <;> omega
  have h1 := (s5 0 _ h0).2
  have h2 := (s4 0 _ h1).2
  have h3 := (s3 0 _ h2).2
  have h4 := (s2 0 _ h3).2
  rw [getLsbD_half _ 32 i rfl hi, (s5 _ _ h0).1, (s4 _ _ h1).1, (s3 _ _ h2).1, (s2 _ _ h3).1,
    (s1 _ _ h4).1]
  congr 1
  have : ∀ i : Fin 64, swapIdx 1 (swapIdx 2 (swapIdx 4 (swapIdx 8 (swapIdx 16
      (if i.1 < 32 then i.1 + 32 else i.1 - 32))))) = 63 - i := by
    decide +kernel
  exact this ⟨i, hi⟩

theorem getLsbD_reverseBits (t : WT) (x : BitVec t.bits) (i : Nat) (hi : i < t.bits) :
    (reverseBits t x).getLsbD i = x.getLsbD (t.bits - 1 - i) := by
  cases t
  · exact getLsbD_reverseBits8 x i hi
  · exact getLsbD_reverseBits16 x i hi
  · exact getLsbD_reverseBits32 x i hi
  · exact getLsbD_reverseBits64 x i hi

theorem reverseBits_reverseBits (t : WT) (x : BitVec t.bits) :
    reverseBits t (reverseBits t x) = x := by
  apply BitVec.eq_of_getLsbD_eq
  intro i hi
  rw [getLsbD_reverseBits t _ i hi, getLsbD_reverseBits t _ _ (by omega)]
  congr 1; omega

theorem getLsbD_byteSwap64 (x : BitVec 64) (i : Nat) (hi : i < 64) :
    (byteSwap64 x).getLsbD i = x.getLsbD (8 * (7 - i / 8) + i % 8) := by
  unfold byteSwap64
  simp only [BitVec.getLsbD_or, BitVec.getLsbD_and, BitVec.getLsbD_ushiftRight,
    BitVec.getLsbD_shiftLeft, hi, decide_true, Bool.true_and]
  interval_cases i <;> simp

theorem testBit_fromBytes (l : List (BitVec 8)) (i : Nat) :
    (l.foldr (fun (b : BitVec 8) (acc : Nat) => b.toNat + 256 * acc) 0).testBit i =
      (l.getD (i / 8) 0).getLsbD (i % 8) := by
  induction l generalizing i with
  | nil => simp
  | cons b l ih =>
    simp only [List.foldr_cons]
    have hb : b.toNat < 2 ^ 8 := b.isLt
    rw [show ∀ z : Nat, b.toNat + 256 * z = 2 ^ 8 * z + b.toNat by intro z; ring]
    rw [Nat.testBit_two_pow_mul_add _ hb]
    split
    · next h =>
      have : i / 8 = 0 := by omega
      rw [this, Nat.mod_eq_of_lt h]; simp [BitVec.getLsbD]
    · next h =>
      rw [ih]
      have h1 : i / 8 = (i - 8) / 8 + 1 := by omega
      have h2 : i % 8 = (i - 8) % 8 := by omega
      rw [h1, h2]; simp

theorem getLsbD_byteswap (n : Nat) (x : BitVec (8 * n)) (i : Nat) (hi : i < 8 * n) :
    (byteswap n x).getLsbD i = x.getLsbD (8 * (n - 1 - i / 8) + i % 8) := by
  unfold byteswap fromBytes
  rw [BitVec.getLsbD_ofNat, testBit_fromBytes]
  have h1 : i / 8 < n := by omega
  have hlen : (toBytes n x).length = n := by simp [toBytes]
  simp only [hi, decide_true, Bool.true_and]
  rw [List.getD_eq_getElem?_getD, List.getElem?_reverse (by omega), hlen]
  have : n - 1 - i / 8 < n := by omega
  simp only [toBytes, List.getElem?_map, List.getElem?_range this, Option.map_some, Option.getD_some]
  rw [BitVec.getLsbD_extractLsb']
  have : i % 8 < 8 := by omega
  simp [this]

theorem getLsbD_flip {w : Nat} (v : BitVec w) (b : Nat) (hb : b < 64) (i : Nat) (hi : i < w) :
    (((v.setWidth 64) ^^^ ((1#64) <<< b)).setWidth w).getLsbD i =
      ((decide (i < 64) && v.getLsbD i) ^^ decide (i = b)) := by
  simp only [BitVec.getLsbD_setWidth, hi, decide_true, Bool.true_and, BitVec.getLsbD_xor,
    BitVec.getLsbD_shiftLeft]
  by_cases h : i < b
  · have : i ≠ b := by omega
    simp [h, this]
  · by_cases h2 : i = b
    · subst h2; simp [hb]
    · have h3 : i - b ≠ 0 := by omega
      simp only [h, h2, BitVec.getLsbD_one, h3]
      simp

theorem countlZero_go_le {w : Nat} (x : BitVec w) (n : Nat) : countlZero.go x n ≤ n := by
  induction n with
  | zero => simp [countlZero.go]
  | succ n ih => simp only [countlZero.go]; split <;> omega

theorem countlZero_go_spec {w : Nat} (x : BitVec w) (n : Nat) :
    (∀ i, n - countlZero.go x n ≤ i → i < n → x.getLsbD i = false) ∧
    (countlZero.go x n < n → x.getLsbD (n - countlZero.go x n - 1) = true) := by
  induction n with
  | zero => simp
  | succ n ih =>
    have hle := countlZero_go_le x n
    simp only [countlZero.go]
    split
    · next h => exact ⟨fun i _ _ => by omega, fun _ => by simpa using h⟩
    · next h =>
      refine ⟨fun i h1 h2 => ?_, fun h1 => ?_⟩
      · by_cases hi : i = n
        · subst hi; simpa using h
        · exact ih.1 i (by omega) (by omega)
      · have := ih.2 (by omega)
        rwa [show n + 1 - (countlZero.go x n + 1) - 1 = n - countlZero.go x n - 1 by omega]

theorem bitWidth_le {w : Nat} (x : BitVec w) : bitWidth x ≤ w := Nat.sub_le _ _

theorem bitWidth_spec {w : Nat} (x : BitVec w) (k : Nat) : bitWidth x ≤ k ↔ x.toNat < 2 ^ k := by
  have hs := countlZero_go_spec x w
  have hle := countlZero_go_le x w
  constructor
  · intro h
    apply Nat.lt_pow_two_of_testBit
    intro i hi
    by_cases hw : i < w
    · exact hs.1 i (by unfold bitWidth countlZero at h; omega) hw
    · exact BitVec.getLsbD_of_ge x i (by omega)
  · intro h
    by_contra hk
    unfold bitWidth countlZero at hk
    have := hs.2 (by omega)
    rw [BitVec.getLsbD, Nat.testBit_lt_two_pow] at this
    · simp at this
    · exact lt_of_lt_of_le h (Nat.pow_le_pow_right (by omega) (by omega))

end TFR
