import Verif.Lemmas.Bits
/-
C01 - C05: core/src/util/bitwise.h, word operations.
Specifications are given directly through `BitVec.getLsbD x i` ("bit i of x").
-/
namespace TFR

/-! ### C01 rotations -/

/-- Bit `i` of `ror(v, r)` is bit `(i + r) mod w` of `v`; in particular for `0 ≤ r < w`, but also for
every other `int`. -/
theorem C01_ror_bit {w : Nat} (v : BitVec w) (r : Int) (i : Nat) (hi : i < w) :
    (ror v r).getLsbD i = v.getLsbD (((i : Int) + r) % w).toNat := getLsbD_ror v r i hi

theorem C01_ror_bit_nat {w : Nat} (v : BitVec w) (r i : Nat) (hi : i < w) :
    (ror v r).getLsbD i = v.getLsbD ((i + r) % w) := by
  rw [C01_ror_bit v r i hi]; congr 1

/-- Bit `(i + r) mod w` of `rol(v, r)` is bit `i` of `v`. -/
theorem C01_rol_bit_nat {w : Nat} (v : BitVec w) (r i : Nat) (hi : i < w) :
    (rol v r).getLsbD ((i + r) % w) = v.getLsbD i := by
  have hw : 0 < w := by omega
  rw [getLsbD_rol v r _ (Nat.mod_lt _ hw)]
  congr 1
  push_cast
  rw [Int.emod_sub_emod, Int.add_sub_cancel, Int.emod_eq_of_lt (by omega) (by omega)]
  simp

theorem C01_ror_rol {w : Nat} (v : BitVec w) (r : Int) : ror (rol v r) r = v := ror_rol v r
theorem C01_rol_ror {w : Nat} (v : BitVec w) (r : Int) : rol (ror v r) r = v := rol_ror v r

/-- Rotating by `a`, then by `b`, is rotating by `(a + b) mod w`. -/
theorem C01_ror_ror {w : Nat} (v : BitVec w) (a b : Int) :
    ror (ror v a) b = ror v ((a + b) % w) := by
  rw [ror_ror]; exact ror_congr _ _ _ (by simp)

/-- The same for `rol`. -/
theorem C01_rol_rol {w : Nat} (v : BitVec w) (a b : Int) :
    rol (rol v a) b = rol v ((a + b) % w) := by
  rw [rol_eq_ror, rol_eq_ror, rol_eq_ror, ror_ror]
  refine ror_congr _ _ _ ?_
  rw [show -a + -b = -(a + b) by ring]
  rw [Int.emod_def (a + b) w, neg_sub, Int.sub_eq_add_neg (a := (w : Int) * _), Int.add_comm ((w : Int) * _), Int.add_mul_emod_self_left]

/-- Rotation keeps the number of set bits. -/
theorem C01_ror_bitCount {w : Nat} (v : BitVec w) (r : Int) : bitCount (ror v r) = bitCount v := by
  rcases Nat.eq_zero_or_pos w with hw | hw
  · subst hw; simp [bitCount]
  rw [bitCount_eq_card, bitCount_eq_card]
  have h0 : (0 : Int) < w := by omega
  apply Finset.card_bij (fun (i : Nat) _ => (((i : Int) + r) % w).toNat)
  · intro i hi
    simp only [Finset.mem_filter, Finset.mem_range] at hi ⊢
    have h1 := Int.emod_nonneg ((i : Int) + r) (b := w) (by omega)
    have h2 := Int.emod_lt_of_pos ((i : Int) + r) h0
    exact ⟨by omega, by rw [← getLsbD_ror v r i hi.1]; exact hi.2⟩
  · intro i hi j hj hij
    simp only [Finset.mem_filter, Finset.mem_range] at hi hj
    have h1 := Int.emod_nonneg ((i : Int) + r) (b := w) (by omega)
    have h1' := Int.emod_nonneg ((j : Int) + r) (b := w) (by omega)
    have h3 : ((i : Int) + r) % w = ((j : Int) + r) % w := by omega
    have h4 := Int.emod_add_cancel_right (m := (i : Int)) (k := j) (n := w) r |>.1 h3
    rw [Int.emod_eq_of_lt (by omega) (by omega), Int.emod_eq_of_lt (by omega) (by omega)] at h4
    omega
  · intro j hj
    simp only [Finset.mem_filter, Finset.mem_range] at hj
    have h1 := Int.emod_nonneg ((j : Int) - r) (b := w) (by omega)
    have h2 := Int.emod_lt_of_pos ((j : Int) - r) h0
    have h5 : ((((((j : Int) - r) % w).toNat : Int) + r) % w).toNat = j := by
      rw [Int.toNat_of_nonneg h1, Int.emod_add_emod, Int.sub_add_cancel,
        Int.emod_eq_of_lt (by omega) (by omega)]; simp
    refine ⟨(((j : Int) - r) % w).toNat, ?_, h5⟩
    simp only [Finset.mem_filter, Finset.mem_range]
    refine ⟨by omega, ?_⟩
    rw [getLsbD_ror v r _ (by omega), h5]; exact hj.2

theorem C01_rol_bitCount {w : Nat} (v : BitVec w) (r : Int) : bitCount (rol v r) = bitCount v := by
  rw [rol_eq_ror]; exact C01_ror_bitCount v (-r)

/-- Non-vacuity: concrete rotations. -/
example : ror 0x12345678#32 8 = 0x78123456#32 ∧ rol 0x12345678#32 8 = 0x34567812#32
    ∧ ror 0x81#8 (-1) = 0x03#8 := by decide +kernel

/-! ### C02 flip_bit, is_bit_set, bit_count -/

/-- For the four word types: an in-range flip succeeds and changes bit `b` and nothing else. -/
theorem C02_flipBit {w : Nat} (hw : w ≤ 64) (v : BitVec w) (b : Nat) (hb : b < w) :
    ∃ u, flipBit v b = .ok u ∧ (∀ i, i < w → (u.getLsbD i = true ↔ (if i = b then v.getLsbD i = false else v.getLsbD i = true)))
      ∧ flipBit u b = .ok v ∧ bitCount (v ^^^ u) = 1 := by
  have hb64 : b < 64 := by omega
  have hbits : ∀ (x : BitVec w) i, i < w →
      (((x.setWidth 64) ^^^ ((1#64) <<< b)).setWidth w).getLsbD i = (x.getLsbD i ^^ decide (i = b)) := by
    intro x i hi
    rw [getLsbD_flip x b hb64 i hi]
    have : i < 64 := by omega
    simp [this]
  have hok : ∀ x : BitVec w, flipBit x b = .ok (((x.setWidth 64) ^^^ ((1#64) <<< b)).setWidth w) := by
    intro x
    unfold flipBit
    rw [if_pos ⟨by omega, by omega⟩]; simp
  refine ⟨_, hok v, ?_, ?_, ?_⟩
  · intro i hi
    rw [hbits v i hi]
    split <;> simp_all
  · rw [hok]
    congr 1
    apply BitVec.eq_of_getLsbD_eq
    intro i hi
    rw [hbits _ i hi, hbits v i hi]
    cases v.getLsbD i <;> cases decide (i = b) <;> rfl
  · rw [bitCount_eq_card, Finset.card_eq_one]
    refine ⟨b, ?_⟩
    ext i
    simp only [Finset.mem_filter, Finset.mem_range, Finset.mem_singleton, BitVec.getLsbD_xor]
    constructor
    · rintro ⟨h1, h2⟩
      rw [hbits v i h1] at h2
      by_contra h3
      simp [h3] at h2
    · rintro rfl
      refine ⟨hb, ?_⟩
      rw [hbits v _ hb]
      cases v.getLsbD i <;> simp

/-- `flip_bit` outside `[0, 64)` is undefined behaviour; between `w` and 64 it silently does nothing. -/
theorem C02_flipBit_out_of_range {w : Nat} (hw : w ≤ 64) (v : BitVec w) (b : Int) :
    ((b < 0 ∨ 64 ≤ b) → flipBit v b = .error .shiftTooLarge) ∧
    ((w : Int) ≤ b ∧ b < 64 → flipBit v b = .ok v) := by
  refine ⟨fun h => ?_, fun h => ?_⟩
  · unfold flipBit; rw [if_neg (by omega)]
  · unfold flipBit; rw [if_pos (by omega)]
    congr 1
    apply BitVec.eq_of_getLsbD_eq
    intro i hi
    rw [getLsbD_flip v _ (by omega) i hi]
    have h1 : i < 64 := by omega
    have h2 : i ≠ b.toNat := by omega
    simp [h1, h2]

/-- `is_bit_set` reports the addressed bit. -/
theorem C02_isBitSet {w : Nat} (v : BitVec w) (b : Nat) (hb : b < w) :
    isBitSet v b = .ok (v.getLsbD b) := by
  have hp : b < promotedWidth w := by unfold promotedWidth; omega
  unfold isBitSet
  rw [if_pos ⟨by omega, by omega⟩]
  congr 1
  rw [Bool.eq_iff_iff, bne_iff_ne, ne_eq]
  constructor
  · intro h
    by_contra hv
    apply h
    apply BitVec.eq_of_getLsbD_eq
    intro i hi
    by_cases hi0 : i = 0
    · subst hi0; simp_all [BitVec.getLsbD_ushiftRight]
    · simp [BitVec.getLsbD_one, hi0]
  · intro hv h
    have := congrArg (fun z => z.getLsbD 0) h
    have h0 : 0 < promotedWidth w := by omega
    simp [BitVec.getLsbD_one, hv, hp, h0] at this

/-- `bit_count` is the number of indices for which `is_bit_set` answers true. -/
theorem C02_bitCount {w : Nat} (v : BitVec w) :
    bitCount v = ((List.range w).filter (fun (b : Nat) => decide (isBitSet v b = .ok true))).length := by
  rw [bitCount_eq_countP, List.countP_eq_length_filter]
  congr 1
  apply List.filter_congr
  intro i hi
  rw [C02_isBitSet v i (List.mem_range.1 hi)]
  simp

example : flipBit 0b1010#8 0 = .ok 0b1011#8 ∧ isBitSet 0b1010#8 3 = .ok true
    ∧ bitCount 0b1011#8 = 3 := by decide +kernel

/-! ### C03 reverse_bits -/

theorem C03_reverseBits_bit (t : WT) (x : BitVec t.bits) (i : Nat) (hi : i < t.bits) :
    (reverseBits t x).getLsbD i = x.getLsbD (t.bits - 1 - i) := getLsbD_reverseBits t x i hi

theorem C03_reverseBits_involution (t : WT) (x : BitVec t.bits) :
    reverseBits t (reverseBits t x) = x := reverseBits_reverseBits t x

theorem C03_reverseBits_bijective (t : WT) : Function.Bijective (reverseBits t) :=
  ⟨fun a b h => by rw [← C03_reverseBits_involution t a, h, C03_reverseBits_involution],
   fun b => ⟨reverseBits t b, C03_reverseBits_involution t b⟩⟩

/-- Reversal exchanges the rotation directions. -/
theorem C03_reverseBits_ror (t : WT) (x : BitVec t.bits) (r : Int) :
    reverseBits t (ror x r) = rol (reverseBits t x) r := by
  apply BitVec.eq_of_getLsbD_eq
  intro i hi
  have hw : (0 : Int) < t.bits := by omega
  have h1 := Int.emod_nonneg ((i : Int) - r) (b := t.bits) (by omega)
  have h2 := Int.emod_lt_of_pos ((i : Int) - r) hw
  rw [getLsbD_reverseBits t _ i hi, getLsbD_ror _ _ _ (by omega), getLsbD_rol _ _ _ hi,
    getLsbD_reverseBits t _ _ (by omega)]
  congr 1
  have h3 := Int.emod_nonneg (((t.bits - 1 - i : Nat) : Int) + r) (b := t.bits) (by omega)
  have h4 := Int.emod_lt_of_pos (((t.bits - 1 - i : Nat) : Int) + r) hw
  suffices (((t.bits - 1 - i : Nat) : Int) + r) % t.bits = t.bits - 1 - ((i : Int) - r) % t.bits by omega
  have e : ((t.bits - 1 - i : Nat) : Int) + r = t.bits - 1 - ((i : Int) - r) := by omega
  have hq := Int.mul_ediv_add_emod ((i : Int) - r) t.bits
  rw [e, show (t.bits : Int) - 1 - ((i : Int) - r) = (t.bits - 1 - ((i : Int) - r) % t.bits)
    + t.bits * (-(((i : Int) - r) / t.bits)) by rw [Int.mul_neg]; omega, Int.add_mul_emod_self_left]
  exact Int.emod_eq_of_lt (by omega) (by omega)

example : reverseBits .u32 0x00000013#32 = 0xC8000000#32 ∧ reverseBits .u8 0x13#8 = 0xC8#8
   ∧ reverseBits .u16 0x0013#16 = 0xC800#16
   ∧ reverseBits .u64 0x13#64 = 0xC800000000000000#64 := by decide +kernel

/-! ### C04 byte_swap / byteswap -/

/-- Byte `j` of `byteswap(x)` is byte `n-1-j` of `x`. -/
theorem C04_byteswap_byte (n : Nat) (x : BitVec (8 * n)) (j : Nat) (hj : j < n) :
    (byteswap n x).extractLsb' (8 * j) 8 = x.extractLsb' (8 * (n - 1 - j)) 8 := by
  apply BitVec.eq_of_getLsbD_eq
  intro i hi
  simp only [BitVec.getLsbD_extractLsb', hi, decide_true, Bool.true_and]
  rw [getLsbD_byteswap n x _ (by omega)]
  congr 1
  have h1 : (8 * j + i) / 8 = j := by omega
  have h2 : (8 * j + i) % 8 = i := by omega
  rw [h1, h2]

theorem C04_byte_swap_eq_byteswap (x : BitVec 64) : byteSwap64 x = byteswap 8 x := by
  apply BitVec.eq_of_getLsbD_eq
  intro i hi
  rw [getLsbD_byteSwap64 x i hi, getLsbD_byteswap 8 x i hi]

theorem C04_byteswap_involution (n : Nat) (x : BitVec (8 * n)) : byteswap n (byteswap n x) = x := by
  apply BitVec.eq_of_getLsbD_eq
  intro i hi
  rw [getLsbD_byteswap n _ i hi, getLsbD_byteswap n x _ (by omega)]
  congr 1
  omega

theorem C04_byte_swap_involution (x : BitVec 64) : byteSwap64 (byteSwap64 x) = x := by
  rw [C04_byte_swap_eq_byteswap, C04_byte_swap_eq_byteswap, C04_byteswap_involution]

example : byteSwap64 0x0123456789abcdef#64 = 0xefcdab8967452301#64
    ∧ byteswap 4 0x01234567#32 = 0x67452301#32 := by decide +kernel

/-! ### C05 bit_width, bit_floor, bit_ceil -/

/-- `bit_width(x)` is the least `k` with `x < 2^k`. -/
theorem C05_bitWidth {w : Nat} (x : BitVec w) : IsLeast {k | x.toNat < 2 ^ k} (bitWidth x) :=
  ⟨(bitWidth_spec x _).1 le_rfl, fun k hk => (bitWidth_spec x k).2 hk⟩

theorem shlOne_ok (w s : Nat) (hs : s < promotedWidth w) :
    ∃ y, shlOne w s = .ok y ∧ y.toNat = (2 ^ s) % 2 ^ w := by
  unfold shlOne
  rw [if_pos hs]
  refine ⟨_, rfl, ?_⟩
  rw [BitVec.toNat_setWidth, BitVec.toNat_shiftLeft, BitVec.toNat_ofNat, Nat.one_mod_two_pow_eq_one.2 (by omega),
    Nat.shiftLeft_eq, Nat.one_mul, Nat.mod_eq_of_lt (Nat.pow_lt_pow_right (by omega) hs)]

/-- `bit_floor(x)` never faults and is the largest power of two not above `x` (0 for 0). -/
theorem C05_bitFloor {w : Nat} (x : BitVec w) :
    ∃ y, bitFloor x = .ok y ∧
      (x.toNat = 0 → y.toNat = 0) ∧
      (x.toNat ≠ 0 → IsGreatest {p | (∃ k, p = 2 ^ k) ∧ p ≤ x.toNat} y.toNat) := by
  unfold bitFloor
  by_cases hx : x = 0#w
  · subst hx
    refine ⟨0#w, by simp, by simp, by simp⟩
  rw [if_pos hx]
  have hx0 : x.toNat ≠ 0 := by
    intro h; apply hx; apply BitVec.eq_of_toNat_eq; simpa using h
  have hle := bitWidth_le x
  have hpos : 0 < bitWidth x := by
    by_contra h
    have := (bitWidth_spec x 0).1 (by omega)
    omega
  obtain ⟨y, hy, hyv⟩ := shlOne_ok w (bitWidth x - 1) (by unfold promotedWidth; omega)
  rw [Nat.mod_eq_of_lt (Nat.pow_lt_pow_right (by omega) (by omega))] at hyv
  refine ⟨y, hy, fun h => absurd h hx0, fun _ => ?_⟩
  rw [hyv]
  refine ⟨⟨⟨_, rfl⟩, ?_⟩, ?_⟩
  · by_contra h
    have := (bitWidth_spec x (bitWidth x - 1)).2 (by omega)
    omega
  · rintro p ⟨⟨k, rfl⟩, hk⟩
    apply Nat.pow_le_pow_right (by omega)
    by_contra h
    have h2 := (bitWidth_spec x (bitWidth x)).1 le_rfl
    have h3 : 2 ^ bitWidth x ≤ 2 ^ k := Nat.pow_le_pow_right (by omega) (by omega)
    omega

/-- `bit_ceil(x)` for `0 < x ≤ 2^(w-1)`: no fault, and the smallest power of two not below `x`.  For
`x = 0` the result is 0 (the unit test expects 0 for 0 as well). -/
theorem C05_bitCeil {w : Nat} (x : BitVec w) (h0 : 0 < x.toNat) (h1 : x.toNat ≤ 2 ^ (w - 1)) :
    ∃ y, bitCeil x = .ok y ∧ IsLeast {p | (∃ k, p = 2 ^ k) ∧ x.toNat ≤ p} y.toNat := by
  have hw : 0 < w := by
    by_contra h
    have : w = 0 := by omega
    subst this
    have := x.isLt
    omega
  unfold bitCeil
  have hx : x ≠ 0#w := by rintro rfl; simp at h0
  rw [if_pos hx]
  have hsub : (x - 1#w).toNat = x.toNat - 1 := by
    rw [BitVec.toNat_sub, BitVec.toNat_ofNat, Nat.one_mod_two_pow_eq_one.2 hw]
    have hx := x.isLt
    rw [show 2 ^ w - 1 + x.toNat = (x.toNat - 1) + 2 ^ w by omega, Nat.add_mod_right,
      Nat.mod_eq_of_lt (by omega)]
  have hbw : bitWidth (x - 1#w) ≤ w - 1 := (bitWidth_spec _ _).2 (by omega)
  obtain ⟨y, hy, hyv⟩ := shlOne_ok w (bitWidth (x - 1#w)) (by unfold promotedWidth; omega)
  rw [Nat.mod_eq_of_lt (Nat.pow_lt_pow_right (by omega) (by omega))] at hyv
  refine ⟨y, hy, ?_⟩
  rw [hyv]
  refine ⟨⟨⟨_, rfl⟩, ?_⟩, ?_⟩
  · have := (bitWidth_spec (x - 1#w) _).1 le_rfl
    omega
  · rintro p ⟨⟨k, rfl⟩, hk⟩
    apply Nat.pow_le_pow_right (by omega)
    exact (bitWidth_spec _ _).2 (by omega)

/-- Above `2^(w-1)` there is no result: 32- and 64-bit words shift by the full width (undefined
behaviour), 8- and 16-bit words silently give 0. -/
theorem C05_bitCeil_too_large {w : Nat} (x : BitVec w) (h1 : 2 ^ (w - 1) < x.toNat) (hw : 1 < w) :
    bitCeil x = if 32 ≤ w then .error .shiftTooLarge else .ok 0#w := by
  have hx : x ≠ 0#w := by rintro rfl; simp at h1
  have hsub : (x - 1#w).toNat = x.toNat - 1 := by
    rw [BitVec.toNat_sub, BitVec.toNat_ofNat, Nat.one_mod_two_pow_eq_one.2 (by omega)]
    have hx := x.isLt
    have h2 := Nat.two_pow_pos (w - 1)
    rw [show 2 ^ w - 1 + x.toNat = (x.toNat - 1) + 2 ^ w by omega, Nat.add_mod_right,
      Nat.mod_eq_of_lt (by omega)]
  have hbw : bitWidth (x - 1#w) = w := by
    apply le_antisymm (bitWidth_le _)
    by_contra h
    have := (bitWidth_spec (x - 1#w) (w - 1)).1 (by omega)
    omega
  unfold bitCeil
  rw [if_pos hx, hbw]
  split
  · unfold shlOne promotedWidth; rw [if_neg (by omega)]
  · obtain ⟨y, hy, hyv⟩ := shlOne_ok w w (by unfold promotedWidth; omega)
    rw [hy]; congr 1
    apply BitVec.eq_of_toNat_eq
    simpa using hyv

example : bitFloor 77#8 = .ok 64#8 ∧ bitCeil 77#8 = .ok 128#8 ∧ bitCeil 64#8 = .ok 64#8
    ∧ bitCeil 0x80000001#32 = .error .shiftTooLarge ∧ bitCeil 200#8 = .ok 0#8 := by decide +kernel

end TFR
