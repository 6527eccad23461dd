import Verif.Model.Construct
import Verif.Props.BitVector
import Verif.Props.Mixers
/-
C16, C17: decoding of the searched mixer constructions, and when they are bijections.
-/
namespace TFR
open Spec BitVector

theorem two_pow_shiftBits (t : WT) : 2 ^ t.shiftBits = t.bits := by cases t <;> rfl
theorem shiftBits_lt (t : WT) : t.shiftBits < t.bits := by cases t <;> decide

theorem ofBits_take_drop (l : List Bool) (f n : Nat) (h : f + n ≤ l.length) :
    ofBits (l.drop f) = ofBits ((l.drop f).take n) + 2 ^ n * ofBits (l.drop (f + n)) := by
  conv_lhs => rw [← List.take_append_drop n (l.drop f)]
  rw [ofBits_append, List.drop_drop, List.length_take, List.length_drop, Nat.min_eq_left (by omega)]

theorem get_toNat {v : BitVector} {l : List Bool} (h : Holds v l) (w f n : Nat) (hn : n ≤ w)
    (hf : f + n ≤ l.length) :
    ∃ x, v.get w f n = .ok x ∧ x.toNat < 2 ^ n ∧ ofBits (l.drop f) = x.toNat + 2 ^ n * ofBits (l.drop (f + n)) := by
  refine ⟨_, get_holds h w f n hn hf, ?_⟩
  have h1 := ofBits_lt ((l.drop f).take n)
  rw [List.length_take, List.length_drop, Nat.min_eq_left (by omega)] at h1
  have h2 : 2 ^ n ≤ 2 ^ w := Nat.pow_le_pow_right (by omega) hn
  rw [BitVec.toNat_ofNat, Nat.mod_eq_of_lt (by omega)]
  exact ⟨h1, ofBits_take_drop l f n hf⟩

/-- `xmx`: for every bit string of the configured length decoding does not fault, the two shifts are
below the width, and the three constants are exactly the digits of the string (so no bit is lost). -/
theorem C16_xmx_decode (t : WT) (v : BitVector) (l : List Bool) (hv : Holds v l) (hl : l.length = xmxConfigBits t) :
    ∃ c, toXmx t v = .ok c ∧ c.c1.toNat < t.bits ∧ c.c2.toNat < t.bits ∧
      ofBits l = c.c1.toNat + t.bits * c.c2.toNat + t.bits ^ 2 * c.m1.toNat := by
  unfold xmxConfigBits at hl
  have hs := shiftBits_lt t
  obtain ⟨c1, e1, b1, d1⟩ := get_toNat hv t.bits (0 * t.shiftBits) t.shiftBits (by omega) (by omega)
  obtain ⟨c2, e2, b2, d2⟩ := get_toNat hv t.bits (1 * t.shiftBits) t.shiftBits (by omega) (by omega)
  obtain ⟨m1, e3, _, d3⟩ := get_toNat hv t.bits (2 * t.shiftBits) t.bits (by omega) (by omega)
  refine ⟨⟨c1, c2, m1⟩, by simp only [toXmx, e1, e2, e3]; rfl, ?_, ?_, ?_⟩
  · rwa [two_pow_shiftBits] at b1
  · rwa [two_pow_shiftBits] at b2
  · rw [List.drop_eq_nil_of_le (i := 2 * t.shiftBits + t.bits) (by omega)] at d3
    simp only [ofBits, Nat.mul_zero, Nat.add_zero] at d3
    rw [show 0 * t.shiftBits + t.shiftBits = 1 * t.shiftBits by ring, d2,
      show 1 * t.shiftBits + t.shiftBits = 2 * t.shiftBits by ring, d3, two_pow_shiftBits] at d1
    simp only [Nat.zero_mul, List.drop_zero] at d1
    rw [d1]; ring

theorem C16_xm2x_decode (t : WT) (v : BitVector) (l : List Bool) (hv : Holds v l) (hl : l.length = xm2xConfigBits t) :
    ∃ c, toXm2x t v = .ok c ∧ c.c1.toNat < t.bits ∧ c.c2.toNat < t.bits ∧ c.c3.toNat < t.bits ∧
      ofBits l = c.c1.toNat + t.bits * c.c2.toNat + t.bits ^ 2 * c.c3.toNat + t.bits ^ 3 * c.m1.toNat := by
  unfold xm2xConfigBits at hl
  have hs := shiftBits_lt t
  obtain ⟨c1, e1, b1, d1⟩ := get_toNat hv t.bits (0 * t.shiftBits) t.shiftBits (by omega) (by omega)
  obtain ⟨c2, e2, b2, d2⟩ := get_toNat hv t.bits (1 * t.shiftBits) t.shiftBits (by omega) (by omega)
  obtain ⟨c3, e3, b3, d3⟩ := get_toNat hv t.bits (2 * t.shiftBits) t.shiftBits (by omega) (by omega)
  obtain ⟨m1, e4, _, d4⟩ := get_toNat hv t.bits (3 * t.shiftBits) t.bits (by omega) (by omega)
  rw [two_pow_shiftBits] at b1 b2 b3
  refine ⟨⟨c1, c2, c3, m1⟩, by simp only [toXm2x, e1, e2, e3, e4]; rfl, b1, b2, b3, ?_⟩
  · rw [List.drop_eq_nil_of_le (i := 3 * t.shiftBits + t.bits) (by omega)] at d4
    simp only [ofBits, Nat.mul_zero, Nat.add_zero] at d4
    rw [show 0 * t.shiftBits + t.shiftBits = 1 * t.shiftBits by ring, d2,
      show 1 * t.shiftBits + t.shiftBits = 2 * t.shiftBits by ring, d3,
      show 2 * t.shiftBits + t.shiftBits = 3 * t.shiftBits by ring, d4, two_pow_shiftBits] at d1
    simp only [Nat.zero_mul, List.drop_zero] at d1
    rw [d1]; ring

theorem C16_xm3x_decode (t : WT) (v : BitVector) (l : List Bool) (hv : Holds v l) (hl : l.length = xm3xConfigBits t) :
    ∃ c, toXm3x t v = .ok c ∧ c.c1.toNat < t.bits ∧ c.c2.toNat < t.bits ∧ c.c3.toNat < t.bits ∧ c.c4.toNat < t.bits ∧
      ofBits l = c.c1.toNat + t.bits * c.c2.toNat + t.bits ^ 2 * c.c3.toNat + t.bits ^ 3 * c.c4.toNat
        + t.bits ^ 4 * c.m1.toNat := by
  unfold xm3xConfigBits at hl
  have hs := shiftBits_lt t
  obtain ⟨c1, e1, b1, d1⟩ := get_toNat hv t.bits (0 * t.shiftBits) t.shiftBits (by omega) (by omega)
  obtain ⟨c2, e2, b2, d2⟩ := get_toNat hv t.bits (1 * t.shiftBits) t.shiftBits (by omega) (by omega)
  obtain ⟨c3, e3, b3, d3⟩ := get_toNat hv t.bits (2 * t.shiftBits) t.shiftBits (by omega) (by omega)
  obtain ⟨c4, e4, b4, d4⟩ := get_toNat hv t.bits (3 * t.shiftBits) t.shiftBits (by omega) (by omega)
  obtain ⟨m1, e5, _, d5⟩ := get_toNat hv t.bits (4 * t.shiftBits) t.bits (by omega) (by omega)
  rw [two_pow_shiftBits] at b1 b2 b3 b4
  refine ⟨⟨c1, c2, c3, c4, m1⟩, by simp only [toXm3x, e1, e2, e3, e4, e5]; rfl, b1, b2, b3, b4, ?_⟩
  · rw [List.drop_eq_nil_of_le (i := 4 * t.shiftBits + t.bits) (by omega)] at d5
    simp only [ofBits, Nat.mul_zero, Nat.add_zero] at d5
    rw [show 0 * t.shiftBits + t.shiftBits = 1 * t.shiftBits by ring, d2,
      show 1 * t.shiftBits + t.shiftBits = 2 * t.shiftBits by ring, d3,
      show 2 * t.shiftBits + t.shiftBits = 3 * t.shiftBits by ring, d4,
      show 3 * t.shiftBits + t.shiftBits = 4 * t.shiftBits by ring, d5, two_pow_shiftBits] at d1
    simp only [Nat.zero_mul, List.drop_zero] at d1
    rw [d1]; ring

theorem ofBits_inj (l l' : List Bool) (h : l.length = l'.length) (he : ofBits l = ofBits l') : l = l' := by
  apply List.ext_getElem h
  intro i h1 h2
  have := congrArg (fun z => Nat.testBit z i) he
  simp only [testBit_ofBits, List.getD_eq_getElem _ _ h1, List.getD_eq_getElem _ _ h2] at this
  exact this

/-- Distinct bit strings of the configured length never decode to the same constants. -/
theorem C16_decode_injective (t : WT) (v v' : BitVector) (l l' : List Bool) (hv : Holds v l) (hv' : Holds v' l') :
    (l.length = xmxConfigBits t → l'.length = xmxConfigBits t → toXmx t v = toXmx t v' → l = l') ∧
    (l.length = xm2xConfigBits t → l'.length = xm2xConfigBits t → toXm2x t v = toXm2x t v' → l = l') ∧
    (l.length = xm3xConfigBits t → l'.length = xm3xConfigBits t → toXm3x t v = toXm3x t v' → l = l') := by
  refine ⟨fun h h' he => ?_, fun h h' he => ?_, fun h h' he => ?_⟩ <;> apply ofBits_inj _ _ (h.trans h'.symm)
  · obtain ⟨c, e, _, _, d⟩ := C16_xmx_decode t v l hv h
    obtain ⟨c', e', _, _, d'⟩ := C16_xmx_decode t v' l' hv' h'
    rw [e, e'] at he; cases he; rw [d, d']
  · obtain ⟨c, e, _, _, _, d⟩ := C16_xm2x_decode t v l hv h
    obtain ⟨c', e', _, _, _, d'⟩ := C16_xm2x_decode t v' l' hv' h'
    rw [e, e'] at he; cases he; rw [d, d']
  · obtain ⟨c, e, _, _, _, _, d⟩ := C16_xm3x_decode t v l hv h
    obtain ⟨c', e', _, _, _, _, d'⟩ := C16_xm3x_decode t v' l' hv' h'
    rw [e, e'] at he; cases he; rw [d, d']

/-- Non-vacuity: every list of booleans is held by some bit vector (built by adding its bits). -/
theorem C16_every_string_exists (l : List Bool) : ∃ v, Holds v l := by
  suffices h : ∃ v, Repr v l from ⟨_, h.choose_spec.holds⟩
  induction l using List.reverseRecOn with
  | nil => exact ⟨_, repr_empty⟩
  | append_singleton l b ih =>
    obtain ⟨v, hv⟩ := ih
    obtain ⟨u, _, hu⟩ := add_repr hv (if b then 1#64 else 0#64) 1 (by decide)
    refine ⟨u, ?_⟩
    have : (List.range 1).map (fun i => (if b then 1#64 else 0#64).getLsbD i) = [b] := by cases b <;> rfl
    rwa [this] at hu

/-! ### C17 -/

theorem mulAssign_total (t : WT) (x m : BitVec t.bits) (hm : t = .u16 → m.toNat ≤ 32768) :
    mulAssign x m = .ok (x * m) := by
  cases t with
  | u8 =>
    apply mulAssign_ok
    have h1 : x.toNat ≤ 255 := by have := x.isLt; simp only [WT.bits] at this; omega
    have h2 : m.toNat ≤ 255 := by have := m.isLt; simp only [WT.bits] at this; omega
    calc x.toNat * m.toNat ≤ 255 * 255 := Nat.mul_le_mul h1 h2
      _ < 2 ^ 31 := by norm_num
  | u16 =>
    apply mulAssign_ok
    have h1 : x.toNat ≤ 65535 := by have := x.isLt; simp only [WT.bits] at this; omega
    calc x.toNat * m.toNat ≤ 65535 * 32768 := Nat.mul_le_mul h1 (hm rfl)
      _ < 2 ^ 31 := by norm_num
  | u32 => unfold mulAssign; exact if_neg (by decide)
  | u64 => unfold mulAssign; exact if_neg (by decide)

theorem shrT_ok (t : WT) (x c : BitVec t.bits) (hc : c.toNat < t.bits) : shrT x c = .ok (x >>> c.toNat) := by
  unfold shrT promotedWidth; exact if_pos (by omega)

theorem bij_xsr_iff {w : Nat} (hw : 0 < w) (k : Nat) :
    Function.Bijective (fun x : BitVec w => x ^^^ (x >>> k)) ↔ k ≠ 0 := by
  constructor
  · rintro h rfl
    have h1 : (1#w) = 0#w := h.1 (by simp)
    have := congrArg BitVec.toNat h1
    simp only [BitVec.toNat_ofNat, Nat.zero_mod, Nat.one_mod_two_pow_eq_one.2 hw] at this
    omega
  · intro h; exact bij_xsr k (by omega)

theorem bij_mul_iff {w : Nat} (hw : 0 < w) (m : BitVec w) :
    Function.Bijective (fun x : BitVec w => x * m) ↔ m.toNat % 2 = 1 := by
  constructor
  · intro h
    by_contra hne
    have he : m.toNat % 2 = 0 := by omega
    have h1 : BitVec.ofNat w (2 ^ (w - 1)) = 0#w := by
      apply h.1
      apply BitVec.eq_of_toNat_eq
      simp only [BitVec.toNat_mul, BitVec.toNat_ofNat, Nat.zero_mod, Nat.zero_mul]
      obtain ⟨q, hq⟩ : 2 ∣ m.toNat := Nat.dvd_of_mod_eq_zero he
      rw [Nat.mod_mul_mod, hq, ← Nat.mul_assoc, ← Nat.pow_succ, show (w - 1).succ = w by omega]
      simp
    have := congrArg BitVec.toNat h1
    have hlt : 2 ^ (w - 1) < 2 ^ w := Nat.pow_lt_pow_right (by omega) (by omega)
    simp only [BitVec.toNat_ofNat, Nat.zero_mod, Nat.mod_eq_of_lt hlt] at this
    have := Nat.two_pow_pos (w - 1)
    omega
  · exact bij_mul_odd m

theorem WT.bits_pos (t : WT) : 0 < t.bits := by cases t <;> decide

/-- `xmx`: with decoded shifts (below the width) evaluation is defined on every word - at 16 bits provided
the multiplier is at most 32768 - and the mixer is a bijection iff the multiplier is odd and no shift is 0. -/
theorem C17_xmx (t : WT) (c : Xmx t.bits) (h1 : c.c1.toNat < t.bits) (h2 : c.c2.toNat < t.bits)
    (hm : t = .u16 → c.m1.toNat ≤ 32768) :
    ∃ f : BitVec t.bits → BitVec t.bits, (∀ x, xmxMix c x = .ok (f x)) ∧
      (Function.Bijective f ↔ c.m1.toNat % 2 = 1 ∧ c.c1 ≠ 0#_ ∧ c.c2 ≠ 0#_) := by
  have hz : ∀ a : BitVec t.bits, a ≠ 0#_ ↔ a.toNat ≠ 0 := by
    intro a; rw [ne_eq, ne_eq, ← BitVec.toNat_inj]; simp
  refine ⟨(fun x : BitVec t.bits => x ^^^ (x >>> c.c2.toNat)) ∘ (fun x : BitVec t.bits => x * c.m1) ∘ (fun x : BitVec t.bits => x ^^^ (x >>> c.c1.toNat)), ?_, ?_⟩
  · intro x
    simp only [xmxMix, shrT_ok t _ _ h1, shrT_ok t _ _ h2, mulAssign_total t _ _ hm]; rfl
  · rw [bij_comp_iff, bij_comp_iff, bij_xsr_iff t.bits_pos, bij_xsr_iff t.bits_pos, bij_mul_iff t.bits_pos, hz, hz]
    tauto

theorem C17_xm2x (t : WT) (c : Xm2x t.bits) (h1 : c.c1.toNat < t.bits) (h2 : c.c2.toNat < t.bits)
    (h3 : c.c3.toNat < t.bits) (hm : t = .u16 → c.m1.toNat ≤ 32768) :
    ∃ f : BitVec t.bits → BitVec t.bits, (∀ x, xm2xMix c x = .ok (f x)) ∧
      (Function.Bijective f ↔ c.m1.toNat % 2 = 1 ∧ c.c1 ≠ 0#_ ∧ c.c2 ≠ 0#_ ∧ c.c3 ≠ 0#_) := by
  have hz : ∀ a : BitVec t.bits, a ≠ 0#_ ↔ a.toNat ≠ 0 := by
    intro a; rw [ne_eq, ne_eq, ← BitVec.toNat_inj]; simp
  refine ⟨(fun x : BitVec t.bits => x ^^^ (x >>> c.c3.toNat)) ∘ (fun x : BitVec t.bits => x * c.m1) ∘
    (fun x : BitVec t.bits => x ^^^ (x >>> c.c2.toNat)) ∘ (fun x : BitVec t.bits => x * c.m1) ∘ (fun x : BitVec t.bits => x ^^^ (x >>> c.c1.toNat)), ?_, ?_⟩
  · intro x
    simp only [xm2xMix, shrT_ok t _ _ h1, shrT_ok t _ _ h2, shrT_ok t _ _ h3, mulAssign_total t _ _ hm]; rfl
  · simp only [bij_comp_iff, bij_xsr_iff t.bits_pos, bij_mul_iff t.bits_pos, hz]
    tauto

theorem C17_xm3x (t : WT) (c : Xm3x t.bits) (h1 : c.c1.toNat < t.bits) (h2 : c.c2.toNat < t.bits)
    (h3 : c.c3.toNat < t.bits) (h4 : c.c4.toNat < t.bits) (hm : t = .u16 → c.m1.toNat ≤ 32768) :
    ∃ f : BitVec t.bits → BitVec t.bits, (∀ x, xm3xMix c x = .ok (f x)) ∧
      (Function.Bijective f ↔ c.m1.toNat % 2 = 1 ∧ c.c1 ≠ 0#_ ∧ c.c2 ≠ 0#_ ∧ c.c3 ≠ 0#_ ∧ c.c4 ≠ 0#_) := by
  have hz : ∀ a : BitVec t.bits, a ≠ 0#_ ↔ a.toNat ≠ 0 := by
    intro a; rw [ne_eq, ne_eq, ← BitVec.toNat_inj]; simp
  refine ⟨(fun x : BitVec t.bits => x ^^^ (x >>> c.c4.toNat)) ∘ (fun x : BitVec t.bits => x * c.m1) ∘ (fun x : BitVec t.bits => x ^^^ (x >>> c.c3.toNat)) ∘
    (fun x : BitVec t.bits => x * c.m1) ∘ (fun x : BitVec t.bits => x ^^^ (x >>> c.c2.toNat)) ∘ (fun x : BitVec t.bits => x * c.m1) ∘
    (fun x : BitVec t.bits => x ^^^ (x >>> c.c1.toNat)), ?_, ?_⟩
  · intro x
    simp only [xm3xMix, shrT_ok t _ _ h1, shrT_ok t _ _ h2, shrT_ok t _ _ h3, shrT_ok t _ _ h4,
      mulAssign_total t _ _ hm]; rfl
  · simp only [bij_comp_iff, bij_xsr_iff t.bits_pos, bij_mul_iff t.bits_pos, hz]
    tauto

/-- At 16 bits every larger multiplier makes some input overflow `int` (undefined), in every construction
whose first shift is non-zero. -/
theorem C17_u16_overflow (c1 m1 : BitVec 16) (hm : 32768 < m1.toNat) (h0 : c1 ≠ 0#16) (h1 : c1.toNat < 16) :
    ∃ x, (∀ c2, xmxMix ⟨c1, c2, m1⟩ x = .error .signedOverflow) ∧
      (∀ c2 c3, xm2xMix ⟨c1, c2, c3, m1⟩ x = .error .signedOverflow) ∧
      (∀ c2 c3 c4, xm3xMix ⟨c1, c2, c3, c4, m1⟩ x = .error .signedOverflow) := by
  have hz : c1.toNat ≠ 0 := fun h => h0 (BitVec.eq_of_toNat_eq (by simpa using h))
  obtain ⟨x, hx⟩ := (bij_xsr (w := 16) c1.toNat (by omega)).2 0xffff#16
  have hmul : mulAssign 0xffff#16 m1 = .error .signedOverflow := by
    unfold mulAssign
    rw [if_pos (by decide), if_neg]
    rw [show (0xffff#16).toNat = 65535 from rfl]; omega
  refine ⟨x, fun c2 => ?_, fun c2 c3 => ?_, fun c2 c3 c4 => ?_⟩ <;>
    simp only [xmxMix, xm2xMix, xm3xMix, shrT_ok .u16 x c1 h1]
  all_goals
    show (mulAssign (x ^^^ (x >>> c1.toNat)) m1 >>= _) = _
    rw [show x ^^^ (x >>> c1.toNat) = 0xffff#16 from hx, hmul]; rfl

/-- Non-vacuity: a real configuration, and one that is not a bijection. -/
example : xmxMix (w := 32) ⟨16#32, 14#32, 2471660141#32⟩ 12345#32 = .ok (mix32_mx1 12345#32) ∧
    xmxMix (w := 32) ⟨0#32, 14#32, 2471660141#32⟩ 12345#32 = .ok 0#32 := by decide +kernel

end TFR
