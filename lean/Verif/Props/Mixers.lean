import Verif.Model.Mixers
import Verif.Lemmas.Bij
/-
C12 - C15: mixers and combiners are bijections.
-/
namespace TFR

/-! ### C12 -/

theorem mulAssign_ok {w : Nat} (x c : BitVec w) (h : x.toNat * c.toNat < 2 ^ 31) : mulAssign x c = .ok (x * c) := by
  unfold mulAssign
  split
  · congr 1
  · rfl

/-- 8 bit: evaluation never overflows `int`, and the mixer is a bijection. -/
theorem C12_mix8 : ∃ f : BitVec 8 → BitVec 8, Function.Bijective f ∧ ∀ x, mix8_xm3x x = .ok (f x) := by
  refine ⟨_, (bij_xsr 3 (by decide)).comp ((bij_mul_odd 119#8 (by decide)).comp ((bij_xsr 4 (by decide)).comp
    ((bij_mul_odd 119#8 (by decide)).comp ((bij_xsr 3 (by decide)).comp ((bij_mul_odd 119#8 (by decide)).comp
      (bij_xsr 4 (by decide))))))), fun x => ?_⟩
  have hok : ∀ x : BitVec 8, mulAssign x 119#8 = .ok (x * 119#8) := by
    intro x
    apply mulAssign_ok
    have := x.isLt
    rw [show (119#8).toNat = 119 from rfl]
    omega
  unfold mix8_xm3x
  simp only [hok]
  rfl

/-- 16 bit: evaluation never overflows `int`, and the mixer is a bijection. -/
theorem C12_mix16 : ∃ f : BitVec 16 → BitVec 16, Function.Bijective f ∧ ∀ x, mix16_xm3x x = .ok (f x) := by
  refine ⟨_, (bij_xsr 7 (by decide)).comp ((bij_mul_odd 13487#16 (by decide)).comp ((bij_xsr 8 (by decide)).comp
    ((bij_mul_odd 13487#16 (by decide)).comp ((bij_xsr 7 (by decide)).comp ((bij_mul_odd 13487#16 (by decide)).comp
      (bij_xsr 8 (by decide))))))), fun x => ?_⟩
  have hok : ∀ x : BitVec 16, mulAssign x 13487#16 = .ok (x * 13487#16) := by
    intro x
    apply mulAssign_ok
    have := x.isLt
    rw [show (13487#16).toNat = 13487 from rfl]
    omega
  unfold mix16_xm3x
  simp only [hok]
  rfl

/-- Non-vacuity: a concrete value. -/
example : mix8_xm3x 1#8 = .ok 248#8 := by decide +kernel

/-! ### C13 -/

theorem bij_mx32_1 : Function.Bijective mix32_mx1 :=
  (bij_xsr 14 (by decide)).comp ((bij_mul_odd 2471660141#32 (by decide)).comp (bij_xsr 16 (by decide)))

theorem bij_mx32_2 : Function.Bijective mix32_mx2 :=
  (bij_xsr 13 (by decide)).comp ((bij_mul_odd 1159349557#32 (by decide)).comp
    ((bij_xsr 14 (by decide)).comp ((bij_mul_odd 1159349557#32 (by decide)).comp (bij_xsr 16 (by decide)))))

theorem bij_mx32_3 : Function.Bijective mix32_mx3 :=
  (bij_xsr 14 (by decide)).comp ((bij_mul_odd 1159349557#32 (by decide)).comp
  ((bij_xsr 16 (by decide)).comp ((bij_mul_odd 1159349557#32 (by decide)).comp
    ((bij_xsr 14 (by decide)).comp ((bij_mul_odd 1159349557#32 (by decide)).comp (bij_xsr 16 (by decide)))))))

/-- Shape shared by many mixers: shift, multiply, shift, multiply, shift. -/
theorem bij_xmxmx {w : Nat} (a b c : Nat) (m n : BitVec w) (ha : 0 < a) (hb : 0 < b) (hc : 0 < c)
    (hm : m.toNat % 2 = 1) (hn : n.toNat % 2 = 1) :
    Function.Bijective (fun x : BitVec w =>
      let x := x ^^^ (x >>> a)
      let x := x * m
      let x := x ^^^ (x >>> b)
      let x := x * n
      let x := x ^^^ (x >>> c)
      x) :=
  (bij_xsr c hc).comp ((bij_mul_odd n hn).comp ((bij_xsr b hb).comp ((bij_mul_odd m hm).comp (bij_xsr a ha))))

theorem bij_h2_sql : Function.Bijective mix32_h2_sql :=
  (bij_xsr' 16 (by decide)).comp ((bij_mul_odd 0x45d9f3b#32 (by decide)).comp
    ((bij_xsr' 16 (by decide)).comp ((bij_mul_odd 0x45d9f3b#32 (by decide)).comp (bij_xsr' 16 (by decide)))))

theorem bij_wang_1 : Function.Bijective mix32_wang_1 :=
  (bij_xsr 15 (by decide)).comp ((bij_mul_odd 0x27d4eb2d#32 (by decide)).comp
    ((bij_xsr 4 (by decide)).comp ((bij_mul_odd 9#32 (by decide)).comp (bij_xor_xsr 61#32 16 (by decide)))))

theorem bij_jenkins : Function.Bijective mix32_jenkins :=
  (bij_xor_xsr 0xb55a4f09#32 16 (by decide)).comp ((bij_add_shl 0xfd7046c5#32 3 (by decide)).comp
    ((bij_add_xor_shl 0xd3a2646c#32 9 (by decide)).comp ((bij_add_shl 0x165667b1#32 5 (by decide)).comp
      ((bij_xor_xsr 0xc761c23c#32 19 (by decide)).comp (bij_add_shl 0x7ed55d16#32 12 (by decide))))))

/-- Every registered 32-bit mixer is a bijection. -/
theorem C13_mixers32 : ∀ m ∈ getMixers32, Function.Bijective m.mix := by
  have e : ∀ m ∈ getMixers32, Function.Bijective m.mix := by
    simp only [getMixers32, List.forall_mem_cons, List.not_mem_nil, false_imp_iff, implies_true, and_true]
    exact ⟨bij_mx32_1, bij_mx32_2, bij_mx32_3,
      bij_xmxmx 15 12 15 0x2c1b3c6d#32 0x297a2d39#32 (by decide) (by decide) (by decide) (by decide) (by decide),
      bij_xmxmx 16 15 15 0x21f0aaad#32 0x735a2d97#32 (by decide) (by decide) (by decide) (by decide) (by decide),
      bij_xmxmx 16 13 16 0x85ebca6b#32 0xc2b2ae35#32 (by decide) (by decide) (by decide) (by decide) (by decide),
      bij_h2_sql, bij_wang_1, bij_jenkins⟩
  exact e

/-- Non-vacuity: there are nine of them, computing something. -/
example : getMixers32.length = 9 ∧ mix32_mx3 1#32 ≠ 1#32 ∧ mix32_jenkins 0#32 = 0x6b4ed927#32 := by decide +kernel

/-! ### C14 -/

theorem bij_mx64_1 : Function.Bijective mix64_mx1 :=
  (bij_xsr 29 (by decide)).comp ((bij_mul_odd 0xe9846af9b1a615d#64 (by decide)).comp (bij_xsr 32 (by decide)))

theorem bij_mx64_2 : Function.Bijective mix64_mx2 :=
  bij_xmxmx 32 29 28 0x7574708ca19c768b#64 0x7574708ca19c768b#64 (by decide) (by decide) (by decide) (by decide) (by decide)

theorem bij_mx64_3 : Function.Bijective mix64_mx3 :=
  (bij_xsr 29 (by decide)).comp ((bij_mul_odd 0xbea225f9eb34556d#64 (by decide)).comp
  ((bij_xsr 32 (by decide)).comp ((bij_mul_odd 0xbea225f9eb34556d#64 (by decide)).comp
    ((bij_xsr 29 (by decide)).comp ((bij_mul_odd 0xbea225f9eb34556d#64 (by decide)).comp (bij_xsr 32 (by decide)))))))

theorem bij_nasam : Function.Bijective mix64_nasam :=
  (bij_xsr2 23 51 (by decide) (by decide)).comp ((bij_mul_odd 0x9E6D62D06F6A9A9B#64 (by decide)).comp
    ((bij_xsr2 23 51 (by decide) (by decide)).comp ((bij_mul_odd 0x9E6C63D0676A9A99#64 (by decide)).comp
      (bij_rot2 25 47))))

theorem bij_split_mix : Function.Bijective mix64_split_mix :=
  bij_xmxmx 30 27 31 0xbf58476d1ce4e5b9#64 0x94d049bb133111eb#64 (by decide) (by decide) (by decide) (by decide) (by decide)

/-- Every registered 64-bit mixer is a bijection. -/
theorem C14_mixers64 : ∀ m ∈ getMixers64, Function.Bijective m.mix := by
  simp only [getMixers64, List.forall_mem_cons, List.not_mem_nil, false_imp_iff, implies_true, and_true]
  exact ⟨bij_mx64_1, bij_mx64_2, bij_mx64_3, bij_nasam,
    bij_xmxmx 27 33 27 0x3C79AC492BA7B653#64 0x1C69B3F74AC4AE35#64 (by decide) (by decide) (by decide) (by decide) (by decide),
    bij_xmxmx 32 32 32 0xdaba0b6eb09322e3#64 0xdaba0b6eb09322e3#64 (by decide) (by decide) (by decide) (by decide) (by decide),
    bij_xmxmx 32 32 32 0xd6e8feb86659fd93#64 0xd6e8feb86659fd93#64 (by decide) (by decide) (by decide) (by decide) (by decide),
    bij_split_mix, bij_split_mix,
    bij_xmxmx 33 33 33 0xff51afd7ed558ccd#64 0xc4ceb9fe1a85ec53#64 (by decide) (by decide) (by decide) (by decide) (by decide),
    (bij_xsr 32 (by decide)).comp ((bij_mul_odd 0x165667919E3779F9#64 (by decide)).comp (bij_xsr 37 (by decide))),
    (bij_xsr 47 (by decide)).comp ((bij_mul_odd 0x2127599bf4325c37#64 (by decide)).comp (bij_xsr 23 (by decide)))⟩

/-- Observation: the mixers called splitmix and splitmix_v13 are the same function. -/
theorem C14_splitmix_same (x : BitVec 64) : mix64_split_mix x = mix64_split_mix_v13 x := rfl

example : getMixers64.length = 12 ∧ mix64_murmur3 1#64 = 0xb456bcfc34c2cb2c#64 := by decide +kernel

/-! ### C15 -/

/-- `mx1`, `mx2`, `mx3` lose nothing from either argument. -/
theorem C15_combiners_bijective :
    ∀ c ∈ [combine32_mx1, combine32_mx2, combine32_mx3],
      (∀ x, Function.Bijective (fun y => c x y)) ∧ (∀ y, Function.Bijective (fun x => c x y)) := by
  simp only [List.forall_mem_cons, List.not_mem_nil, false_imp_iff, implies_true, and_true]
  have hy : ∀ (C : BitVec 32), C.toNat % 2 = 1 → ∀ x, Function.Bijective (fun y : BitVec 32 => x ^^^ ((y ^^^ (y >>> 16)) * C)) :=
    fun C hC x => (bij_const_xor x).comp ((bij_mul_odd C hC).comp (bij_xsr 16 (by decide)))
  have t1 : Function.Bijective (fun x : BitVec 32 =>
      let x := x + 2471660141#32
      let x := x ^^^ (x >>> 14)
      let x := x * 2471660141#32
      let x := x ^^^ (x >>> 13)
      x) :=
    (bij_xsr 13 (by decide)).comp ((bij_mul_odd 2471660141#32 (by decide)).comp ((bij_xsr 14 (by decide)).comp
      (bij_add_const 2471660141#32)))
  have t2 : Function.Bijective (fun x : BitVec 32 =>
      let x := x + 1159349557#32
      let x := x ^^^ (x >>> 14)
      let x := x * 1159349557#32
      let x := x ^^^ (x >>> 13)
      let x := x * 1159349557#32
      let x := x ^^^ (x >>> 16)
      x) :=
    (bij_xsr 16 (by decide)).comp ((bij_mul_odd 1159349557#32 (by decide)).comp
    ((bij_xsr 13 (by decide)).comp ((bij_mul_odd 1159349557#32 (by decide)).comp ((bij_xsr 14 (by decide)).comp
      (bij_add_const 1159349557#32)))))
  have t3 := (bij_xsr (w := 32) 14 (by decide)).comp ((bij_mul_odd 1159349557#32 (by decide)).comp t2)
  refine ⟨⟨fun x => ?_, fun y => ?_⟩, ⟨fun x => ?_, fun y => ?_⟩, ⟨fun x => ?_, fun y => ?_⟩⟩
  · exact t1.comp (hy 2471660141#32 (by decide) x)
  · exact t1.comp (bij_xor_const _)
  · exact t2.comp (hy 1159349557#32 (by decide) x)
  · exact t2.comp (bij_xor_const _)
  · exact t3.comp (hy 1159349557#32 (by decide) x)
  · exact t3.comp (bij_xor_const _)

/-- `boost` is a bijection in its second argument ... -/
theorem C15_boost_second (x : BitVec 32) : Function.Bijective (fun y => combine32_boost x y) := by
  have hh : Function.Bijective boost_hash :=
    bij_xmxmx 16 15 15 0x21f0aaad#32 0x735a2d97#32 (by decide) (by decide) (by decide) (by decide) (by decide)
  have h2 : Function.Bijective (fun h : BitVec 32 => x ^^^ (h + 0x9e3779b9#32 + (x <<< 6) + (x >>> 2))) :=
    (bij_const_xor x).comp ((bij_add_const (x >>> 2)).comp ((bij_add_const (x <<< 6)).comp (bij_add_const _)))
  exact h2.comp hh

/-- ... but not in its first: two different first arguments collide (so the incremental stream built on
`boost` can forget its past). -/
theorem C15_boost_first_not_injective : ∃ y, ¬ Function.Injective (fun x => combine32_boost x y) := by
  refine ⟨0#32, fun h => ?_⟩
  have : (8191#32 : BitVec 32) = 8434#32 := h (by decide +kernel)
  exact absurd this (by decide)

end TFR
