import Verif.Lemmas.Counting
import Verif.Lemmas.Primes
import Verif.Lemmas.Linear
import Verif.Lemmas.Bij
import Verif.Props.Streams
/-
C20, C21: the GF(2)-linear generators.
-/
namespace TFR
open Spec Function

section
variable {V β : Type} [Fintype V] [DecidableEq V] [DecidableEq β]

theorem lin_ne_zero (T : V → V) (z : V) (hz : T z = z) (N : Nat) (hN : 0 < N)
    (hper : ∀ v, v ≠ z → ∀ k, T^[k] v = v ↔ N ∣ k) (s : V) (hs : s ≠ z) (n : Nat) : T^[n] s ≠ z := by
  intro h
  apply hs
  have h1 : T^[N * (n + 1)] s = s := (hper s hs _).2 (dvd_mul_right _ _)
  have h2 : n ≤ N * (n + 1) := le_trans (Nat.le_succ n) (Nat.le_mul_of_pos_left _ hN)
  rw [← Nat.sub_add_cancel h2, iterate_add_apply, h, iterate_fixed hz] at h1
  exact h1.symm

theorem lin_bij (T : V → V) (z : V) (hz : T z = z) (N : Nat) (hN : 0 < N)
    (hper : ∀ v, v ≠ z → ∀ k, T^[k] v = v ↔ N ∣ k) : Bijective T := by
  apply Finite.surjective_iff_bijective.1
  intro v
  by_cases hv : v = z
  · exact ⟨z, hz.trans hv.symm⟩
  · obtain ⟨M, rfl⟩ : ∃ M, N = M + 1 := ⟨N - 1, by omega⟩
    refine ⟨T^[M] v, ?_⟩
    rw [← iterate_succ_apply' T]
    exact (hper v hv _).2 dvd_rfl

theorem lin_counts (T : V → V) (z : V) (hz : T z = z) (N : Nat) (hN : 0 < N) (hcard : Fintype.card V - 1 = N)
    (hper : ∀ v, v ≠ z → ∀ k, T^[k] v = v ↔ N ∣ k) (s : V) (hs : s ≠ z) (g : V → β) (c : Nat) (hc0 : 0 < c)
    (hc : ∀ y, (Finset.univ.filter (fun v => g v = y)).card = c) (f : Nat → β) (hf : ∀ k, f k = g (T^[k] s))
    (y1 : β) (hy1 : y1 ≠ g z) :
    (∀ n y, occurrences f y n N = if y = g z then c - 1 else c) ∧ LeastPeriod f N := by
  have hfe : f = fun k => g (T^[k] s) := funext hf
  have hmin := minimalPeriod_of_iff T s N hN (hper s hs)
  have hcount : ∀ n y, occurrences f y n N = if y = g z then c - 1 else c := by
    intro n y
    have := nonzero_orbit_count T s z (lin_ne_zero T z hz N hN hper s hs) (by rw [hmin, hcard]) (by rw [hcard]; exact hN)
      g y n
    rw [hcard, hc] at this
    rw [hfe, this]
    by_cases h : y = g z
    · rw [if_pos h, if_pos h.symm]
    · rw [if_neg h, if_neg (fun h' => h h'.symm)]; rfl
  refine ⟨hcount, leastPeriod_of_counts f N hN ?_ (g z) y1 ?_⟩
  · rw [hfe, ← hmin]; exact isPeriod_orbit _ _ _
  · rw [hcount, hcount, if_pos rfl, if_neg hy1]
    obtain ⟨d, rfl⟩ : ∃ d, c = d + 1 := ⟨c - 1, by omega⟩
    simp
end

/-! ### periods of the state transitions -/

theorem cert_primes (l : List (Nat × Nat)) (h : ∀ p ∈ l.map Prod.fst, p ∈ [3, 5, 17, 257, 65537, 641, 6700417, 274177, 67280421310721]) :
    ∀ p ∈ l.map Prod.fst, p.Prime := fun p hp => primes128 p (h p hp)

theorem per32 (v : BitVec 32) (hv : v ≠ 0#32) (k : Nat) : xorshift32Step^[k] v = v ↔ (2 ^ 32 - 1) ∣ k :=
  linear_period (V := XV 32) XV.add_self T32 32 P32 (2 ^ 32 - 1) cert32 (by decide) (by decide) (by decide) (by decide)
    (by decide) evP32 (by decide) (cert_primes _ (by decide)) cert32_ok v hv k

theorem per64 (v : BitVec 64) (hv : v ≠ 0#64) (k : Nat) : xorshift64Step^[k] v = v ↔ (2 ^ 64 - 1) ∣ k :=
  linear_period (V := XV 64) XV.add_self T64 64 P64 (2 ^ 64 - 1) cert64 (by decide) (by decide) (by decide) (by decide)
    (by decide) evP64 (by decide) (cert_primes _ (by decide)) cert64_ok v hv k

theorem per128a (v : BitVec 64 × BitVec 64) (hv : v ≠ (0#64, 0#64)) (k : Nat) :
    xorshift128Step^[k] v = v ↔ (2 ^ 128 - 1) ∣ k :=
  linear_period (V := XV 64 × XV 64) (fun v => Prod.ext (XV.add_self _) (XV.add_self _)) T128a 128 P128a (2 ^ 128 - 1)
    cert128a (by decide) (by decide) (by decide) (by decide)
    (by decide) evP128a (by decide) (cert_primes _ (by decide)) cert128a_ok v hv k

theorem per128b (v : BitVec 64 × BitVec 64) (hv : v ≠ (0#64, 0#64)) (k : Nat) :
    xoroshiro128Step^[k] v = v ↔ (2 ^ 128 - 1) ∣ k :=
  linear_period (V := XV 64 × XV 64) (fun v => Prod.ext (XV.add_self _) (XV.add_self _)) T128b 128 P128b (2 ^ 128 - 1)
    cert128b (by decide) (by decide) (by decide) (by decide)
    (by decide) evP128b (by decide) (cert_primes _ (by decide)) cert128b_ok v hv k

theorem per128c (v : X128) (hv : v ≠ (0#32, 0#32, 0#32, 0#32)) (k : Nat) :
    xoshiro128Step^[k] v = v ↔ (2 ^ 128 - 1) ∣ k :=
  linear_period (V := XV 32 × XV 32 × XV 32 × XV 32)
    (fun v => Prod.ext (XV.add_self _) (Prod.ext (XV.add_self _) (Prod.ext (XV.add_self _) (XV.add_self _))))
    T128c 128 P128c (2 ^ 128 - 1)
    cert128c (by decide) (by decide) (by decide) (by decide)
    (by decide) evP128c (by decide) (cert_primes _ (by decide)) cert128c_ok v hv k

theorem zero32 : xorshift32Step 0#32 = 0#32 := by decide +kernel
theorem zero64 : xorshift64Step 0#64 = 0#64 := by decide +kernel
theorem zero128a : xorshift128Step (0#64, 0#64) = (0#64, 0#64) := by decide +kernel
theorem zero128b : xoroshiro128Step (0#64, 0#64) = (0#64, 0#64) := by decide +kernel
theorem zero128c : xoshiro128Step (0#32, 0#32, 0#32, 0#32) = (0#32, 0#32, 0#32, 0#32) := by decide +kernel

/-! ### C20 -/

/-- State transitions: a non-zero state recurs exactly after the multiples of `2^n - 1` steps. -/
theorem C20_state_period :
    (∀ v : BitVec 32, v ≠ 0#32 → ∀ k, xorshift32Step^[k] v = v ↔ (2 ^ 32 - 1) ∣ k) ∧
    (∀ v : BitVec 64, v ≠ 0#64 → ∀ k, xorshift64Step^[k] v = v ↔ (2 ^ 64 - 1) ∣ k) ∧
    Bijective xorshift32Step ∧ Bijective xorshift64Step :=
  ⟨per32, per64, lin_bij _ _ zero32 _ (by decide) per32, lin_bij _ _ zero64 _ (by decide) per64⟩

theorem nth_xorshift32 (seed : SeedData) (k : Nat) :
    (rng32_xorshift seed).nth k = xorshift32Step (xorshift32Step^[k] seed.s32) := by rw [Stream.nth_eq]; rfl
theorem nth_xorshift64 (seed : SeedData) (k : Nat) :
    (rng64_xorshift seed).nth k = xorshift64Step (xorshift64Step^[k] seed.s64) := by rw [Stream.nth_eq]; rfl

/-- xorshift32 from every seed whose low 32 bits are not all zero: least output period `2^32 - 1`, and in
every window of that length each non-zero word occurs exactly once and zero never. -/
theorem C20_xorshift32 (seed : SeedData) (h : seed.s32 ≠ 0#32) :
    (∀ n y, occurrences (rng32_xorshift seed).nth y n (2 ^ 32 - 1) = if y = 0#32 then 0 else 1) ∧
    LeastPeriod (rng32_xorshift seed).nth (2 ^ 32 - 1) := by
  have := lin_counts xorshift32Step 0#32 zero32 (2 ^ 32 - 1) (by decide) (by rw [card_bv]) per32 seed.s32 h
    xorshift32Step 1 (by decide) (bij_fiber _ (lin_bij _ _ zero32 _ (by decide) per32)) _ (nth_xorshift32 seed)
    1#32 (by rw [zero32]; decide)
  rwa [zero32] at this

/-- xorshift64 likewise. -/
theorem C20_xorshift64 (seed : SeedData) (h : seed.s64 ≠ 0#64) :
    (∀ n y, occurrences (rng64_xorshift seed).nth y n (2 ^ 64 - 1) = if y = 0#64 then 0 else 1) ∧
    LeastPeriod (rng64_xorshift seed).nth (2 ^ 64 - 1) := by
  have := lin_counts xorshift64Step 0#64 zero64 (2 ^ 64 - 1) (by decide) (by rw [card_bv]) per64 seed.s64 h
    xorshift64Step 1 (by decide) (bij_fiber _ (lin_bij _ _ zero64 _ (by decide) per64)) _ (nth_xorshift64 seed)
    1#64 (by rw [zero64]; decide)
  rwa [zero64] at this

theorem comp_bij_fiber {V β : Type} [Fintype V] [DecidableEq V] [DecidableEq β] (t : V → V) (ht : Bijective t)
    (g : V → β) (y : β) :
    (Finset.univ.filter (fun v => g (t v) = y)).card = (Finset.univ.filter (fun v => g v = y)).card := by
  apply Finset.card_bij (fun v _ => t v)
  · intro a ha; simpa using ha
  · intro a _ b _ hab; exact ht.1 hab
  · intro b hb
    obtain ⟨v, rfl⟩ := ht.2 b
    exact ⟨v, by simpa using hb, rfl⟩

/-- The 32-bit generator made of the top half of xorshift64: least period `2^64 - 1`, each non-zero word
exactly `2^32` times per period, zero `2^32 - 1` times. -/
theorem C20_xorshift_64_top (seed : SeedData) (h : seed.s64 ≠ 0#64) :
    (∀ n y, occurrences (rng32_xorshift_64 seed).nth y n (2 ^ 64 - 1) = if y = 0#32 then 2 ^ 32 - 1 else 2 ^ 32) ∧
    LeastPeriod (rng32_xorshift_64 seed).nth (2 ^ 64 - 1) := by
  have hb := lin_bij _ _ zero64 _ (by decide) per64
  have := lin_counts xorshift64Step 0#64 zero64 (2 ^ 64 - 1) (by decide) (by rw [card_bv]) per64 seed.s64 h
    (fun v => ((xorshift64Step v) >>> 32).setWidth 32) (2 ^ 32) (Nat.two_pow_pos 32)
    (fun y => by
      rw [comp_bij_fiber xorshift64Step hb (fun v : BitVec 64 => (v >>> 32).setWidth 32)]
      exact high_fiber 32 64 (by decide) y) (rng32_xorshift_64 seed).nth
    (fun k => by
      show (rng32_xorshift_64 seed).nth k = ((xorshift64Step (xorshift64Step^[k] seed.s64)) >>> 32).setWidth 32
      rw [← nth_xorshift64]
      exact Stream.nth_mapS _ _ _ k)
    1#32 (by rw [zero64]; decide)
  simp only [zero64] at this
  exact this

/-- Zero seeds: the generators are stuck at zero. -/
theorem C20_zero_stuck (seed : SeedData) :
    (seed.s32 = 0#32 → ∀ k, (rng32_xorshift seed).nth k = 0#32) ∧
    (seed.s64 = 0#64 → ∀ k, (rng64_xorshift seed).nth k = 0#64 ∧ (rng32_xorshift_64 seed).nth k = 0#32) := by
  have h64 : seed.s64 = 0#64 → ∀ k, (rng64_xorshift seed).nth k = 0#64 := by
    intro h k
    rw [nth_xorshift64, h, iterate_fixed zero64, zero64]
  refine ⟨fun h k => ?_, fun h k => ⟨h64 h k, ?_⟩⟩
  · rw [nth_xorshift32, h, iterate_fixed zero32, zero32]
  · have : (rng32_xorshift_64 seed).nth k = (((rng64_xorshift seed).nth k) >>> 32).setWidth 32 :=
      Stream.nth_mapS _ _ _ k
    rw [this, h64 h]; decide

/-- Non-vacuity: seed 1, and its first outputs (the values of the reference implementation). -/
example : (⟨1#64, 0#64, 0#64, 0#64⟩ : SeedData).s32 ≠ 0#32 ∧ (rng32_xorshift ⟨1#64, 0#64, 0#64, 0#64⟩).nth 0 = 270369#32 ∧
    (rng64_xorshift ⟨1#64, 0#64, 0#64, 0#64⟩).nth 0 = 1082269761#64 := by decide +kernel

/-! ### C21 -/

/-- Every state transition is invertible, fixes only the zero state, and a non-zero state recurs exactly at
the multiples of `2^128 - 1`. -/
theorem C21_state_period :
    (Bijective xorshift128Step ∧ Bijective xoroshiro128Step ∧ Bijective xoshiro128Step) ∧
    (∀ v, v ≠ (0#64, 0#64) → ∀ k, xorshift128Step^[k] v = v ↔ (2 ^ 128 - 1) ∣ k) ∧
    (∀ v, v ≠ (0#64, 0#64) → ∀ k, xoroshiro128Step^[k] v = v ↔ (2 ^ 128 - 1) ∣ k) ∧
    (∀ v, v ≠ (0#32, 0#32, 0#32, 0#32) → ∀ k, xoshiro128Step^[k] v = v ↔ (2 ^ 128 - 1) ∣ k) ∧
    xorshift128Step (0#64, 0#64) = (0#64, 0#64) ∧ xoroshiro128Step (0#64, 0#64) = (0#64, 0#64) ∧
    xoshiro128Step (0#32, 0#32, 0#32, 0#32) = (0#32, 0#32, 0#32, 0#32) :=
  ⟨⟨lin_bij _ _ zero128a _ (by decide) per128a, lin_bij _ _ zero128b _ (by decide) per128b,
    lin_bij _ _ zero128c _ (by decide) per128c⟩, per128a, per128b, per128c, zero128a, zero128b, zero128c⟩

theorem card_128a : Fintype.card (BitVec 64 × BitVec 64) - 1 = 2 ^ 128 - 1 := by
  rw [Fintype.card_prod, card_bv, ← pow_add]
theorem card_128c : Fintype.card X128 - 1 = 2 ^ 128 - 1 := by
  rw [Fintype.card_prod, Fintype.card_prod, Fintype.card_prod, card_bv, ← pow_add, ← pow_add, ← pow_add]

theorem sum_fiber64 (y : BitVec 64) :
    (Finset.univ.filter (fun s : BitVec 64 × BitVec 64 => s.1 + s.2 = y)).card = 2 ^ 64 := by
  have := fiber_card (fun s : BitVec 64 × BitVec 64 => (s.1 + s.2, s.1)) (bij_of_inj_card _ (fun a b h => ?_) rfl) y
  · rw [card_bv] at this; exact this
  · simp only [Prod.mk.injEq] at h
    obtain ⟨h1, h2⟩ := h
    rw [h2] at h1
    exact Prod.ext h2 ((BitVec.add_right_inj _).1 h1)

theorem nth_xs128 (seed : SeedData) (k : Nat) :
    (rng64_xorshift128plus seed).nth k =
      (fun s : BitVec 64 × BitVec 64 => s.1 + s.2) (xorshift128Step^[k] seed.s128_64) := by
  rw [Stream.nth_eq]; exact BitVec.add_comm _ _
theorem nth_xor128 (seed : SeedData) (k : Nat) :
    (rng64_xoroshiro128plus seed).nth k =
      (fun s : BitVec 64 × BitVec 64 => s.1 + s.2) (xoroshiro128Step^[k] seed.s128_64) := by
  rw [Stream.nth_eq]; rfl

/-- The two 64-bit generators from every seed whose first two words are not both zero: least output period
`2^128 - 1`; per period each non-zero word occurs exactly `2^64` times and zero `2^64 - 1` times. -/
theorem C21_outputs_64 (rng : SeedData → Stream (BitVec 64))
    (hr : rng ∈ [rng64_xorshift128plus, rng64_xoroshiro128plus]) (seed : SeedData)
    (h : ¬ (seed.d0 = 0#64 ∧ seed.d1 = 0#64)) :
    (∀ n y, occurrences (rng seed).nth y n (2 ^ 128 - 1) = if y = 0#64 then 2 ^ 64 - 1 else 2 ^ 64) ∧
    LeastPeriod (rng seed).nth (2 ^ 128 - 1) := by
  have hs : seed.s128_64 ≠ (0#64, 0#64) := fun e => h ⟨congrArg Prod.fst e, congrArg Prod.snd e⟩
  simp only [List.mem_cons, List.not_mem_nil, or_false] at hr
  rcases hr with rfl | rfl
  · exact lin_counts xorshift128Step (0#64, 0#64) zero128a (2 ^ 128 - 1) (by decide) card_128a per128a _ hs _
      (2 ^ 64) (Nat.two_pow_pos 64) sum_fiber64 _ (nth_xs128 seed) 1#64 (by decide)
  · exact lin_counts xoroshiro128Step (0#64, 0#64) zero128b (2 ^ 128 - 1) (by decide) card_128a per128b _ hs _
      (2 ^ 64) (Nat.two_pow_pos 64) sum_fiber64 _ (nth_xor128 seed) 1#64 (by decide)

theorem card_w3 : Fintype.card (BitVec 32 × BitVec 32 × BitVec 32) = 2 ^ 96 := by
  rw [Fintype.card_prod, Fintype.card_prod, card_bv, ← pow_add, ← pow_add]

theorem plus_fiber32 (y : BitVec 32) : (Finset.univ.filter (fun s : X128 => s.1 + s.2.2.2 = y)).card = 2 ^ 96 := by
  have := fiber_card (fun s : X128 => (s.1 + s.2.2.2, (s.1, s.2.1, s.2.2.1))) (bij_of_inj_card _ (fun a b h => ?_) rfl) y
  · rw [card_w3] at this; exact this
  · obtain ⟨a0, a1, a2, a3⟩ := a
    obtain ⟨b0, b1, b2, b3⟩ := b
    simp only [Prod.mk.injEq] at h ⊢
    obtain ⟨h1, h2, h3, h4⟩ := h
    subst h2
    exact ⟨rfl, h3, h4, (BitVec.add_right_inj _).1 h1⟩

theorem plusplus_fiber32 (y : BitVec 32) :
    (Finset.univ.filter (fun s : X128 => rol (s.1 + s.2.2.2) 7 + s.1 = y)).card = 2 ^ 96 := by
  have := fiber_card (fun s : X128 => (rol (s.1 + s.2.2.2) 7 + s.1, (s.1, s.2.1, s.2.2.1)))
    (bij_of_inj_card _ (fun a b h => ?_) rfl) y
  · rw [card_w3] at this; exact this
  · obtain ⟨a0, a1, a2, a3⟩ := a
    obtain ⟨b0, b1, b2, b3⟩ := b
    simp only [Prod.mk.injEq] at h ⊢
    obtain ⟨h1, h2, h3, h4⟩ := h
    subst h2
    have h5 := (bij_add_const a0).1 h1
    have h6 := congrArg (fun z => ror z 7) h5
    simp only [ror_rol] at h6
    exact ⟨rfl, h3, h4, (BitVec.add_right_inj _).1 h6⟩

/-- The two 32-bit generators from every seed whose four words are not all zero in their low halves: least
output period `2^128 - 1`; per period each non-zero word exactly `2^96` times and zero `2^96 - 1` times. -/
theorem C21_outputs_32 (rng : SeedData → Stream (BitVec 32))
    (hr : rng ∈ [rng32_xoshiro128plus, rng32_xoshiro128plusplus]) (seed : SeedData)
    (h : seed.s128_32 ≠ (0#32, 0#32, 0#32, 0#32)) :
    (∀ n y, occurrences (rng seed).nth y n (2 ^ 128 - 1) = if y = 0#32 then 2 ^ 96 - 1 else 2 ^ 96) ∧
    LeastPeriod (rng seed).nth (2 ^ 128 - 1) := by
  simp only [List.mem_cons, List.not_mem_nil, or_false] at hr
  rcases hr with rfl | rfl
  · exact lin_counts xoshiro128Step (0#32, 0#32, 0#32, 0#32) zero128c (2 ^ 128 - 1) (by decide) card_128c per128c _ h
      (fun s : X128 => s.1 + s.2.2.2) (2 ^ 96) (Nat.two_pow_pos 96) plus_fiber32 _
      (fun k => by rw [Stream.nth_eq]; rfl) 1#32 (by decide)
  · have := lin_counts xoshiro128Step (0#32, 0#32, 0#32, 0#32) zero128c (2 ^ 128 - 1) (by decide) card_128c per128c _ h
      (fun s : X128 => rol (s.1 + s.2.2.2) 7 + s.1) (2 ^ 96) (Nat.two_pow_pos 96) plusplus_fiber32
      (rng32_xoshiro128plusplus seed).nth
      (fun k => by rw [Stream.nth_eq]; rfl) 1#32 (by decide +kernel)
    rwa [show rol (0#32 + 0#32) 7 + 0#32 = 0#32 by decide +kernel] at this

/-- A zero seed is stuck at zero. -/
theorem C21_zero_stuck (seed : SeedData) (k : Nat) :
    (seed.s128_64 = (0#64, 0#64) → (rng64_xorshift128plus seed).nth k = 0#64 ∧ (rng64_xoroshiro128plus seed).nth k = 0#64) ∧
    (seed.s128_32 = (0#32, 0#32, 0#32, 0#32) →
      (rng32_xoshiro128plus seed).nth k = 0#32 ∧ (rng32_xoshiro128plusplus seed).nth k = 0#32) := by
  refine ⟨fun h => ⟨?_, ?_⟩, fun h => ⟨?_, ?_⟩⟩
  · rw [nth_xs128, h, iterate_fixed zero128a]; decide
  · rw [nth_xor128, h, iterate_fixed zero128b]; decide
  · rw [Stream.nth_eq]
    show (xoshiro128Step^[k] seed.s128_32).1 + (xoshiro128Step^[k] seed.s128_32).2.2.2 = 0#32
    rw [h, iterate_fixed zero128c]; decide
  · rw [Stream.nth_eq]
    show rol ((xoshiro128Step^[k] seed.s128_32).1 + (xoshiro128Step^[k] seed.s128_32).2.2.2) 7 + (xoshiro128Step^[k] seed.s128_32).1 = 0#32
    rw [h, iterate_fixed zero128c]; decide +kernel

/-- Non-vacuity: a usable seed and a first output. -/
example : ¬ ((⟨1#64, 2#64, 0#64, 0#64⟩ : SeedData).d0 = 0#64 ∧ (⟨1#64, 2#64, 0#64, 0#64⟩ : SeedData).d1 = 0#64) ∧
    (rng64_xorshift128plus ⟨1#64, 2#64, 0#64, 0#64⟩).nth 0 = 3#64 ∧
    (⟨1#64, 2#64, 3#64, 4#64⟩ : SeedData).s128_32 ≠ (0#32, 0#32, 0#32, 0#32) ∧
    (rng32_xoshiro128plusplus ⟨1#64, 2#64, 3#64, 4#64⟩).nth 0 = 641#32 := by decide +kernel

end TFR
