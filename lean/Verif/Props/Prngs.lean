import Verif.Lemmas.Counting
import Verif.Lemmas.Primes
import Verif.Props.Mixers
import Verif.Model.Prngs
/-
C18, C19, C22, C23, C24: counter based generators, truncations, sfc, pcg, minstd.
-/
namespace TFR
open Spec Function

/-! ### Weyl sequences -/

theorem iterate_add_const {w : Nat} (c s : BitVec w) (k : Nat) : (· + c)^[k] s = s + BitVec.ofNat w k * c := by
  induction k with
  | zero => simp
  | succ k ih =>
    rw [iterate_succ_apply', ih]
    apply BitVec.eq_of_toNat_eq
    simp only [BitVec.toNat_add, BitVec.toNat_mul, BitVec.toNat_ofNat]
    simp only [Nat.mod_add_mod, Nat.add_mod_mod, Nat.mod_mul_mod, Nat.add_mul, Nat.one_mul, Nat.add_assoc]

theorem minimalPeriod_weyl {w : Nat} (c s : BitVec w) (hc : c.toNat % 2 = 1) : minimalPeriod (· + c) s = 2 ^ w := by
  apply minimalPeriod_of_iff _ _ _ (Nat.two_pow_pos w)
  intro k
  rw [iterate_add_const]
  have hcop : Nat.Coprime (2 ^ w) c.toNat := by
    apply Nat.Coprime.pow_left
    rw [Nat.coprime_two_left, Nat.odd_iff]; exact hc
  constructor
  · intro h
    have h1 : BitVec.ofNat w k * c = 0#w := (BitVec.add_right_inj s).1 (h.trans (BitVec.add_zero s).symm)
    have h2 := congrArg BitVec.toNat h1
    rw [BitVec.toNat_mul, BitVec.toNat_ofNat, Nat.mod_mul_mod] at h2
    exact hcop.dvd_of_dvd_mul_right (Nat.dvd_of_mod_eq_zero (by simpa using h2))
  · rintro ⟨q, rfl⟩
    have : BitVec.ofNat w (2 ^ w * q) = 0#w := by apply BitVec.eq_of_toNat_eq; simp
    rw [this]; simp

/-- A stream that adds an odd constant to its word and returns a bijective function of the new word. -/
theorem weyl {w : Nat} (f : Nat → BitVec w) (mix : BitVec w → BitVec w) (c s : BitVec w) (hc : c.toNat % 2 = 1)
    (hm : Bijective mix) (hf : ∀ k, f k = mix (s + BitVec.ofNat w (k + 1) * c)) :
    (∀ y n, occurrences f y n (2 ^ w) = 1) ∧ LeastPeriod f (2 ^ w) := by
  have hfe : f = fun k => (mix ∘ (· + c)) ((· + c)^[k] s) := by
    funext k
    rw [hf, ← iterate_add_const, iterate_succ_apply']; rfl
  have hb : Bijective (mix ∘ (· + c)) := hm.comp (bij_add_const c)
  have hp := minimalPeriod_weyl c s hc
  have hcount : ∀ y n, occurrences f y n (2 ^ w) = 1 := by
    intro y n
    rw [hfe, ← card_bv w, full_orbit_count (· + c) s (by rw [hp, card_bv]), bij_fiber _ hb]
  refine ⟨hcount, ?_⟩
  apply leastPeriod_of_counts f _ (Nat.two_pow_pos w) _ 0#w 0#w
  · rw [hcount]; decide
  · rw [hfe, ← hp]; exact isPeriod_orbit _ _ _

theorem nth_mx64_1 (seed : SeedData) (k : Nat) :
    (rng64_mx1 seed).nth k = mix64_mx1 (seed.s64 + BitVec.ofNat 64 (k + 1) * 0xe9846af9b1a615d#64) := by
  rw [← iterate_add_const, iterate_succ_apply', Stream.nth_eq]; rfl
theorem nth_mx64_2 (seed : SeedData) (k : Nat) :
    (rng64_mx2 seed).nth k = mix64_mx2 (seed.s64 + BitVec.ofNat 64 (k + 1) * 0x7574708ca19c768b#64) := by
  rw [← iterate_add_const, iterate_succ_apply', Stream.nth_eq]; rfl
theorem nth_mx64_3 (seed : SeedData) (k : Nat) :
    (rng64_mx3 seed).nth k = mix64_mx3 (seed.s64 + BitVec.ofNat 64 (k + 1) * 0xbea225f9eb34556d#64) := by
  rw [← iterate_add_const, iterate_succ_apply', Stream.nth_eq]; rfl
theorem nth_splitmix (seed : SeedData) (k : Nat) :
    (rng64_splitmix seed).nth k = mix64_split_mix (seed.s64 + BitVec.ofNat 64 (k + 1) * 0x9E3779B97F4A7C15#64) := by
  rw [← iterate_add_const, iterate_succ_apply', Stream.nth_eq]; rfl
theorem nth_mx32_1 (seed : SeedData) (k : Nat) :
    (rng32_mx1 seed).nth k = mix32_mx1 (seed.s32 + BitVec.ofNat 32 (k + 1) * 2471660141#32) := by
  rw [← iterate_add_const, iterate_succ_apply', Stream.nth_eq]; rfl
theorem nth_mx32_2 (seed : SeedData) (k : Nat) :
    (rng32_mx2 seed).nth k = mix32_mx2 (seed.s32 + BitVec.ofNat 32 (k + 1) * 1159349557#32) := by
  rw [← iterate_add_const, iterate_succ_apply', Stream.nth_eq]; rfl
theorem nth_mx32_3 (seed : SeedData) (k : Nat) :
    (rng32_mx3 seed).nth k = mix32_mx3 (seed.s32 + BitVec.ofNat 32 (k + 1) * 1159349557#32) := by
  rw [← iterate_add_const, iterate_succ_apply', Stream.nth_eq]; rfl

/-! ### C18 -/

/-- The counter-based 64-bit generators: call `k` returns `mix(seed + (k+1)·increment)`. -/
theorem C18_closed_form_64 (seed : SeedData) (k : Nat) :
    (rng64_mx1 seed).nth k = mix64_mx1 (seed.s64 + BitVec.ofNat 64 (k + 1) * 0xe9846af9b1a615d#64) ∧
    (rng64_mx2 seed).nth k = mix64_mx2 (seed.s64 + BitVec.ofNat 64 (k + 1) * 0x7574708ca19c768b#64) ∧
    (rng64_mx3 seed).nth k = mix64_mx3 (seed.s64 + BitVec.ofNat 64 (k + 1) * 0xbea225f9eb34556d#64) ∧
    (rng64_splitmix seed).nth k = mix64_split_mix (seed.s64 + BitVec.ofNat 64 (k + 1) * 0x9E3779B97F4A7C15#64) :=
  ⟨nth_mx64_1 seed k, nth_mx64_2 seed k, nth_mx64_3 seed k, nth_splitmix seed k⟩

theorem C18_closed_form_32 (seed : SeedData) (k : Nat) :
    (rng32_mx1 seed).nth k = mix32_mx1 (seed.s32 + BitVec.ofNat 32 (k + 1) * 2471660141#32) ∧
    (rng32_mx2 seed).nth k = mix32_mx2 (seed.s32 + BitVec.ofNat 32 (k + 1) * 1159349557#32) ∧
    (rng32_mx3 seed).nth k = mix32_mx3 (seed.s32 + BitVec.ofNat 32 (k + 1) * 1159349557#32) :=
  ⟨nth_mx32_1 seed k, nth_mx32_2 seed k, nth_mx32_3 seed k⟩

/-- For every seed, each 64-bit value occurs exactly once in every window of `2^64` outputs, and the least
period of the output sequence is `2^64`. -/
theorem C18_full_period_64 (rng : SeedData → Stream (BitVec 64))
    (h : rng ∈ [rng64_mx1, rng64_mx2, rng64_mx3, rng64_splitmix]) (seed : SeedData) :
    (∀ y n, occurrences (rng seed).nth y n (2 ^ 64) = 1) ∧ LeastPeriod (rng seed).nth (2 ^ 64) := by
  simp only [List.mem_cons, List.not_mem_nil, or_false] at h
  rcases h with rfl | rfl | rfl | rfl
  · exact weyl _ _ _ _ (by decide) bij_mx64_1 (nth_mx64_1 seed)
  · exact weyl _ _ _ _ (by decide) bij_mx64_2 (nth_mx64_2 seed)
  · exact weyl _ _ _ _ (by decide) bij_mx64_3 (nth_mx64_3 seed)
  · exact weyl _ _ _ _ (by decide) bij_split_mix (nth_splitmix seed)

theorem C18_full_period_32 (rng : SeedData → Stream (BitVec 32))
    (h : rng ∈ [rng32_mx1, rng32_mx2, rng32_mx3]) (seed : SeedData) :
    (∀ y n, occurrences (rng seed).nth y n (2 ^ 32) = 1) ∧ LeastPeriod (rng seed).nth (2 ^ 32) := by
  simp only [List.mem_cons, List.not_mem_nil, or_false] at h
  rcases h with rfl | rfl | rfl
  · exact weyl _ _ _ _ (by decide) bij_mx32_1 (nth_mx32_1 seed)
  · exact weyl _ _ _ _ (by decide) bij_mx32_2 (nth_mx32_2 seed)
  · exact weyl _ _ _ _ (by decide) bij_mx32_3 (nth_mx32_3 seed)

/-- Non-vacuity: the first output of splitmix64 seeded with 0 is the well-known constant. -/
example : (rng64_splitmix ⟨0#64, 0#64, 0#64, 0#64⟩).nth 0 = 0xe220a8397b1dcdaf#64 := by decide +kernel

/-! ### C23: PCG -/

theorem pcg_affine (a c : Nat) (k : Nat) (x : Nat) :
    (fun x => x * a + c)^[k] x = x * a ^ k + (fun x => x * a + c)^[k] 0 := by
  induction k generalizing x with
  | zero => simp
  | succ k ih =>
    rw [iterate_succ_apply', iterate_succ_apply', ih x]
    simp only [pow_succ]; ring

theorem pcg_steps (a c : Nat) (ha : a % 4 = 1) (hc : c % 2 = 1) (k : Nat) :
    (∃ u, a ^ 2 ^ k = 1 + 2 ^ (k + 2) * u) ∧ ∃ v, (fun x => x * a + c)^[2 ^ k] 0 = 2 ^ k * (2 * v + 1) := by
  induction k with
  | zero =>
    refine ⟨⟨a / 4, by simp; omega⟩, ⟨c / 2, by simp; omega⟩⟩
  | succ k ih =>
    obtain ⟨⟨u, hu⟩, ⟨v, hv⟩⟩ := ih
    refine ⟨⟨u + 2 ^ (k + 1) * u ^ 2, ?_⟩, ⟨v + 2 ^ k * u * (2 * v + 1), ?_⟩⟩
    · rw [pow_succ 2 k, pow_mul, hu]
      rw [show k + 1 + 2 = (k + 2) + 1 by ring, pow_succ 2 (k + 2)]
      rw [show k + 2 = k + 1 + 1 by ring, pow_succ 2 (k + 1)]
      ring
    · rw [pow_succ 2 k, Nat.mul_two, iterate_add_apply, pcg_affine, hv, hu, show k + 2 = k + 1 + 1 by ring, pow_succ, pow_succ]
      ring

theorem toNat_lcg_iter {w : Nat} (a inc s : BitVec w) (k : Nat) :
    ((fun x => x * a + inc)^[k] s).toNat = (fun x => x * a.toNat + inc.toNat)^[k] s.toNat % 2 ^ w := by
  induction k with
  | zero => exact (Nat.mod_eq_of_lt s.isLt).symm
  | succ k ih =>
    rw [iterate_succ_apply', iterate_succ_apply', BitVec.toNat_add, BitVec.toNat_mul, ih]
    simp only [Nat.mod_add_mod, Nat.mod_mul_mod]

theorem minimalPeriod_lcg {w : Nat} (hw : 0 < w) (a inc s : BitVec w) (ha : a.toNat % 4 = 1) (hinc : inc.toNat % 2 = 1) :
    minimalPeriod (fun x => x * a + inc) s = 2 ^ w := by
  have key : ∀ k, ∃ u v, ((fun x => x * a + inc)^[2 ^ k] s).toNat
      = (s.toNat + 2 ^ k * (2 * v + 1) + 2 ^ (k + 2) * u) % 2 ^ w := by
    intro k
    obtain ⟨⟨u, hu⟩, ⟨v, hv⟩⟩ := pcg_steps a.toNat inc.toNat ha hinc k
    refine ⟨u * s.toNat, v, ?_⟩
    rw [toNat_lcg_iter, pcg_affine, hu, hv]
    congr 1; ring
  have h64 : (fun x => x * a + inc)^[2 ^ w] s = s := by
    obtain ⟨u, v, h⟩ := key w
    apply BitVec.eq_of_toNat_eq
    rw [h, show w + 2 = 2 + w by omega, pow_add 2 2 w]
    rw [show s.toNat + 2 ^ w * (2 * v + 1) + 2 ^ 2 * 2 ^ w * u = s.toNat + 2 ^ w * ((2 * v + 1) + 4 * u) by ring,
      Nat.add_mul_mod_self_left, Nat.mod_eq_of_lt s.isLt]
  have h63 : (fun x => x * a + inc)^[2 ^ (w - 1)] s ≠ s := by
    obtain ⟨u, v, h⟩ := key (w - 1)
    intro he
    rw [he] at h
    have hs := s.isLt
    obtain ⟨m, rfl⟩ : ∃ m, w = m + 1 := ⟨w - 1, by omega⟩
    rw [Nat.add_sub_cancel] at h
    have : s.toNat + 2 ^ m * (2 * v + 1) + 2 ^ (m + 2) * u
        = (s.toNat + 2 ^ m) + 2 ^ (m + 1) * (v + 2 * u) := by ring
    rw [this, Nat.add_mul_mod_self_left] at h
    have hp := Nat.two_pow_pos m
    have h2 : 2 ^ (m + 1) = 2 ^ m + 2 ^ m := by rw [pow_succ]; omega
    rw [h2] at h hs
    generalize 2 ^ m = M at *
    rcases Nat.lt_or_ge (s.toNat + M) (M + M) with h5 | h5
    · rw [Nat.mod_eq_of_lt h5] at h; omega
    · rw [Nat.mod_eq_sub_mod h5, Nat.mod_eq_of_lt (by omega)] at h; omega
  have hd : minimalPeriod (fun x => x * a + inc) s ∣ 2 ^ w := IsPeriodicPt.minimalPeriod_dvd h64
  obtain ⟨j, hj, hje⟩ := (Nat.dvd_prime_pow Nat.prime_two).1 hd
  rcases Nat.lt_or_ge j w with hlt | hge
  · exfalso
    apply h63
    apply (isPeriodicPt_minimalPeriod (fun x => x * a + inc) s).trans_dvd
    rw [hje]
    exact Nat.pow_dvd_pow 2 (by omega)
  · rw [hje, show j = w by omega]

theorem minimalPeriod_pcg (inc s : BitVec 64) (hinc : inc.toNat % 2 = 1) : minimalPeriod (pcgBump inc) s = 2 ^ 64 :=
  minimalPeriod_lcg (by decide) pcgMult inc s (by decide) hinc

/-- The `rxs_m_xs` output function is a bijection. -/
theorem bij_rxsMXs : Bijective pcgRxsMXs := by
  have h1 : Bijective (fun x : BitVec 64 => x ^^^ (x >>> (5 + ((x >>> 59).toNat &&& 31)))) := by
    apply bij_of_inj
    intro x y h
    simp only at h
    have htop : ∀ x : BitVec 64, ∀ k, (x ^^^ (x >>> (5 + k))) >>> 59 = x >>> 59 := by
      intro x k
      apply BitVec.eq_of_getLsbD_eq
      intro i hi
      simp only [BitVec.getLsbD_ushiftRight, BitVec.getLsbD_xor]
      rw [BitVec.getLsbD_of_ge x (5 + k + (59 + i)) (by omega)]
      simp
    have e := congrArg (fun z : BitVec 64 => z >>> 59) h
    simp only [htop] at e
    rw [e] at h
    exact (bij_xsr _ (by omega)).1 h
  have h2 := (bij_xsr (w := 64) 43 (by decide)).comp ((bij_mul_odd 12605985483714917081#64 (by decide)).comp h1)
  convert h2 using 1
  funext x
  unfold pcgRxsMXs
  simp [Function.comp]

theorem stateAt_pcg64 (e : Pcg) (k : Nat) : (pcg64Stream e).stateAt k = ⟨(pcgBump e.inc)^[k] e.state, e.inc⟩ := by
  induction k with
  | zero => rfl
  | succ k ih => rw [Stream.stateAt_succ, ih, iterate_succ_apply']; rfl
theorem stateAt_pcg32 (e : Pcg) (k : Nat) : (pcg32Stream e).stateAt k = ⟨(pcgBump e.inc)^[k] e.state, e.inc⟩ := by
  induction k with
  | zero => rfl
  | succ k ih => rw [Stream.stateAt_succ, ih, iterate_succ_apply']; rfl
theorem nth_pcg64 (e : Pcg) (k : Nat) : (pcg64Stream e).nth k = pcgRxsMXs ((pcgBump e.inc)^[k] e.state) := by
  rw [Stream.nth_eq, stateAt_pcg64]; rfl
theorem nth_pcg32 (e : Pcg) (k : Nat) : (pcg32Stream e).nth k = pcgXshRr ((pcgBump e.inc)^[k] e.state) := by
  rw [Stream.nth_eq, stateAt_pcg32]; rfl

theorem pcg_count {β : Type} [DecidableEq β] (e : Pcg) (h : e.inc.toNat % 2 = 1) (f : Nat → β) (g : BitVec 64 → β)
    (hf : ∀ k, f k = g ((pcgBump e.inc)^[k] e.state)) (y : β) (n : Nat) :
    occurrences f y n (2 ^ 64) = (Finset.univ.filter (fun v => g v = y)).card := by
  rw [show f = fun k => g ((pcgBump e.inc)^[k] e.state) from funext hf]
  have := full_orbit_count (pcgBump e.inc) e.state (by rw [minimalPeriod_pcg _ _ h, card_bv]) g y n
  rwa [card_bv] at this

/-- Every engine the constructors can produce has an odd increment: the default stream and every chosen
stream. -/
theorem C23_increment_odd (s stream : BitVec 64) :
    (pcgSeed s).inc.toNat % 2 = 1 ∧ (pcgSeedStream s stream).inc.toNat % 2 = 1 := by
  constructor
  · show (1442695040888963407#64).toNat % 2 = 1; decide
  · have : ((stream <<< 1) ||| 1#64).getLsbD 0 = true := by simp
    simp only [BitVec.getLsbD, Nat.testBit_zero, decide_eq_true_eq] at this
    exact this

/-- `pcg64_once_insecure`: least period `2^64`, each 64-bit value exactly once per `2^64` outputs - for every
seed, and (since `inc` is arbitrary odd) on every stream. -/
theorem C23_pcg64 (e : Pcg) (h : e.inc.toNat % 2 = 1) :
    (∀ y n, occurrences (pcg64Stream e).nth y n (2 ^ 64) = 1) ∧ LeastPeriod (pcg64Stream e).nth (2 ^ 64) := by
  have hcount : ∀ y n, occurrences (pcg64Stream e).nth y n (2 ^ 64) = 1 := by
    intro y n
    rw [pcg_count e h _ pcgRxsMXs (nth_pcg64 e), bij_fiber _ bij_rxsMXs]
  refine ⟨hcount, leastPeriod_of_counts _ _ (by norm_num) ?_ 0#64 0#64 ?_⟩
  · rw [show (pcg64Stream e).nth = fun k => pcgRxsMXs ((pcgBump e.inc)^[k] e.state) from funext (nth_pcg64 e),
      ← minimalPeriod_pcg e.inc e.state h]
    exact isPeriod_orbit _ _ _
  · rw [hcount]; decide

/-- The registered generator `rng64::pcg`. -/
theorem C23_rng64_pcg (seed : SeedData) :
    (∀ y n, occurrences (rng64_pcg seed).nth y n (2 ^ 64) = 1) ∧ LeastPeriod (rng64_pcg seed).nth (2 ^ 64) :=
  C23_pcg64 _ (C23_increment_odd seed.s64 0#64).1

theorem getLsbD_rotateRight_bij {w : Nat} (r : Nat) : Injective (fun x : BitVec w => x.rotateRight r) := by
  rcases Nat.eq_zero_or_pos w with h0 | hw
  · subst h0; intro a b _; exact Subsingleton.elim _ _
  intro x y h
  have e : ∀ z : BitVec w, z.rotateRight r = ror z (r % w : Nat) := by
    intro z
    apply BitVec.eq_of_getLsbD_eq
    intro i hi
    rw [BitVec.getLsbD_rotateRight, getLsbD_ror _ _ _ hi]
    have hr : r % w < w := Nat.mod_lt _ hw
    rw [cond_eq_ite]
    simp only [decide_eq_true_eq]
    split
    · next h1 =>
      congr 1
      rw [Int.emod_eq_of_lt (by omega) (by omega)]; omega
    · next h1 =>
      simp only [hi, decide_true, Bool.true_and]
      congr 1
      rw [show ((i : Int) + ((r % w : Nat) : Int)) = ((i - (w - r % w) : Nat) : Int) + (w : Int) by omega,
        Int.add_emod_right, Int.emod_eq_of_lt (by omega) (by omega)]
      omega
  simp only [e] at h
  have := congrArg (fun z => ror z (-(r % w : Nat) : Int)) h
  simp only [ror_ror] at this
  rwa [show ((r % w : Nat) : Int) + -((r % w : Nat) : Int) = 0 by omega, ror_zero, ror_zero] at this

/-- Each 32-bit value has exactly `2^32` states mapping to it under `xsh_rr`. -/
theorem xshRr_fiber (y : BitVec 32) : (Finset.univ.filter (fun v => pcgXshRr v = y)).card = 2 ^ 32 := by
  have := fiber_card (fun v : BitVec 64 => (pcgXshRr v, ((v >>> 59).setWidth 5, ((v ^^^ (v >>> 18)).setWidth 27 : BitVec 27))))
    (bij_of_inj_card _ (fun a b h => ?_) ?_) y
  · rw [Fintype.card_prod, card_bv, card_bv, ← pow_add] at this; exact this
  · simp only [Prod.mk.injEq] at h
    obtain ⟨h1, h2, h3⟩ := h
    have hrot : (a >>> 59) = (b >>> 59) := by
      apply BitVec.eq_of_getLsbD_eq
      intro i hi
      by_cases hi5 : i < 5
      · have := congrArg (fun z => z.getLsbD i) h2
        simpa [BitVec.getLsbD_setWidth, hi5] using this
      · rw [BitVec.getLsbD_ushiftRight, BitVec.getLsbD_ushiftRight, BitVec.getLsbD_of_ge _ _ (by omega),
          BitVec.getLsbD_of_ge _ _ (by omega)]
    unfold pcgXshRr at h1
    simp only at h1
    rw [hrot] at h1
    have h4 := getLsbD_rotateRight_bij _ h1
    -- the whole mixed word agrees
    have hmid : a ^^^ (a >>> 18) = b ^^^ (b >>> 18) := by
      apply BitVec.eq_of_getLsbD_eq
      intro i hi
      by_cases hi27 : i < 27
      · have := congrArg (fun z => z.getLsbD i) h3
        simpa only [BitVec.getLsbD_setWidth, hi27, decide_true, Bool.true_and] using this
      · by_cases hi59 : i < 59
        · have := congrArg (fun z => z.getLsbD (i - 27)) h4
          simp only [BitVec.getLsbD_setWidth, show i - 27 < 32 by omega, decide_true, Bool.true_and,
            BitVec.getLsbD_ushiftRight (i := 27), show 27 + (i - 27) = i by omega] at this
          exact this
        · have := congrArg (fun z => z.getLsbD (i - 59)) hrot
          simp only [BitVec.getLsbD_ushiftRight, show 59 + (i - 59) = i by omega] at this
          simp only [BitVec.getLsbD_xor, BitVec.getLsbD_ushiftRight, this]
          rw [BitVec.getLsbD_of_ge a (18 + i) (by omega), BitVec.getLsbD_of_ge b (18 + i) (by omega)]
    exact (bij_xsr 18 (by decide)).1 hmid
  · rw [Fintype.card_prod, Fintype.card_prod, card_bv, card_bv, card_bv, card_bv, ← pow_add, ← pow_add]

/-- `pcg32`: each 32-bit value occurs exactly `2^32` times in every window of `2^64` outputs. -/
theorem C23_pcg32 (e : Pcg) (h : e.inc.toNat % 2 = 1) (y : BitVec 32) (n : Nat) :
    occurrences (pcg32Stream e).nth y n (2 ^ 64) = 2 ^ 32 ∧ IsPeriod (pcg32Stream e).nth (2 ^ 64) := by
  constructor
  · rw [pcg_count e h _ pcgXshRr (nth_pcg32 e), xshRr_fiber]
  · rw [show (pcg32Stream e).nth = fun k => pcgXshRr ((pcgBump e.inc)^[k] e.state) from funext (nth_pcg32 e),
      ← minimalPeriod_pcg e.inc e.state h]
    exact isPeriod_orbit _ _ _

theorem C23_rng32_pcg (seed : SeedData) (y : BitVec 32) (n : Nat) :
    occurrences (rng32_pcg_64 seed).nth y n (2 ^ 64) = 2 ^ 32 ∧ IsPeriod (rng32_pcg_64 seed).nth (2 ^ 64) :=
  C23_pcg32 _ (C23_increment_odd seed.s64 0#64).1 y n

/-- The hidden state recurs exactly after multiples of `2^64` calls. -/
theorem C23_state_period (e : Pcg) (h : e.inc.toNat % 2 = 1) (k : Nat) :
    (pcg64Stream e).stateAt k = e ↔ 2 ^ 64 ∣ k := by
  rw [stateAt_pcg64, ← minimalPeriod_pcg e.inc e.state h]
  constructor
  · intro he
    exact IsPeriodicPt.minimalPeriod_dvd (congrArg Pcg.state he)
  · intro hd
    have := (isPeriodicPt_minimalPeriod (pcgBump e.inc) e.state).trans_dvd hd
    rw [this]

/-- Non-vacuity: concrete engines, first outputs. -/
example : (pcg32Stream (pcgSeedStream 42#64 54#64)).nth 0 = 0xa15c02b7#32 := by decide +kernel

/-! ### C19 -/

/-- 32-bit generators that keep the low half of a counter-based 64-bit generator. -/
theorem C19_low_half (rng : SeedData → Stream (BitVec 32))
    (h : rng ∈ [rng32_mx1_64, rng32_mx2_64, rng32_mx3_64, rng32_splitmix_64]) (seed : SeedData) (y : BitVec 32) (n : Nat) :
    occurrences (rng seed).nth y n (2 ^ 64) = 2 ^ 32 := by
  have key : ∀ (f : Nat → BitVec 64) (mix : BitVec 64 → BitVec 64) (c s : BitVec 64), c.toNat % 2 = 1 → Bijective mix →
      (∀ k, f k = mix (s + BitVec.ofNat 64 (k + 1) * c)) → ∀ {w : Nat} (g : BitVec 64 → BitVec w) (y : BitVec w) (n : Nat),
      occurrences (fun k => g (f k)) y n (2 ^ 64) = (Finset.univ.filter (fun v => g v = y)).card := by
    intro f mix c s hc hm hf w g y n
    have hfe : (fun k => g (f k)) = fun k => (g ∘ mix ∘ (· + c)) ((· + c)^[k] s) := by
      funext k
      rw [hf, ← iterate_add_const, iterate_succ_apply']; rfl
    rw [hfe]
    have := full_orbit_count (· + c) s (by rw [minimalPeriod_weyl c s hc, card_bv]) (g ∘ mix ∘ (· + c)) y n
    rw [card_bv] at this
    rw [this]
    apply Finset.card_bij (fun v _ => mix (v + c))
    · intro a ha; simpa using ha
    · intro a _ b _ hab; exact (hm.comp (bij_add_const c)).1 hab
    · intro b hb
      obtain ⟨v, hv⟩ := (hm.comp (bij_add_const c)).2 b
      refine ⟨v, ?_, hv⟩
      have hv' : mix (v + c) = b := hv
      simp only [Finset.mem_filter, Finset.mem_univ, true_and, Function.comp] at hb ⊢
      rw [hv', hb]
  have hl := low_fiber 32 64 (by decide) y
  simp only [List.mem_cons, List.not_mem_nil, or_false] at h
  rcases h with rfl | rfl | rfl | rfl
  · rw [show (rng32_mx1_64 seed).nth = fun k => ((rng64_mx1 seed).nth k).setWidth 32 from
      funext fun k => Stream.nth_mapS _ _ _ k, key _ _ _ _ (by decide) bij_mx64_1 (nth_mx64_1 seed)]; exact hl
  · rw [show (rng32_mx2_64 seed).nth = fun k => ((rng64_mx2 seed).nth k).setWidth 32 from
      funext fun k => Stream.nth_mapS _ _ _ k, key _ _ _ _ (by decide) bij_mx64_2 (nth_mx64_2 seed)]; exact hl
  · rw [show (rng32_mx3_64 seed).nth = fun k => ((rng64_mx3 seed).nth k).setWidth 32 from
      funext fun k => Stream.nth_mapS _ _ _ k, key _ _ _ _ (by decide) bij_mx64_3 (nth_mx64_3 seed)]; exact hl
  · rw [show (rng32_splitmix_64 seed).nth = fun k => ((rng64_splitmix seed).nth k).setWidth 32 from
      funext fun k => Stream.nth_mapS _ _ _ k, key _ _ _ _ (by decide) bij_split_mix (nth_splitmix seed)]; exact hl

theorem splitmix_count {w : Nat} (seed : SeedData) (g : BitVec 64 → BitVec w) (y : BitVec w) (n : Nat) :
    occurrences (fun k => g ((rng64_splitmix seed).nth k)) y n (2 ^ 64) = (Finset.univ.filter (fun v => g v = y)).card := by
  have hfe : (fun k => g ((rng64_splitmix seed).nth k))
      = fun k => (g ∘ mix64_split_mix ∘ (· + 0x9E3779B97F4A7C15#64)) ((· + 0x9E3779B97F4A7C15#64)^[k] seed.s64) := by
    funext k
    rw [nth_splitmix, ← iterate_add_const, iterate_succ_apply']; rfl
  rw [hfe]
  have := full_orbit_count (· + 0x9E3779B97F4A7C15#64) seed.s64
    (by rw [minimalPeriod_weyl _ _ (by decide), card_bv]) (g ∘ mix64_split_mix ∘ (· + 0x9E3779B97F4A7C15#64)) y n
  rw [card_bv] at this
  rw [this]
  have hb := bij_split_mix.comp (bij_add_const 0x9E3779B97F4A7C15#64)
  apply Finset.card_bij (fun v _ => mix64_split_mix (v + 0x9E3779B97F4A7C15#64))
  · intro a ha; simpa using ha
  · intro a _ b _ hab; exact hb.1 hab
  · intro b hb'
    obtain ⟨v, hv⟩ := hb.2 b
    refine ⟨v, ?_, hv⟩
    have hv' : mix64_split_mix (v + 0x9E3779B97F4A7C15#64) = b := hv
    simp only [Finset.mem_filter, Finset.mem_univ, true_and, Function.comp] at hb' ⊢
    rw [hv', hb']

/-- The 16- and 8-bit splitmix generators (top bits) and pcg generators (low bits): every value exactly
`2^48` resp. `2^56` times in each window of `2^64` outputs. -/
theorem C19_narrow (seed : SeedData) (n : Nat) :
    (∀ y, occurrences (rng16_splitmix_64 seed).nth y n (2 ^ 64) = 2 ^ 48) ∧
    (∀ y, occurrences (rng8_splitmix_64 seed).nth y n (2 ^ 64) = 2 ^ 56) ∧
    (∀ y, occurrences (rng16_pcg_64 seed).nth y n (2 ^ 64) = 2 ^ 48) ∧
    (∀ y, occurrences (rng8_pcg_64 seed).nth y n (2 ^ 64) = 2 ^ 56) := by
  have hp : ∀ {w : Nat} (g : BitVec 64 → BitVec w) (y : BitVec w),
      occurrences (fun k => g ((rng64_pcg seed).nth k)) y n (2 ^ 64) = (Finset.univ.filter (fun v => g v = y)).card := by
    intro w g y
    rw [pcg_count (pcgSeed seed.s64) (C23_increment_odd seed.s64 0#64).1 _ (g ∘ pcgRxsMXs)
      (fun k => by rw [rng64_pcg, nth_pcg64]; rfl)]
    apply Finset.card_bij (fun v _ => pcgRxsMXs v)
    · intro a ha; simpa using ha
    · intro a _ b _ hab; exact bij_rxsMXs.1 hab
    · intro b hb
      obtain ⟨v, hv⟩ := bij_rxsMXs.2 b
      refine ⟨v, ?_, hv⟩
      simp only [Finset.mem_filter, Finset.mem_univ, true_and, Function.comp] at hb ⊢
      rw [hv, hb]
  refine ⟨fun y => ?_, fun y => ?_, fun y => ?_, fun y => ?_⟩
  · rw [show (rng16_splitmix_64 seed).nth = fun k => (((rng64_splitmix seed).nth k) >>> 48).setWidth 16 from
      funext fun k => Stream.nth_mapS _ _ _ k, splitmix_count seed (fun x => (x >>> 48).setWidth 16)]
    exact high_fiber 16 64 (by decide) y
  · rw [show (rng8_splitmix_64 seed).nth = fun k => (((rng64_splitmix seed).nth k) >>> 56).setWidth 8 from
      funext fun k => Stream.nth_mapS _ _ _ k, splitmix_count seed (fun x => (x >>> 56).setWidth 8)]
    exact high_fiber 8 64 (by decide) y
  · rw [show (rng16_pcg_64 seed).nth = fun k => ((rng64_pcg seed).nth k).setWidth 16 from
      funext fun k => Stream.nth_mapS _ _ _ k, hp]
    exact low_fiber 16 64 (by decide) y
  · rw [show (rng8_pcg_64 seed).nth = fun k => ((rng64_pcg seed).nth k).setWidth 8 from
      funext fun k => Stream.nth_mapS _ _ _ k, hp]
    exact low_fiber 8 64 (by decide) y

/-! ### C22: sfc -/

/-- The state transition is a bijection for all parameters with non-zero shifts. -/
theorem C22_reversible (p q r : Nat) (w : Nat) (hq : 0 < q) (hr : 0 < r) :
    Bijective (fun s : Sfc w => (sfcNext p q r s).2) := by
  have hmul : Injective (fun x : BitVec w => x + (x <<< r)) := by
    have := (bij_add_shl (w := w) 0#w r hr).1
    simpa using this
  have hinj : Injective (fun s : Sfc w => (sfcNext p q r s).2) := by
    rintro ⟨a, b, c, d⟩ ⟨a', b', c', d'⟩ h
    simp only [sfcNext, Sfc.mk.injEq] at h
    obtain ⟨h1, h2, h3, h4⟩ := h
    have hb : b = b' := (bij_xsr q hq).1 h1
    have hc : c = c' := hmul h2
    have hd : d = d' := (bij_add_const 1#w).1 h4
    subst hb; subst hc; subst hd
    have h5 := (bij_add_const d).1 ((BitVec.add_right_inj _).1 h3)
    have h6 := (bij_add_const b).1 h5
    rw [h6]
  have : Finite (Sfc w) := Finite.of_injective (fun s : Sfc w => (s.a, s.b, s.c, s.d)) (by
    rintro ⟨a, b, c, d⟩ ⟨a', b', c', d'⟩ h
    simpa using h)
  exact ⟨hinj, Finite.surjective_of_injective hinj⟩

theorem sfc_counter (name : String) (p q r : Nat) {w : Nat} (s : Sfc w) (k : Nat) :
    ((sfcStream name p q r s).stateAt k).d = s.d + BitVec.ofNat w k := by
  induction k with
  | zero => simp [Stream.stateAt_zero, sfcStream]
  | succ k ih =>
    rw [Stream.stateAt_succ]
    show ((sfcStream name p q r s).stateAt k).d + 1#w = _
    rw [ih, BitVec.add_assoc]
    congr 1
    apply BitVec.eq_of_toNat_eq
    simp [BitVec.toNat_add]

/-- From every state, a state can recur only after a multiple of `2^w` calls, and every state does recur
(the sequence is purely periodic). -/
theorem C22_cycle_length (name : String) (p q r : Nat) {w : Nat} (hq : 0 < q) (hr : 0 < r) (s : Sfc w) :
    (∀ i k, (sfcStream name p q r s).stateAt (i + k) = (sfcStream name p q r s).stateAt i → 2 ^ w ∣ k) ∧
    ∃ N, 0 < N ∧ 2 ^ w ∣ N ∧ (sfcStream name p q r s).stateAt N = s ∧
      ∀ n, (sfcStream name p q r s).nth (n + N) = (sfcStream name p q r s).nth n := by
  have h1 : ∀ i k, (sfcStream name p q r s).stateAt (i + k) = (sfcStream name p q r s).stateAt i → 2 ^ w ∣ k := by
    intro i k h
    have := congrArg Sfc.d h
    rw [sfc_counter, sfc_counter] at this
    have h2 := congrArg BitVec.toNat ((BitVec.add_right_inj _).1 this)
    rw [BitVec.toNat_ofNat, BitVec.toNat_ofNat] at h2
    have h3 : i + k ≡ i + 0 [MOD 2 ^ w] := h2
    exact (Nat.modEq_zero_iff_dvd).1 (Nat.ModEq.add_left_cancel' i h3)
  refine ⟨h1, ?_⟩
  have : Finite (Sfc w) := Finite.of_injective (fun s : Sfc w => (s.a, s.b, s.c, s.d)) (by
    rintro ⟨a, b, c, d⟩ ⟨a', b', c', d'⟩ h
    simpa using h)
  obtain ⟨N, hN, hid⟩ := iterate_periodic_of_bijective _ (C22_reversible p q r w hq hr)
  have hst : ∀ n, (sfcStream name p q r s).stateAt (n + N) = (sfcStream name p q r s).stateAt n := by
    intro n
    show (fun s : Sfc w => (sfcNext p q r s).2)^[n + N] s = _
    rw [iterate_add_apply, hid]; rfl
  have h0 := hst 0
  refine ⟨N, hN, h1 0 N h0, ?_, fun n => ?_⟩
  · rw [Nat.zero_add] at h0; exact h0
  rw [Stream.nth_eq, Stream.nth_eq, hst]

/-- The three generators in use. -/
theorem C22_registered (seed : SeedData) :
    (∀ i k, (rng64_sfc seed).stateAt (i + k) = (rng64_sfc seed).stateAt i → 2 ^ 64 ∣ k) ∧
    (∀ i k, (rng32_sfc seed).stateAt (i + k) = (rng32_sfc seed).stateAt i → 2 ^ 32 ∣ k) ∧
    (∀ i k, (rng16_sfc seed).stateAt (i + k) = (rng16_sfc seed).stateAt i → 2 ^ 16 ∣ k) :=
  ⟨(C22_cycle_length _ 24 11 3 (by decide) (by decide) _).1, (C22_cycle_length _ 21 9 3 (by decide) (by decide) _).1,
    (C22_cycle_length _ 6 5 3 (by decide) (by decide) _).1⟩

theorem sfc_seeds_distinct (name name' : String) (p q r w : Nat) (hq : 0 < q) (hr : 0 < r) (x y : BitVec w) (hxy : x ≠ y) (i : Nat) :
    (sfcStream name p q r (sfcSeed p q r x)).stateAt i ≠ (sfcStream name' p q r (sfcSeed p q r y)).stateAt i := by
  intro h
  have h' : (fun s : Sfc w => (sfcNext p q r s).2)^[i] (sfcSeed p q r x) = (fun s : Sfc w => (sfcNext p q r s).2)^[i] (sfcSeed p q r y) := h
  have hinj := (C22_reversible p q r w hq hr).1
  have h1 := hinj.iterate i h'
  unfold sfcSeed at h1
  exact hxy (congrArg Sfc.a (hinj.iterate 12 h1))

/-- Different seeds give different generators: at no position do two of them have the same state, and the seeding rounds lose
nothing. -/
theorem C22_seeds (a b : SeedData) (i : Nat) :
    (a.s64 ≠ b.s64 → @Ne (Sfc 64) ((rng64_sfc a).stateAt i) ((rng64_sfc b).stateAt i)) ∧
    (a.s32 ≠ b.s32 → @Ne (Sfc 32) ((rng32_sfc a).stateAt i) ((rng32_sfc b).stateAt i)) ∧
    (a.s16 ≠ b.s16 → @Ne (Sfc 16) ((rng16_sfc a).stateAt i) ((rng16_sfc b).stateAt i)) :=
  ⟨fun h => sfc_seeds_distinct "rng64::sfc_256" "rng64::sfc_256" 24 11 3 64 (by decide) (by decide) a.s64 b.s64 h i,
    fun h => sfc_seeds_distinct "rng32::sfc_128" "rng32::sfc_128" 21 9 3 32 (by decide) (by decide) a.s32 b.s32 h i,
    fun h => sfc_seeds_distinct "rng16::sfc_64" "rng16::sfc_64" 6 5 3 16 (by decide) (by decide) a.s16 b.s16 h i⟩

example : (sfcSeed 6 5 3 (w := 16) 1#16).d = 13#16 ∧ (rng16_sfc ⟨1#64, 0#64, 0#64, 0#64⟩).nth 0 ≠ 0#16 := by decide +kernel

/-! ### C24: minstd -/

theorem minstdSeed_valid (s : BitVec 32) : 1 ≤ minstdSeed s ∧ minstdSeed s ≤ 2147483646 := by
  unfold minstdSeed
  have := Nat.mod_lt s.toNat (show 2147483647 > 0 by norm_num)
  simp only
  split <;> omega

theorem minstd_iter (x k : Nat) (hx : x < 2147483647) : minstdStep^[k] x = 48271 ^ k * x % 2147483647 := by
  induction k with
  | zero => simp [Nat.mod_eq_of_lt hx]
  | succ k ih =>
    rw [iterate_succ_apply', ih, minstdStep, Nat.mul_mod, Nat.mod_mod, ← Nat.mul_mod, pow_succ]
    congr 1; ring

theorem minstd_order (k : Nat) : 48271 ^ k % 2147483647 = 1 ↔ 2147483646 ∣ k := by
  have hord : orderOf ((48271 : ℕ) : ZMod 2147483647) = 2147483646 := by
    have hc := minstd_cert
    unfold lucasCert at hc
    rw [Bool.and_eq_true, beq_iff_eq, List.all_eq_true] at hc
    apply orderOf_eq_of_pow_and_pow_div_prime (by norm_num)
    · rw [zmod_pow_eq_one_iff, ← powMod_eq _ _ 64 _ (by norm_num)]; exact hc.1
    · intro q hq hd
      rw [Ne, zmod_pow_eq_one_iff, ← powMod_eq _ _ 64 _ (lt_of_le_of_lt (Nat.div_le_self _ _) (by norm_num))]
      have := hc.2 q (prime_mem_of_dvd_prod hq hd [2, 3, 3, 7, 11, 31, 151, 331] (by norm_num) minstd_factors)
      simpa using this
  rw [← hord, orderOf_dvd_iff_pow_eq_one, zmod_pow_eq_one_iff]

/-- A valid state steps to a valid state, and recurs exactly after multiples of `2^31 - 2` steps. -/
theorem C24_step (x : Nat) (h1 : 1 ≤ x) (h2 : x ≤ 2147483646) :
    (∀ k, 1 ≤ minstdStep^[k] x ∧ minstdStep^[k] x ≤ 2147483646) ∧
    ∀ k, minstdStep^[k] x = x ↔ 2147483646 ∣ k := by
  have hp := prime_2147483647
  have hcop : Nat.Coprime 2147483647 x := by
    rw [hp.coprime_iff_not_dvd]
    intro hd; have := Nat.le_of_dvd (by omega) hd; omega
  constructor
  · intro k
    rw [minstd_iter x k (by omega)]
    have hlt := Nat.mod_lt (48271 ^ k * x) (show 2147483647 > 0 by norm_num)
    have hne : 48271 ^ k * x % 2147483647 ≠ 0 := by
      intro h0
      have hd := Nat.dvd_of_mod_eq_zero h0
      have := hcop.dvd_of_dvd_mul_right hd
      have := hp.dvd_of_dvd_pow this
      have := Nat.le_of_dvd (by norm_num) this
      omega
    omega
  · intro k
    rw [minstd_iter x k (by omega), ← minstd_order]
    constructor
    · intro h
      have h3 : 48271 ^ k * x ≡ 1 * x [MOD 2147483647] := by
        show _ % _ = _ % _
        rw [h, Nat.one_mul, Nat.mod_eq_of_lt (by omega)]
      exact Nat.ModEq.cancel_right_of_coprime hcop h3
    · intro h
      rw [Nat.mul_mod, h, Nat.one_mul, Nat.mod_mod, Nat.mod_eq_of_lt (by omega)]

theorem nth_minstd (seed : SeedData) (k : Nat) :
    (rng32_minstd seed).nth k = BitVec.ofNat 32 (minstdStep^[k + 1] (minstdSeed seed.s32)) := by
  rw [Stream.nth_eq, iterate_succ_apply']; rfl

/-- The registered generator, for every seed: outputs lie in `1 .. 2^31-2`, the least period is `2^31-2`, and
every value of that range occurs exactly once in each window of `2^31-2` outputs. -/
theorem C24_minstd (seed : SeedData) :
    (∀ k, 1 ≤ ((rng32_minstd seed).nth k).toNat ∧ ((rng32_minstd seed).nth k).toNat ≤ 2147483646) ∧
    LeastPeriod (rng32_minstd seed).nth 2147483646 ∧
    ∀ y : BitVec 32, 1 ≤ y.toNat → y.toNat ≤ 2147483646 → ∀ n, occurrences (rng32_minstd seed).nth y n 2147483646 = 1 := by
  obtain ⟨v1, v2⟩ := minstdSeed_valid seed.s32
  obtain ⟨hr, hk⟩ := C24_step _ v1 v2
  generalize hs : minstdSeed seed.s32 = x at *
  have hnth : (rng32_minstd seed).nth = fun k => BitVec.ofNat 32 (minstdStep (minstdStep^[k] x)) := by
    funext k; rw [nth_minstd, iterate_succ_apply', hs]
  have hto : ∀ k, (BitVec.ofNat 32 (minstdStep^[k] x)).toNat = minstdStep^[k] x := by
    intro k
    rw [BitVec.toNat_ofNat, Nat.mod_eq_of_lt]
    have := hr k; omega
  have hmin := minimalPeriod_of_iff minstdStep x 2147483646 (by norm_num) hk
  have hstep : ∀ v, v ∈ Finset.Icc 1 2147483646 → minstdStep v ∈ Finset.Icc 1 2147483646 := by
    intro v hv
    rw [Finset.mem_Icc] at hv ⊢
    exact (C24_step v hv.1 hv.2).1 1
  have hcount : ∀ y : BitVec 32, 1 ≤ y.toNat → y.toNat ≤ 2147483646 → ∀ n,
      occurrences (rng32_minstd seed).nth y n 2147483646 = 1 := by
    intro y hy1 hy2 n
    rw [hnth]
    have := orbit_count minstdStep x 2147483646 (by norm_num) hmin (Finset.Icc 1 2147483646)
      (fun n => Finset.mem_Icc.2 (hr n)) (by rw [Nat.card_Icc])
      (fun v => BitVec.ofNat 32 (minstdStep v)) y n
    rw [this, Finset.card_eq_one]
    -- the predecessor of y
    obtain ⟨N, hN⟩ : ∃ N, N + 1 = 2147483646 := ⟨2147483645, rfl⟩
    have hinv : minstdStep (minstdStep^[N] y.toNat) = y.toNat := by
      rw [← iterate_succ_apply' minstdStep]
      exact ((C24_step y.toNat hy1 hy2).2 (N + 1)).2 (by rw [hN])
    refine ⟨minstdStep^[N] y.toNat, ?_⟩
    ext v
    rw [Finset.mem_filter, Finset.mem_singleton, Finset.mem_Icc]
    constructor
    · rintro ⟨hv, he⟩
      have hv2 := Finset.mem_Icc.1 (hstep v (Finset.mem_Icc.2 hv))
      have h5 := congrArg BitVec.toNat he
      rw [BitVec.toNat_ofNat, Nat.mod_eq_of_lt (by omega)] at h5
      rw [← h5, ← iterate_succ_apply minstdStep]
      exact (((C24_step v hv.1 hv.2).2 (N + 1)).2 (by rw [hN])).symm
    · rintro rfl
      refine ⟨(C24_step y.toNat hy1 hy2).1 _, ?_⟩
      rw [hinv]; simp
  refine ⟨fun k => ?_, ?_, hcount⟩
  · rw [hnth]; simp only
    rw [← iterate_succ_apply' minstdStep, hto]; exact hr _
  · refine leastPeriod_of_counts _ _ (by norm_num) ?_ 1#32 1#32 ?_
    · rw [hnth, ← hmin]
      exact isPeriod_orbit minstdStep x (fun v => BitVec.ofNat 32 (minstdStep v))
    · rw [hcount 1#32 (by decide) (by decide)]; decide

/-- Non-vacuity: seed 0 is legal (it becomes 1) and the first output is the multiplier. -/
example : (rng32_minstd ⟨0#64, 0#64, 0#64, 0#64⟩).nth 0 = 48271#32 := by decide +kernel

end TFR
