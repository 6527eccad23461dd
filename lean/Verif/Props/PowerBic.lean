import Verif.Props.PowerRank
import Verif.Props.AvalancheTests
/-
C110. Power of the bit independence test.
-/
namespace TFR
open Finset Spec
variable {w : Nat}

namespace Spec
/-- Whether flipping input bit `j` changes output bit `k` does not depend on the input. -/
def Predictable (m : BitVec w → BitVec w) (j k : Nat) : Prop :=
  ∃ b : Bool, ∀ x, ((m x).getLsbD k != (m (x ^^^ BitVec.twoPow w j)).getLsbD k) = b

/-- The low bits of the result determine and are determined by as many low bits of the argument. -/
def Triangular (f : BitVec w → BitVec w) : Prop :=
  ∀ L, L ≤ w → ∀ x y, (∀ i < L, x.getLsbD i = y.getLsbD i) ↔ ∀ i < L, (f x).getLsbD i = (f y).getLsbD i
end Spec

/-- C110. The bit independence test of `n` values rejects every mixer with at least `D` predictable pairs of an input and an output bit,
`n D ≥ 7/5 (w² - 1) + 84`, whatever the source. -/
theorem C110_predictable (hw : w ≤ 64) (hw2 : 2 ≤ w) (n : BitVec 64) (s : Stream (BitVec w)) (m : Mixer w) (S : Finset (Nat × Nat))
    (hS : ∀ p ∈ S, p.1 < w ∧ p.2 < w ∧ Predictable m.mix p.1 p.2) (hn : 7 / 5 * ((w : ℝ) ^ 2 - 1) + 84 ≤ n.toNat * S.card) :
    ∃ st, bicTest chi2DistributionCdf n s m = .ok [⟨"", some st⟩] ∧ st.pValue ≤ 1 / 10 ^ 9 ∧ statPass st = false := by
  have hw2r : (2 : ℝ) ≤ w := by exact_mod_cast hw2
  have hn0 : n ≠ 0#64 := by
    rintro rfl
    have : ((0#64 : BitVec 64).toNat : ℝ) = 0 := by simp
    rw [this] at hn
    nlinarith
  have hnp : 0 < n.toNat := Nat.pos_of_ne_zero fun h => hn0 (BitVec.eq_of_toNat_eq (by simpa using h))
  have hn' : (0 : ℝ) < n.toNat := by exact_mod_cast hnp
  obtain ⟨stat, h1, -, h2⟩ := C88_bic hw hw2 chi2DistributionCdf n s m
  obtain ⟨st, rfl, h3, h4, h5, h6⟩ := h2 hn0
  refine ⟨st, h1, reject_of_value st h3 h5 ?_ ?_⟩
  · rw [h4]; nlinarith
  · rw [h4, h6]
    refine hn.trans ?_
    rw [← Finset.sum_product']
    have hsub : S ⊆ range w ×ˢ range w := by
      intro p hp
      obtain ⟨a, b, -⟩ := hS p hp
      exact mem_product.2 ⟨mem_range.2 a, mem_range.2 b⟩
    have hle : ∑ p ∈ S, (((changeHits m.mix s.nth n.toNat p.1 p.2 : ℝ) - n.toNat / 2) ^ 2 / (n.toNat / 2) +
           ((n.toNat - (changeHits m.mix s.nth n.toNat p.1 p.2 : ℝ)) - n.toNat / 2) ^ 2 / (n.toNat / 2)) ≤ _ :=
      sum_le_sum_of_subset_of_nonneg hsub fun p _ _ => by positivity
    refine le_trans (le_of_eq ?_) hle
    have hcell : ∀ p ∈ S, (((changeHits m.mix s.nth n.toNat p.1 p.2 : ℝ) - n.toNat / 2) ^ 2 / (n.toNat / 2) +
           ((n.toNat - (changeHits m.mix s.nth n.toNat p.1 p.2 : ℝ)) - n.toNat / 2) ^ 2 / (n.toNat / 2)) = (n.toNat : ℝ) := by
      intro p hp
      obtain ⟨-, -, b, hb⟩ := hS p hp
      have hcases : changeHits m.mix s.nth n.toNat p.1 p.2 = 0 ∨ changeHits m.mix s.nth n.toNat p.1 p.2 = n.toNat := by
        unfold changeHits
        simp only [hb]
        cases b
        · left; simp
        · right; simp
      rcases hcases with h | h
      · rw [h]; push_cast; field_simp; ring
      · rw [h]; field_simp; ring
    rw [sum_congr rfl hcell, sum_const, nsmul_eq_mul]
    ring

/-- C110. Such as every mixer that is affine over GF(2), from 86 values on. -/
theorem C110_affine (hw : w ≤ 64) (hw2 : 2 ≤ w) (n : BitVec 64) (hn : 86 ≤ n.toNat) (s : Stream (BitVec w)) (m : Mixer w)
    (haff : ∀ x y, m.mix (x ^^^ y) = m.mix x ^^^ m.mix y ^^^ m.mix 0#w) :
    ∃ st, bicTest chi2DistributionCdf n s m = .ok [⟨"", some st⟩] ∧ st.pValue ≤ 1 / 10 ^ 9 ∧ statPass st = false := by
  refine C110_predictable hw hw2 n s m (range w ×ˢ range w) (fun p hp => ?_) ?_
  · obtain ⟨a, b⟩ := mem_product.1 hp
    refine ⟨mem_range.1 a, mem_range.1 b, (m.mix (BitVec.twoPow w p.1)).getLsbD p.2 != (m.mix 0#w).getLsbD p.2, fun x => ?_⟩
    rw [haff, BitVec.getLsbD_xor, BitVec.getLsbD_xor]
    generalize (m.mix x).getLsbD p.2 = a
    generalize (m.mix (BitVec.twoPow w p.1)).getLsbD p.2 = b
    generalize (m.mix 0#w).getLsbD p.2 = c
    cases a <;> cases b <;> cases c <;> rfl
  · rw [card_product, card_range]
    have h1 : (86 : ℝ) ≤ n.toNat := by exact_mod_cast hn
    have h2 : (2 : ℝ) ≤ w := by exact_mod_cast hw2
    push_cast
    nlinarith [mul_le_mul_of_nonneg_right h1 (show (0 : ℝ) ≤ (w : ℝ) * w by positivity)]

/-- C110. And every mixer that ignores an input bit, if the test gets 1024 values. -/
theorem C110_ignored (hw : w ≤ 64) (hw2 : 8 ≤ w) (n : BitVec 64) (hn : 1024 ≤ n.toNat) (s : Stream (BitVec w)) (m : Mixer w) (j : Nat)
    (hj : j < w) (hig : ∀ x, m.mix (x ^^^ BitVec.twoPow w j) = m.mix x) :
    ∃ st, bicTest chi2DistributionCdf n s m = .ok [⟨"", some st⟩] ∧ st.pValue ≤ 1 / 10 ^ 9 ∧ statPass st = false := by
  refine C110_predictable hw (by omega) n s m ({j} ×ˢ range w) (fun p hp => ?_) ?_
  · obtain ⟨a, b⟩ := mem_product.1 hp
    have a := mem_singleton.1 a
    refine ⟨by omega, mem_range.1 b, false, fun x => ?_⟩
    rw [a, hig]; simp
  · rw [card_product, card_range, card_singleton]
    have h1 : (1024 : ℝ) ≤ n.toNat := by exact_mod_cast hn
    have h2 : (8 : ℝ) ≤ w := by exact_mod_cast hw2
    have h3 : (w : ℝ) ≤ 64 := by exact_mod_cast hw
    push_cast
    nlinarith

/-! ### One round of shift, multiplication, shift -/

theorem low_bits_iff (x y : BitVec w) (L : Nat) (hL : L ≤ w) : (∀ i < L, x.getLsbD i = y.getLsbD i) ↔ x.toNat % 2 ^ L = y.toNat % 2 ^ L := by
  constructor
  · intro h
    apply Nat.eq_of_testBit_eq
    intro i
    rw [Nat.testBit_mod_two_pow, Nat.testBit_mod_two_pow]
    by_cases hi : i < L
    · have := h i hi
      unfold BitVec.getLsbD at this
      simp [hi, this]
    · simp [hi]
  · intro h i hi
    have := congrArg (fun z => z.testBit i) h
    simp only [Nat.testBit_mod_two_pow, hi, decide_true, Bool.true_and] at this
    exact this

/-- Multiplication by an odd constant is triangular. -/
theorem triangular_mul (c : BitVec w) (hc : c.toNat % 2 = 1) : Triangular (fun x => x * c) := by
  intro L hL x y
  rw [low_bits_iff _ _ L hL, low_bits_iff _ _ L hL]
  have hd : 2 ^ L ∣ 2 ^ w := pow_dvd_pow 2 hL
  rw [BitVec.toNat_mul, BitVec.toNat_mul, Nat.mod_mod_of_dvd _ hd, Nat.mod_mod_of_dvd _ hd]
  constructor
  · intro h
    exact Nat.ModEq.mul_right _ h
  · intro h
    refine Nat.ModEq.cancel_right_of_coprime (m := 2 ^ L) (c := c.toNat) ?_ h
    rw [← Nat.coprime_iff_gcd_eq_one]
    exact Nat.Coprime.pow_left L (Nat.coprime_two_left.2 (Nat.odd_iff.2 hc))

theorem flip_bit (x : BitVec w) (j i : Nat) (hj : j < w) : (x ^^^ BitVec.twoPow w j).getLsbD i = (x.getLsbD i ^^ decide (i = j)) := by
  rw [BitVec.getLsbD_xor, BitVec.getLsbD_twoPow]
  by_cases h : i = j
  · subst h; simp [hj]
  · have : ¬ j = i := fun e => h e.symm
    simp [h, this]

/-- Pairs of bits that are predictable for a mixer that shifts by `a`, applies a triangular function and shifts by `b`: `L` is the lowest
bit that changes after the first shift. -/
theorem xmx_predictable (a b : Nat) (ha : 1 ≤ a) (hb : 1 ≤ b) (T : BitVec w → BitVec w) (hT : Triangular T) (m : BitVec w → BitVec w)
    (hm : ∀ x, m x = T (x ^^^ (x >>> a)) ^^^ (T (x ^^^ (x >>> a)) >>> b)) (j k : Nat) (hj : j < w) (_hk : k < w)
    (h : (w ≤ k + b ∧ k ≤ (if j < a then j else j - a)) ∨ k + b ≤ (if j < a then j else j - a)) : Predictable m j k := by
  set L := if j < a then j else j - a with hL
  have hLw : L < w := by rw [hL]; split <;> omega
  have hbit : ∀ (x : BitVec w) i, (x ^^^ (x >>> a)).getLsbD i = (x.getLsbD i ^^ x.getLsbD (i + a)) := by
    intro x i
    rw [BitVec.getLsbD_xor, BitVec.getLsbD_ushiftRight, Nat.add_comm]
  have hlow : ∀ x : BitVec w, ∀ i < L, (T (x ^^^ (x >>> a))).getLsbD i =
      (T ((x ^^^ BitVec.twoPow w j) ^^^ ((x ^^^ BitVec.twoPow w j) >>> a))).getLsbD i := by
    intro x
    refine (hT L hLw.le _ _).1 fun i hi => ?_
    rw [hbit, hbit, flip_bit x j _ hj, flip_bit x j _ hj]
    have h1 : ¬ i = j := by rw [hL] at hi; split at hi <;> omega
    have h2 : ¬ i + a = j := by rw [hL] at hi; split at hi <;> omega
    simp [h1, h2]
  have hflip : ∀ x : BitVec w, (T (x ^^^ (x >>> a))).getLsbD L ≠
      (T ((x ^^^ BitVec.twoPow w j) ^^^ ((x ^^^ BitVec.twoPow w j) >>> a))).getLsbD L := by
    intro x hc
    have := (hT (L + 1) hLw (x ^^^ (x >>> a)) ((x ^^^ BitVec.twoPow w j) ^^^ ((x ^^^ BitVec.twoPow w j) >>> a))).2 (fun i hi => by
      rcases Nat.lt_succ_iff_lt_or_eq.1 hi with hi | rfl
      · exact hlow x i hi
      · exact hc) L (Nat.lt_succ_self _)
    rw [hbit, hbit, flip_bit x j _ hj, flip_bit x j _ hj] at this
    by_cases hja : j < a
    · rw [if_pos hja] at hL
      have h2 : ¬ L + a = j := by omega
      rw [hL] at this
      rw [decide_eq_true rfl, decide_eq_false (show ¬ j + a = j by omega)] at this
      revert this
      generalize x.getLsbD j = p
      generalize x.getLsbD (j + a) = q
      cases p <;> cases q <;> simp
    · rw [if_neg hja] at hL
      have h1 : ¬ L = j := by omega
      have h2 : L + a = j := by omega
      simp [h1, h2] at this
  have hout : ∀ y : BitVec w, (m y).getLsbD k = ((T (y ^^^ (y >>> a))).getLsbD k ^^ (T (y ^^^ (y >>> a))).getLsbD (k + b)) := by
    intro y
    rw [hm, BitVec.getLsbD_xor, BitVec.getLsbD_ushiftRight, Nat.add_comm]
  rcases h with ⟨h1, h2⟩ | h1
  · refine ⟨decide (k = L), fun x => ?_⟩
    rw [hout, hout, BitVec.getLsbD_of_ge _ _ h1, BitVec.getLsbD_of_ge _ _ h1, Bool.xor_false, Bool.xor_false]
    by_cases hkL : k = L
    · rw [hkL]; simpa using hflip x
    · rw [hlow x k (by omega)]; simpa using hkL
  · refine ⟨decide (k + b = L), fun x => ?_⟩
    rw [hout, hout, hlow x k (by omega)]
    by_cases hkL : k + b = L
    · rw [hkL]
      have := hflip x
      revert this
      generalize (T (x ^^^ (x >>> a))).getLsbD L = p
      generalize (T ((x ^^^ BitVec.twoPow w j) ^^^ ((x ^^^ BitVec.twoPow w j) >>> a))).getLsbD L = q
      generalize (T ((x ^^^ BitVec.twoPow w j) ^^^ ((x ^^^ BitVec.twoPow w j) >>> a))).getLsbD k = r
      cases p <;> cases q <;> cases r <;> simp
    · rw [hlow x (k + b) (by omega)]; simpa using hkL

/-- The pairs of `xmx_predictable`. -/
def xmxPairs (w a b : Nat) : Finset (Nat × Nat) :=
  (range w ×ˢ range w).filter fun p => (w ≤ p.2 + b ∧ p.2 ≤ (if p.1 < a then p.1 else p.1 - a)) ∨ p.2 + b ≤ (if p.1 < a then p.1 else p.1 - a)

theorem xmx_pairs (a b : Nat) (ha : 1 ≤ a) (hb : 1 ≤ b) (T : BitVec w → BitVec w) (hT : Triangular T) (m : BitVec w → BitVec w)
    (hm : ∀ x, m x = T (x ^^^ (x >>> a)) ^^^ (T (x ^^^ (x >>> a)) >>> b)) :
    ∀ p ∈ xmxPairs w a b, p.1 < w ∧ p.2 < w ∧ Predictable m p.1 p.2 := by
  intro p hp
  obtain ⟨h1, h2⟩ := mem_filter.1 hp
  obtain ⟨h3, h4⟩ := mem_product.1 h1
  have h3 := mem_range.1 h3
  have h4 := mem_range.1 h4
  exact ⟨h3, h4, xmx_predictable a b ha hb T hT m hm _ _ h3 h4 h2⟩

/-- C110. The mixers of one round in the catalogue have at least six predictable pairs of bits. -/
theorem C110_mixers :
    (∃ S : Finset (Nat × Nat), 6 ≤ S.card ∧ ∀ p ∈ S, p.1 < 32 ∧ p.2 < 32 ∧ Predictable mix32_mx1 p.1 p.2) ∧
    (∃ S : Finset (Nat × Nat), 6 ≤ S.card ∧ ∀ p ∈ S, p.1 < 64 ∧ p.2 < 64 ∧ Predictable mix64_mx1 p.1 p.2) ∧
    (∃ S : Finset (Nat × Nat), 6 ≤ S.card ∧ ∀ p ∈ S, p.1 < 64 ∧ p.2 < 64 ∧ Predictable mix64_xxh3 p.1 p.2) ∧
    (∃ S : Finset (Nat × Nat), 6 ≤ S.card ∧ ∀ p ∈ S, p.1 < 64 ∧ p.2 < 64 ∧ Predictable mix64_fast_hash p.1 p.2) :=
  ⟨⟨_, by decide +kernel, xmx_pairs 16 14 (by norm_num) (by norm_num) _ (triangular_mul 2471660141#32 (by decide)) _ fun _ => rfl⟩,
   ⟨_, by decide +kernel, xmx_pairs 32 29 (by norm_num) (by norm_num) _ (triangular_mul 0xe9846af9b1a615d#64 (by decide)) _ fun _ => rfl⟩,
   ⟨_, by decide +kernel, xmx_pairs 37 32 (by norm_num) (by norm_num) _ (triangular_mul 0x165667919E3779F9#64 (by decide)) _ fun _ => rfl⟩,
   ⟨_, by decide +kernel, xmx_pairs 23 47 (by norm_num) (by norm_num) _ (triangular_mul 0x2127599bf4325c37#64 (by decide)) _ fun _ => rfl⟩⟩

/-! ### Batteries and the report -/

/-- A statistic of a mixer test with p-value at most 1e-9 makes the battery fail, under every schedule. -/
theorem mixer_rejects (cdf : ℝ → ℝ → ℝ) (type : TestType) (n : BitVec 64) (setup : TestSetup w) (hth : 0 < setup.maxThreads)
    (b : Battery ℝ) (hb : EvaluateOutcome (suiteDef cdf) n setup b) (htest : type ∈ setup.tests) (s : Stream (BitVec w)) (hs : s ∈ setup.sources)
    (f : BitVec 64 → Stream (BitVec w) → Mixer w → TestRun) (hf : suiteMixer cdf type = some f) (m : Mixer w) (hm : setup.mix = some m)
    (res : List (SubTest ℝ)) (hres : f n s m = some (.ok res)) (name : String) (st : Statistic ℝ) (hst : ⟨name, some st⟩ ∈ res)
    (hp : st.pValue ≤ 1 / 10 ^ 9) : ¬ BatteryPasses b := by
  have hty : (suiteDef cdf type : TestDef w ℝ).type = type := (C89_kind (w := w) cdf type).2.2.2
  have hts : (suiteDef cdf type : TestDef w ℝ).testMixer = some fun n s m => (f n s m).value := by
    unfold suiteDef; rw [hf]; rfl
  have hval : (f n s m).value = res := by rw [hres]; rfl
  have hmem : ∃ r ∈ expectedResults (suiteDef cdf) n setup, r.key = ⟨type, name⟩ ∧ r.stats = st := by
    unfold expectedResults
    refine ⟨⟨s.name, setup.subject, n, ⟨type, name⟩, st⟩, ?_, rfl, rfl⟩
    refine List.mem_flatMap.2 ⟨type, htest, List.mem_flatMap.2 ⟨s, hs, List.mem_append_left _ ?_⟩⟩
    rw [hts, hty, hm]
    dsimp only
    rw [hval, List.mem_filterMap]
    exact ⟨_, hst, rfl⟩
  exact result_rejects cdf type n setup hth b hb name st hmem hp

/-- C110. A battery with at least `2^14` values that contains the bit independence test fails, under every schedule, if the mixer has six
predictable pairs of bits. -/
theorem C110_battery (t : WT) (k : Nat) (hk : 14 ≤ k) (hk2 : k < 64) (setup : TestSetup t.bits) (hth : 0 < setup.maxThreads) (b : Battery ℝ)
    (hb : EvaluateOutcome (suiteDef chi2DistributionCdf) (BitVec.ofNat 64 (2 ^ k)) setup b) (htest : TestType.bic ∈ setup.tests)
    (hs : setup.sources ≠ []) (m : Mixer t.bits) (hm : setup.mix = some m) (S : Finset (Nat × Nat)) (hS6 : 6 ≤ S.card)
    (hS : ∀ p ∈ S, p.1 < t.bits ∧ p.2 < t.bits ∧ Predictable m.mix p.1 p.2) : ¬ BatteryPasses b := by
  obtain ⟨s, hs⟩ := List.exists_mem_of_ne_nil _ hs
  obtain ⟨n', h1, h2⟩ := slower_budget k hk2 1024 le_rfl (by
    calc 1024 ^ 7 = 2 ^ (5 * 14) := by norm_num
      _ ≤ 2 ^ (5 * k) := Nat.pow_le_pow_right (by norm_num) (by omega))
  have hw64 : t.bits ≤ 64 := by cases t <;> decide
  have hw2 : 2 ≤ t.bits := by cases t <;> decide
  obtain ⟨st, h3, h4, -⟩ := C110_predictable hw64 hw2 n' s m S hS (by
    have e1 : (1024 : ℝ) ≤ n'.toNat := by exact_mod_cast h2
    have e2 : (6 : ℝ) ≤ S.card := by exact_mod_cast hS6
    have e3 : (t.bits : ℝ) ≤ 64 := by exact_mod_cast hw64
    have e4 : (0 : ℝ) ≤ t.bits := by positivity
    nlinarith)
  refine mixer_rejects chi2DistributionCdf .bic _ setup hth b hb htest s hs _ rfl m hm [⟨"", some st⟩] ?_ "" st List.mem_cons_self h4
  dsimp only
  rw [show (getTestDefinition .bic).limiter.limit (BitVec.ofNat 64 (2 ^ k)) = some n' from h1]
  exact congrArg some h3

theorem mixer_setup_mem (t : WT) (hw : BitVec 32) (s : Subjects t) (fuel : Nat)
    (setups : List (TestSetup t.bits)) (hs : testCommandSetups t (defaultMaxThreads hw) s fuel = some (.ok setups))
    (m : Mixer t.bits) (hm : m ∈ s.mixers) : (createMixerTestSetup t (defaultMaxThreads hw) m).range 10 25 ∈ setups := by
  unfold testCommandSetups at hs
  dsimp only at hs
  cases hp : s.prngs.mapM (fun p => createPrngTestSetup t (defaultMaxThreads hw) p fuel) with
  | none => rw [hp] at hs; cases hs
  | some rs =>
    rw [hp] at hs
    dsimp only at hs
    have hs := Option.some.inj hs
    cases hp2 : rs.mapM (fun r => (do .ok ((← r).range 10 25) : R (TestSetup t.bits))) with
    | error e => rw [hp2] at hs; cases hs
    | ok prngs =>
      rw [hp2] at hs
      generalize optionalData (defaultMaxThreads hw) s.trng ("file" ++ toString t.bits ++ "::" ++ "trng") 10 (min 25 22) = A at hs
      generalize optionalData (defaultMaxThreads hw) s.drng ("file" ++ toString t.bits ++ "::" ++ "drng") 10 (min 25 27) = B at hs
      generalize (s.combiners.mapM fun c => (do .ok ((← createCombinerTestSetup t (defaultMaxThreads hw) c).range 10 25) :
        R (TestSetup t.bits))) = C at hs
      cases A with
      | error e => cases hs
      | ok A =>
        cases B with
        | error e => cases hs
        | ok B =>
          cases C with
          | error e => cases hs
          | ok C =>
            obtain rfl : _ = setups := by injection hs
            simp only [List.mem_append, List.mem_map]
            exact .inl (.inl (.inr ⟨m, hm, rfl⟩))

/-- A mixer whose batteries of `2^K` values fail has a line in the report that says that it failed with at most `2^K` values. -/
theorem report_of_rejected_mixer (analyse : Battery ℝ → List ResultAnalysis) (ha : Analyses analyse) (t : WT) (hw : BitVec 32)
    (s : Subjects t) (fuel : Nat) (hfuel : 2 ^ t.bits ≤ fuel) (h1 : s.trng ≠ some []) (h2 : s.drng ≠ some [])
    (setups : List (TestSetup t.bits)) (hs : testCommandSetups t (defaultMaxThreads hw) s fuel = some (.ok setups))
    (runs : List (EvalRun t.bits)) (hruns : runs.map Prod.fst = setups)
    (hout : ∀ run ∈ runs, ∀ k : Nat, 10 ≤ k → k ≤ 25 →
      EvaluateOutcome (suiteDef chi2DistributionCdf) (BitVec.ofNat 64 (2 ^ k)) run.1 (run.2 (BitVec.ofNat 64 (2 ^ k))))
    (config : Config) (fs : TextFiles) :
    ∃ (fs' : TextFiles) (rows : List ReportRow), testCommand false (config.testResultFilePath t) analyse runs fs = .ok fs' ∧
      fs' (config.testResultFilePath t) = some (reportIntro t.bits ++ String.join (rows.map ReportRow.text)) ∧
      ∀ m ∈ s.mixers, ∀ K : Nat, 10 ≤ K → K ≤ 25 → (∀ (setup : TestSetup t.bits) (b : Battery ℝ), 0 < setup.maxThreads →
        setup.tests = defaultTestTypes → setup.sources = createSources t → setup.mix = some m →
        EvaluateOutcome (suiteDef chi2DistributionCdf) (BitVec.ofNat 64 (2 ^ K)) setup b → ¬ BatteryPasses b) →
      ∃ row ∈ rows, row.subject = m.name ∧ row.passed = false ∧ row.power ≤ K ∧ row.failures ≠ [] := by
  obtain ⟨fs', rows, r1, r2, -, -, r3⟩ := C96_test_command chi2DistributionCdf analyse ha t hw s fuel hfuel h1 h2 setups hs runs hruns hout config fs
  refine ⟨fs', rows, r1, r2, fun m hm K hK hK2 hrej => ?_⟩
  have hx := mixer_setup_mem t hw s fuel setups hs m hm
  rw [← hruns] at hx
  obtain ⟨run, hrun, hrun2⟩ := List.mem_map.1 hx
  have hnot := hrej run.1 _ (by rw [hrun2]; exact lt_of_lt_of_le (by norm_num) (le_max_right _ 2)) (by rw [hrun2]; rfl) (by rw [hrun2]; rfl)
    (by rw [hrun2]; rfl) (hout run hrun K hK hK2)
  have hex : ∀ (l : List (EvalRun t.bits)) (rows : List ReportRow), List.Forall₂ (fun (run : EvalRun t.bits) row =>
      Truthful (fun k => run.2 (BitVec.ofNat 64 (2 ^ k))) run.1.subject 10 run.1.stopPower.toNat row) l rows → run ∈ l →
      ∃ row ∈ rows, Truthful (fun k => run.2 (BitVec.ofNat 64 (2 ^ k))) run.1.subject 10 run.1.stopPower.toNat row := by
    intro l rows h
    induction h with
    | nil => intro h; cases h
    | cons h _ ih =>
      intro hm
      rcases List.mem_cons.1 hm with rfl | hm
      · exact ⟨_, List.mem_cons_self, h⟩
      · obtain ⟨row, hr, ht⟩ := ih hm
        exact ⟨row, List.mem_cons_of_mem _ hr, ht⟩
  obtain ⟨row, hr, ht⟩ := hex runs rows r3 hrun
  have := truthful_fails _ _ _ _ K row ht hK (by rw [hrun2]; exact hK2) hnot
  exact ⟨row, hr, by rw [this.1, hrun2]; rfl, this.2⟩

/-- C110. The report of `-test`, for any data files, further subjects and schedules: a mixer with at least six predictable pairs of bits has a
line, and it says that the mixer failed with at most `2^14` values. -/
theorem C110_report (analyse : Battery ℝ → List ResultAnalysis) (ha : Analyses analyse) (t : WT) (hw : BitVec 32)
    (s : Subjects t) (fuel : Nat) (hfuel : 2 ^ t.bits ≤ fuel) (h1 : s.trng ≠ some []) (h2 : s.drng ≠ some [])
    (setups : List (TestSetup t.bits)) (hs : testCommandSetups t (defaultMaxThreads hw) s fuel = some (.ok setups))
    (runs : List (EvalRun t.bits)) (hruns : runs.map Prod.fst = setups)
    (hout : ∀ run ∈ runs, ∀ k : Nat, 10 ≤ k → k ≤ 25 →
      EvaluateOutcome (suiteDef chi2DistributionCdf) (BitVec.ofNat 64 (2 ^ k)) run.1 (run.2 (BitVec.ofNat 64 (2 ^ k))))
    (config : Config) (fs : TextFiles) :
    ∃ (fs' : TextFiles) (rows : List ReportRow), testCommand false (config.testResultFilePath t) analyse runs fs = .ok fs' ∧
      fs' (config.testResultFilePath t) = some (reportIntro t.bits ++ String.join (rows.map ReportRow.text)) ∧
      ∀ m ∈ s.mixers, (∃ S : Finset (Nat × Nat), 6 ≤ S.card ∧ ∀ p ∈ S, p.1 < t.bits ∧ p.2 < t.bits ∧ Predictable m.mix p.1 p.2) →
      ∃ row ∈ rows, row.subject = m.name ∧ row.passed = false ∧ row.power ≤ 14 ∧ row.failures ≠ [] := by
  obtain ⟨fs', rows, r1, r2, r3⟩ := report_of_rejected_mixer analyse ha t hw s fuel hfuel h1 h2 setups hs runs hruns hout config fs
  refine ⟨fs', rows, r1, r2, fun m hm ⟨S, hS6, hS⟩ => r3 m hm 14 (by norm_num) (by norm_num) fun setup b e1 e2 e3 e4 e5 => ?_⟩
  refine C110_battery t 14 le_rfl (by norm_num) setup e1 b e5 (by rw [e2]; decide) ?_ m e4 S hS6 hS
  rw [e3]
  cases t <;> decide

/-- C110. With the 64-bit mixers of the catalogue among the subjects the report says of `mix64::mx1`, `mix64::xxh3` and `mix64::fast_hash` that
they failed with at most `2^14` values. -/
theorem C110_report_64 (analyse : Battery ℝ → List ResultAnalysis) (ha : Analyses analyse) (hw : BitVec 32)
    (s : Subjects .u64) (fuel : Nat) (hfuel : 2 ^ WT.u64.bits ≤ fuel) (h1 : s.trng ≠ some []) (h2 : s.drng ≠ some [])
    (setups : List (TestSetup WT.u64.bits)) (hs : testCommandSetups .u64 (defaultMaxThreads hw) s fuel = some (.ok setups))
    (runs : List (EvalRun WT.u64.bits)) (hruns : runs.map Prod.fst = setups)
    (hout : ∀ run ∈ runs, ∀ k : Nat, 10 ≤ k → k ≤ 25 →
      EvaluateOutcome (suiteDef chi2DistributionCdf) (BitVec.ofNat 64 (2 ^ k)) run.1 (run.2 (BitVec.ofNat 64 (2 ^ k))))
    (config : Config) (fs : TextFiles) (hmix : s.mixers = getMixers64) :
    ∃ (fs' : TextFiles) (rows : List ReportRow), testCommand false (config.testResultFilePath .u64) analyse runs fs = .ok fs' ∧
      fs' (config.testResultFilePath .u64) = some (reportIntro 64 ++ String.join (rows.map ReportRow.text)) ∧
      ∀ name ∈ ["mix64::mx1", "mix64::xxh3", "mix64::fast_hash"],
        ∃ row ∈ rows, row.subject = name ∧ row.passed = false ∧ row.power ≤ 14 ∧ row.failures ≠ [] := by
  obtain ⟨fs', rows, r1, r2, r3⟩ := C110_report analyse ha .u64 hw s fuel hfuel h1 h2 setups hs runs hruns hout config fs
  refine ⟨fs', rows, r1, r2, fun name hname => ?_⟩
  obtain ⟨-, m1, m2, m3⟩ := C110_mixers
  simp only [List.mem_cons, List.not_mem_nil, or_false] at hname
  rcases hname with rfl | rfl | rfl
  · exact r3 ⟨"mix64::mx1", mix64_mx1⟩ (by rw [hmix]; unfold getMixers64; simp) m1
  · exact r3 ⟨"mix64::xxh3", mix64_xxh3⟩ (by rw [hmix]; unfold getMixers64; simp) m2
  · exact r3 ⟨"mix64::fast_hash", mix64_fast_hash⟩ (by rw [hmix]; unfold getMixers64; simp) m3

/-- C110. And with the 32-bit mixers it says so of `mix32::mx1`. -/
theorem C110_report_32 (analyse : Battery ℝ → List ResultAnalysis) (ha : Analyses analyse) (hw : BitVec 32)
    (s : Subjects .u32) (fuel : Nat) (hfuel : 2 ^ WT.u32.bits ≤ fuel) (h1 : s.trng ≠ some []) (h2 : s.drng ≠ some [])
    (setups : List (TestSetup WT.u32.bits)) (hs : testCommandSetups .u32 (defaultMaxThreads hw) s fuel = some (.ok setups))
    (runs : List (EvalRun WT.u32.bits)) (hruns : runs.map Prod.fst = setups)
    (hout : ∀ run ∈ runs, ∀ k : Nat, 10 ≤ k → k ≤ 25 →
      EvaluateOutcome (suiteDef chi2DistributionCdf) (BitVec.ofNat 64 (2 ^ k)) run.1 (run.2 (BitVec.ofNat 64 (2 ^ k))))
    (config : Config) (fs : TextFiles) (hmix : s.mixers = getMixers32) :
    ∃ (fs' : TextFiles) (rows : List ReportRow), testCommand false (config.testResultFilePath .u32) analyse runs fs = .ok fs' ∧
      fs' (config.testResultFilePath .u32) = some (reportIntro 32 ++ String.join (rows.map ReportRow.text)) ∧
      ∃ row ∈ rows, row.subject = "mix32::mx1" ∧ row.passed = false ∧ row.power ≤ 14 ∧ row.failures ≠ [] := by
  obtain ⟨fs', rows, r1, r2, r3⟩ := C110_report analyse ha .u32 hw s fuel hfuel h1 h2 setups hs runs hruns hout config fs
  exact ⟨fs', rows, r1, r2, r3 ⟨"mix32::mx1", mix32_mx1⟩ (by rw [hmix]; unfold getMixers32; simp) C110_mixers.1⟩

-- C110, non-vacuity: a pair that is not predictable, and the hypotheses of the theorems on reports.
example : ¬ Predictable (fun x : BitVec 8 => x * x) 0 2 := by
  rintro ⟨b, h⟩
  have h1 := h 0#8
  have h2 := h 3#8
  revert h1 h2
  revert b
  decide
example (s : Stream (BitVec 64)) : ∃ st, bicTest chi2DistributionCdf 1024#64 s ⟨"x", mix64_xxh3⟩ = .ok [⟨"", some st⟩] ∧ statPass st = false := by
  obtain ⟨-, -, ⟨S, h1, h2⟩, -⟩ := C110_mixers
  obtain ⟨st, h3, -, h4⟩ := C110_predictable (by norm_num) (by norm_num) 1024#64 s ⟨"x", mix64_xxh3⟩ S h2 (by
    have : (6 : ℝ) ≤ S.card := by exact_mod_cast h1
    have e : ((1024#64 : BitVec 64).toNat : ℝ) = 1024 := by norm_num
    rw [e]; push_cast; linarith)
  exact ⟨st, h3, h4⟩
example (s : Stream (BitVec 16)) : ∃ st, bicTest chi2DistributionCdf 100#64 s ⟨"gray", fun x => x ^^^ (x >>> 1)⟩ = .ok [⟨"", some st⟩] ∧
    statPass st = false := by
  obtain ⟨st, h3, -, h4⟩ := C110_affine (by norm_num) (by norm_num) 100#64 (by decide) s ⟨"gray", fun x => x ^^^ (x >>> 1)⟩ (by
    intro x y
    apply BitVec.eq_of_getLsbD_eq
    intro i _
    simp only [BitVec.getLsbD_xor, BitVec.getLsbD_ushiftRight, BitVec.getLsbD_zero]
    generalize x.getLsbD i = a
    generalize y.getLsbD i = b
    generalize x.getLsbD (1 + i) = c
    generalize y.getLsbD (1 + i) = d
    cases a <;> cases b <;> cases c <;> cases d <;> rfl)
  exact ⟨st, h3, h4⟩
example (s : Stream (BitVec 8)) : ∃ st, bicTest chi2DistributionCdf 1024#64 s ⟨"low", fun x => (x &&& 0x7F#8) * (x &&& 0x7F#8)⟩ = .ok [⟨"", some st⟩] ∧
    statPass st = false := by
  obtain ⟨st, h3, -, h4⟩ := C110_ignored (by norm_num) (by norm_num) 1024#64 (by decide) s ⟨"low", fun x => (x &&& 0x7F#8) * (x &&& 0x7F#8)⟩ 7
    (by norm_num) (by
      intro x
      have : ∀ x : BitVec 8, (x ^^^ BitVec.twoPow 8 7) &&& 0x7F#8 = x &&& 0x7F#8 := by decide +kernel
      dsimp only
      rw [this])
  exact ⟨st, h3, h4⟩
example : ∃ (s : Subjects .u64) (analyse : Battery ℝ → List ResultAnalysis) (fuel : Nat) (setups : List (TestSetup WT.u64.bits))
    (runs : List (EvalRun WT.u64.bits)), s.mixers = getMixers64 ∧ s.trng ≠ some [] ∧ s.drng ≠ some [] ∧ Analyses analyse ∧
    2 ^ WT.u64.bits ≤ fuel ∧ testCommandSetups .u64 (defaultMaxThreads 8) s fuel = some (.ok setups) ∧ runs.map Prod.fst = setups ∧
    ∀ run ∈ runs, ∀ k : Nat, 10 ≤ k → k ≤ 25 →
      EvaluateOutcome (suiteDef chi2DistributionCdf) (BitVec.ofNat 64 (2 ^ k)) run.1 (run.2 (BitVec.ofNat 64 (2 ^ k))) := by
  obtain ⟨analyse, fuel, setups, runs, h⟩ := report_instance .u64 ⟨some [1, 2, 3], none, getMixers64, [rng64_xorshift], []⟩ (by simp) (by simp)
  exact ⟨_, analyse, fuel, setups, runs, rfl, by simp, by simp, h⟩

end TFR
